import Verif.Spec.Functions

/-! Areas under step functions and under piecewise linear functions on `[0, ∞)`. -/

namespace Verif.Spec

/-- `F x` is the area under the step function `f` over `[0, x]`: between two times without a change in between it grows by a rectangle. -/
def StepArea (f F : ℚ → ℚ) : Prop :=
  F 0 = 0 ∧ ∃ T : List ℚ, ∀ a b, 0 ≤ a → a ≤ b → (∀ t ∈ T, ¬ (a < t ∧ t < b)) → F b - F a = f a * (b - a)

/-- `A x` is the area under the piecewise linear function `F` over `[0, x]`: between two times without a bend in between it grows by a trapezoid. -/
def LinArea (F A : ℚ → ℚ) : Prop :=
  A 0 = 0 ∧ ∃ T : List ℚ, ∀ a b, 0 ≤ a → a ≤ b → (∀ t ∈ T, ¬ (a < t ∧ t < b)) → A b - A a = (F a + F b) / 2 * (b - a)

end Verif.Spec
