import Verif.Model.Evaluate
import Verif.Spec.Trips

/-! Average travel times. -/

namespace Verif.Spec
open Verif

/-- `A x` is the area under the piecewise linear function `F` over `[0, x]`, for `x` up to `h`: between two times without a bend in between it grows by a trapezoid. -/
def AreaUpTo (h : ℚ) (F A : ℚ → ℚ) : Prop :=
  A 0 = 0 ∧ ∃ T : List ℚ, ∀ a b, 0 ≤ a → a ≤ b → b ≤ h → (∀ t ∈ T, ¬ (a < t ∧ t < b)) → A b - A a = (F a + F b) / 2 * (b - a)

/-- `x` is the average travel time of those who leave at a constant rate between times 0 and `until_` and arrive as `label` says; those for whom it promises no arrival by the horizon are
counted as if they arrived at the horizon. All those who leave by time `h` arrive in time, the others do not. -/
def AverageTime (label : PL) (horizon until_ x : ℚ) : Prop :=
  ∃ (h : ℚ) (F A : ℚ → ℚ), 0 ≤ h ∧ h ≤ until_ ∧ (∀ t, 0 ≤ t → t ≤ until_ → ((∃ v, label.eval t = .ok v ∧ v ≤ horizon) ↔ t ≤ h)) ∧ (∀ t, 0 ≤ t → t ≤ h → label.eval t = .ok (F t)) ∧
    AreaUpTo h (fun t => F t - t) A ∧ x * until_ = A h + ((horizon - h) + (horizon - until_)) / 2 * (until_ - h)

end Verif.Spec
