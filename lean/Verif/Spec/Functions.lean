import Mathlib.Algebra.Order.Ring.Rat
import Mathlib.Algebra.Order.Field.Rat
import Mathlib.Algebra.Order.AbsoluteValue.Basic
import Mathlib.Data.List.Sort

/-! Specifications for the function classes, independent of the model. -/

namespace Verif.Spec

/-- `F` is the piecewise linear function with the given break points and outer slopes. -/
structure Interpolates (times values : List ℚ) (first last : ℚ) (F : ℚ → ℚ) : Prop where
  at_break : ∀ (i : Nat) (t v : ℚ), times[i]? = some t → values[i]? = some v → F t = v
  between : ∀ (i : Nat) (s t : ℚ), times[i]? = some s → times[i + 1]? = some t → ∀ x, s ≤ x → x ≤ t →
    F x = F s + (x - s) / (t - s) * (F t - F s)
  before : ∀ t, times.head? = some t → ∀ x, x ≤ t → F x = F t + first * (x - t)
  after : ∀ t, times.getLast? = some t → ∀ x, t ≤ x → F x = F t + last * (x - t)

/-- `F` is the right-continuous step function with the given break points: the value of the last
break point that is not later, and the first value before all of them. -/
structure IsStep (times values : List ℚ) (F : ℚ → ℚ) : Prop where
  on_piece : ∀ (i : Nat) (t v : ℚ), times[i]? = some t → values[i]? = some v →
    ∀ x, t ≤ x → (∀ t', times[i + 1]? = some t' → x < t') → F x = v
  before : ∀ (t v : ℚ), times.head? = some t → values.head? = some v → ∀ x, x < t → F x = v

/-- All distinct points of a list are more than `e` apart. -/
def Apart (e : ℚ) (S : List ℚ) : Prop := ∀ a ∈ S, ∀ b ∈ S, a < b → e < b - a

/-- `t` is the time `L` itself or more than `e` after it. -/
def Later (e L t : ℚ) : Prop := t = L ∨ L + e < t

/-- The numbers are equal or more than `e` apart. -/
def Far (e a b : ℚ) : Prop := b = a ∨ e < |a - b|

end Verif.Spec
