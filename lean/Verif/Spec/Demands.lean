import Verif.Model.Demands
import Verif.Spec.Combine

/-! What random demands should be. -/

namespace Verif.Spec
open Verif

/-- The inflow `g` has the rate `x` up to the inflow horizon and 0 afterwards. -/
def ConstantUntil (horizon : WithTop ℚ) (x : ℚ) (g : RC) : Prop := ∀ t : ℚ, 0 ≤ t → stepValue g t = if (t : WithTop ℚ) < horizon then x else 0

/-- The sources of `c'` are those of `c`, with the demands `rate 0`, `rate 1`, ... instead, up to the inflow horizon. The arguments of `rate` are the number of the source and its first inflow rate before. -/
def Redrawn {P : Type} (horizon : WithTop ℚ) (rate : Nat → ℚ → ℚ) (c c' : Commodity P) : Prop :=
  c'.sink = c.sink ∧ c'.predictor = c.predictor ∧ c'.sources.length = c.sources.length ∧
    ∀ (j v : Nat) (f : RC), c.sources[j]? = some (v, f) → ∃ (mean : ℚ) (g : RC), f.values.head? = some mean ∧ c'.sources[j]? = some (v, g) ∧ ConstantUntil horizon (rate j mean) g

end Verif.Spec
