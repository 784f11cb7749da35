import Verif.Spec.AvgTravelTime
import Verif.Spec.Combine

/-! Specification for whole evaluation runs. -/

namespace Verif.Spec
open Verif

/-- `a` is the average travel time of commodity `c`, number `i`, until the horizon: the area between what has entered and what has arrived, divided by all that has entered. -/
def MeanTravelTime {P : Type} (n : Network P) (flow : DFlow) (i : Nat) (c : Commodity P) (horizon a : ℚ) : Prop :=
  ∃ In Out A, StepArea (enters c) In ∧ StepArea (arrivals n flow i c) Out ∧ LinArea (fun x => In x - Out x) A ∧ In horizon ≠ 0 ∧ a = A horizon / In horizon

/-- A valid input of an evaluation run: the commodities of the network are the objects `refs`; the focused one is object `r`, with the only source `source`; there are predictors to compare. Without
`split`, the inflow horizon is clear of the times at which the inflows at this source change. -/
structure RunInput {P : Type} (ord : List Nat → List Nat) (n : Network P) (obj : Nat → Commodity P) (refs : List Nat) (keys : List P) (focused : Nat) (split : Bool) (inflowHorizon : ℚ)
    (r source : Nat) (f : RC) : Prop where
  input : InputOk n
  order : OrderOk ord
  objects : n.commodities = refs.map obj
  distinct : refs.Nodup
  focus : refs[focused]? = some r
  single : (obj r).sources = [(source, f)]
  some_ : keys ≠ []
  roads : n.capacity ≠ []
  test : split = false → eps < inflowHorizon ∧
    ∀ c ∈ n.commodities, ∀ s ∈ c.sources, s.1 = source → ∀ a ∈ s.2.times, a ≠ inflowHorizon → eps < |a - inflowHorizon|

end Verif.Spec
