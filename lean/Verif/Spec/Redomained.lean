import Verif.Spec.FlowBuilder

/-! Networks whose inflow functions differ in their domains only. -/

namespace Verif.Spec
open Verif

/-- The same step function, on a domain that contains `[0, ∞)`: for example the default domain of `RightConstant`, the whole line. -/
structure StepsOn (f f' : RC) : Prop where
  times : f'.times = f.times
  values : f'.values = f.values
  lo : f'.lo ≤ ((0 : ℚ) : WithBot ℚ)
  hi : f'.hi = ⊤

/-- The same commodity but for the domains of its inflow functions. -/
structure CommoditySteps {P : Type} (c c' : Commodity P) : Prop where
  sink : c'.sink = c.sink
  predictor : c'.predictor = c.predictor
  sources : List.Forall₂ (fun s s' => s'.1 = s.1 ∧ StepsOn s.2 s'.2) c.sources c'.sources

/-- The same network but for the domains of the inflow functions. -/
structure Redomained {P : Type} (n n' : Network P) : Prop where
  graph : n'.graph = n.graph
  capacity : n'.capacity = n.capacity
  travelTime : n'.travelTime = n.travelTime
  commodities : List.Forall₂ CommoditySteps n.commodities n'.commodities

end Verif.Spec
