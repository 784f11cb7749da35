import Verif.Spec.FlowBuilder

/-! Networks whose demands are the same for some time. -/

namespace Verif.Spec
open Verif

/-- The same step function before time `T`: the same steps and the same values. -/
structure SameSteps (T : ℚ) (f g : RC) : Prop where
  steps : ∀ t, t < T → (t ∈ f.times ↔ t ∈ g.times)
  values : ∀ t, t < T → stepValue f t = stepValue g t

/-- The same commodity before time `T`: sink, predictor and source nodes are the same, and the network inflow rates are before `T`. -/
structure SameCommodity {P : Type} (T : ℚ) (c c' : Commodity P) : Prop where
  sink : c.sink = c'.sink
  predictor : c.predictor = c'.predictor
  sources : List.Forall₂ (fun s s' => s.1 = s'.1 ∧ SameSteps T s.2 s'.2) c.sources c'.sources

/-- The same network, up to what the demands are from time `T` on. -/
structure SameBefore {P : Type} (T : ℚ) (n n' : Network P) : Prop where
  graph : n.graph = n'.graph
  capacity : n.capacity = n'.capacity
  travelTime : n.travelTime = n'.travelTime
  commodities : List.Forall₂ (SameCommodity T) n.commodities n'.commodities

/-- The same flow up to time `T`: the rates before `T`, the cumulative flows and the queues up to `T`, on all edges. -/
structure SameHistory (s s' : DFlow) (T : ℚ) : Prop where
  inRate : ∀ e i t, 0 ≤ t → t < T → (s'.inflow e).rateAt i t = (s.inflow e).rateAt i t
  outRate : ∀ e i t, 0 ≤ t → t < T → (s'.outflow e).rateAt i t = (s.outflow e).rateAt i t
  inTotal : ∀ e t, 0 ≤ t → t ≤ T → (s'.inflow e).acc.eval t = (s.inflow e).acc.eval t
  outTotal : ∀ e t, 0 ≤ t → t ≤ T → (s'.outflow e).acc.eval t = (s.outflow e).acc.eval t
  queue : ∀ e t, t ≤ T → (s'.queues e).eval t = (s.queues e).eval t

end Verif.Spec
