import Verif.Spec.FlowBuilder

/-! Networks that list the same commodities in another order. -/

namespace Verif.Spec
open Verif

/-- The same network with commodity `i` listed at place `σ i`. -/
structure Relisted {P : Type} (σ : Equiv.Perm ℕ) (n n' : Network P) : Prop where
  graph : n.graph = n'.graph
  capacity : n.capacity = n'.capacity
  travelTime : n.travelTime = n'.travelTime
  commodities : ∀ i : Nat, n'.commodities[σ i]? = n.commodities[i]?

/-- The same record of an edge, the commodity called `i` in the first flow being called `σ i` in the second: the rates, the cumulative flows and the queue, as
functions with break points and values. -/
structure RenamedEdge (σ : Equiv.Perm ℕ) (s s' : DFlow) (e : Nat) : Prop where
  inRates : ∀ i, (s'.inflow e).funs (σ i) = (s.inflow e).funs i
  inTotal : (s'.inflow e).acc = (s.inflow e).acc
  outRates : ∀ i, (s'.outflow e).funs (σ i) = (s.outflow e).funs i
  outTotal : (s'.outflow e).acc = (s.outflow e).acc
  queue : s'.queues e = s.queues e

/-- The same flow, up to the names of the commodities. -/
structure RenamedFlow (σ : Equiv.Perm ℕ) (s s' : DFlow) : Prop where
  phi : s'.phi = s.phi
  edge : ∀ e, RenamedEdge σ s s' e

/-- The same flow as far as it can be seen without asking for single commodities: time, cumulative flows and queues. -/
structure SameTotals (s s' : DFlow) : Prop where
  phi : s.phi = s'.phi
  inTotal : ∀ e, (s.inflow e).acc = (s'.inflow e).acc
  outTotal : ∀ e, (s.outflow e).acc = (s'.outflow e).acc
  queue : ∀ e, s.queues e = s'.queues e

/-- Predictions follow from what can be seen without asking for single commodities. -/
def Anonymous (p : Predictor) : Prop := ∀ t s s', SameTotals s s' → p.predict t s = p.predict t s'

end Verif.Spec
