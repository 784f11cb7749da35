import Verif.Model.FlowBuilder
import Verif.Spec.DynamicFlow
import Verif.Spec.Routes

/-! What a flow built by `FlowBuilder` should look like: the network inflow, conservation at nodes, first edges of shortest
routes, predictions; and which inputs are valid. -/

namespace Verif.Spec
open Verif

/-- The value of a step function, 0 where it raises. -/
def stepValue (f : RC) (t : ℚ) : ℚ :=
  match f.eval t with
  | .ok x => x
  | .error _ => 0

/-- The network inflow rate of commodity `i` into node `v` at time `t`. -/
def networkRate {P : Type} (n : Network P) (v i : Nat) (t : ℚ) : ℚ :=
  match n.commodities[i]? with
  | none => 0
  | some c =>
    match c.sources.lookup v with
    | none => 0
    | some f => stepValue f t

/-- The recorded inflow rate of commodity `i` into edge `e` at time `t`. -/
def inRate (s : DFlow) (e i : Nat) (t : ℚ) : ℚ :=
  match (s.inflow e).rateAt i t with
  | .ok x => x
  | .error _ => 0

/-- The recorded outflow rate. -/
def outRate (s : DFlow) (e i : Nat) (t : ℚ) : ℚ :=
  match (s.outflow e).rateAt i t with
  | .ok x => x
  | .error _ => 0

/-- All flow of commodity `i` arriving at node `v` at time `t`: out of the incoming edges and from outside. -/
def arriving {P : Type} (n : Network P) (s : DFlow) (v i : Nat) (t : ℚ) : ℚ :=
  ((n.graph.incoming v).map (fun e => outRate s (n.graph.edge e).id i t)).sum + networkRate n v i t

/-- `v` is the sink of commodity `i`. -/
def IsSink {P : Type} (n : Network P) (i v : Nat) : Prop := ∃ c, n.commodities[i]? = some c ∧ c.sink = v

/-- How commodity `i` leaves node `v` at time `t`: not at all at its sink or when nothing arrives (less than `eps`);
otherwise all that arrives, in equal parts, on a non-empty set `A` of outgoing edges with `Act A`. -/
structure Routed {P : Type} (n : Network P) (s : DFlow) (v i : Nat) (t : ℚ) (Act : List Nat → Prop) : Prop where
  stop : IsSink n i v ∨ arriving n s v i t < eps → ∀ e ∈ n.graph.outgoing v, inRate s (n.graph.edge e).id i t = 0
  split : ¬ IsSink n i v → eps ≤ arriving n s v i t → ∃ A : List Nat, A ≠ [] ∧ A.Nodup ∧ (∀ e ∈ A, e ∈ n.graph.outgoing v) ∧ Act A ∧
    ∀ e ∈ n.graph.outgoing v, inRate s (n.graph.edge e).id i t = if e ∈ A then arriving n s v i t / A.length else 0

/-- A valid network inflow function: a non-negative step function on `[0, ∞)`. -/
structure InflowOk (f : RC) : Prop where
  len : f.values.length = f.times.length
  ne : f.times ≠ []
  lt : f.times.Pairwise (· < ·)
  pos : ∀ t ∈ f.times, 0 ≤ t
  lo : f.lo = ((0 : ℚ) : WithBot ℚ)
  hi : f.hi = ⊤
  vals : ∀ v ∈ f.values, 0 ≤ v

/-- A valid input of the flow builder. -/
structure InputOk {P : Type} (n : Network P) : Prop where
  graph : Consistent n.graph
  capLen : n.capacity.length = n.graph.edges.length
  ttLen : n.travelTime.length = n.graph.edges.length
  cap : ∀ c ∈ n.capacity, 0 < c
  tt : ∀ t ∈ n.travelTime, 0 ≤ t
  sink : ∀ c ∈ n.commodities, c.sink ∈ n.graph.nodes
  keys : ∀ c ∈ n.commodities, (c.sources.map Prod.fst).Nodup
  source : ∀ c ∈ n.commodities, ∀ s ∈ c.sources, s.1 ∈ n.graph.nodes ∧ Path n.graph s.1 c.sink ∧ InflowOk s.2
  start : ∀ c ∈ n.commodities, ∀ s ∈ c.sources, ∃ c' ∈ n.commodities, ∃ s' ∈ c'.sources, s'.1 = s.1 ∧ (0 : ℚ) ∈ s'.2.times
  apart : ∀ c ∈ n.commodities, ∀ s ∈ c.sources, ∀ c' ∈ n.commodities, ∀ s' ∈ c'.sources, s'.1 = s.1 →
    ∀ a ∈ s.2.times, ∀ b ∈ s'.2.times, a < b → eps < b - a

/-- The costs of the edges that predicted queues `ps` stand for: travel time plus predicted queue over capacity. -/
def Costs {P : Type} (n : Network P) (ps : List PL) (c : Nat → ℚ → ℚ) : Prop :=
  ∀ e ∈ n.graph.edges, ∃ p tt cap F, ps[(n.graph.edge e).id]? = some p ∧ n.travelTime[(n.graph.edge e).id]? = some tt ∧
    n.capacity[(n.graph.edge e).id]? = some cap ∧ Interpolates p.times p.values p.first p.last F ∧ ∀ x, c e x = tt + F x / cap

/-- The fixed costs that a constant predictor stands for: the first values of the predicted queues are used. -/
def FixedCosts {P : Type} (n : Network P) (ps : List PL) (c : Nat → ℚ) : Prop :=
  ∀ e ∈ n.graph.edges, ∃ p tt cap v, ps[(n.graph.edge e).id]? = some p ∧ n.travelTime[(n.graph.edge e).id]? = some tt ∧
    n.capacity[(n.graph.edge e).id]? = some cap ∧ p.values.head? = some v ∧ c e = tt + v / cap

/-- A valid prediction at time `t`: one valid function per edge, with break points from `t` on, whose costs are non-negative and
obey first in first out from `t` on. -/
structure PredictionOk {P : Type} (n : Network P) (t : ℚ) (ps : List PL) : Prop where
  len : ps.length = n.graph.edges.length
  valid : ∀ p ∈ ps, p.values.length = p.times.length ∧ p.times ≠ [] ∧ p.times.Pairwise (fun a b => a < b - eps) ∧ ∀ x ∈ p.times, t ≤ x
  nonneg : ∀ c, Costs n ps c → ∀ e ∈ n.graph.edges, ∀ x, t ≤ x → 0 ≤ c e x
  fifo : ∀ c, Costs n ps c → ∀ e ∈ n.graph.edges, ∀ x y, t ≤ x → x ≤ y → x + c e x ≤ y + c e y

/-- The predictors give valid predictions for every flow that valid calls can make. -/
def PredictorsOk {P : Type} (n : Network P) (preds : P → Predictor) : Prop :=
  ∀ (p : P) (f0 f : DFlow) (calls : List FlowCall) (t : ℚ), DFlow.init = .ok f0 → CallsOk n.data f0 calls →
    runFlow n.data f0 calls = .ok f → 0 ≤ t → t ≤ f.phi → ∃ ps, (preds p).predict t f = .ok ps ∧ PredictionOk n t ps

/-- `A` are the first edges of the routes from `v` to the sink that are shortest up to `eps` per edge. -/
structure FirstEdges (g : Graph) (c : Nat → ℚ) (sink v : Nat) (A : List Nat) : Prop where
  sound : ∀ e ∈ A, ∃ k L, Route g c g.nodes sink (g.nodeTo e) k L ∧ ∀ k' L', Route g c g.nodes sink v k' L' → c e + L ≤ L' + (k' + 1) * eps
  complete : ∀ e ∈ g.outgoing v, ∀ k L, Route g c g.nodes sink (g.nodeTo e) k L →
    (∀ k' L', Route g c g.nodes sink v k' L' → c e + L + k * eps ≤ L' + eps) → e ∈ A

/-- `a` is the earliest time at which one can be at `v`, leaving `source` at time `phi`. -/
def Earliest (g : Graph) (c : Nat → ℚ → ℚ) (source : Nat) (phi : ℚ) (v : Nat) (a : ℚ) : Prop :=
  Arrives g c g.nodes source phi v a ∧ ∀ t, Arrives g c g.nodes source phi v t → a ≤ t

/-- Who enters the edge at the earliest arrival at its tail is at the head at most `eps` after the earliest arrival there. -/
def Punctual (g : Graph) (c : Nat → ℚ → ℚ) (source : Nat) (phi : ℚ) (e : Nat) : Prop :=
  ∃ a b, Earliest g c source phi (g.nodeFrom e) a ∧ Earliest g c source phi (g.nodeTo e) b ∧ a + c e a ≤ b + eps

/-- `e` starts a route to the sink all of whose edges are punctual for who leaves the tail of `e` at time `phi`. -/
def StartsPunctual (g : Graph) (c : Nat → ℚ → ℚ) (phi : ℚ) (sink e : Nat) : Prop :=
  Punctual g c (g.nodeFrom e) phi e ∧
  Relation.ReflTransGen (fun u w => ∃ e' ∈ g.edges, g.nodeFrom e' = u ∧ g.nodeTo e' = w ∧ Punctual g c (g.nodeFrom e) phi e') (g.nodeTo e) sink

/-- `A` are the edges out of `v` that start punctual routes to the sink at time `phi` (all of them if all costs exceed `eps`). -/
structure FirstEdgesAt (g : Graph) (c : Nat → ℚ → ℚ) (phi : ℚ) (sink v : Nat) (A : List Nat) : Prop where
  sound : ∀ e ∈ A, StartsPunctual g c phi sink e
  complete : (∀ e ∈ g.edges, ∀ t, phi ≤ t → eps < c e t) → ∀ e ∈ g.outgoing v, StartsPunctual g c phi sink e → e ∈ A

/-- `A` are active edges of commodity `i` at node `v` for the prediction `ps` made at time `t`. -/
def ActiveFor {P : Type} (n : Network P) (preds : P → Predictor) (t : ℚ) (ps : P → Option (List PL)) (i v : Nat) (A : List Nat) : Prop :=
  ∃ c l, n.commodities[i]? = some c ∧ ps c.predictor = some l ∧
    ((preds c.predictor).constant = true → ∀ cost, FixedCosts n l cost → FirstEdges n.graph cost c.sink v A) ∧
    ((preds c.predictor).constant = false → ∀ cost, Costs n l cost → FirstEdgesAt n.graph cost t c.sink v A)

/-- A set of elements as Python iterates over it: every element once, in any order. -/
def OrderOk (ord : List Nat → List Nat) : Prop := ∀ l, (ord l).Nodup ∧ ∀ x, x ∈ ord l ↔ x ∈ l

/-- The state after `k` rounds of the loop of `build_flow`. -/
def rounds {P : Type} [DecidableEq P] (ord : List Nat → List Nat) (preds : P → Predictor) : Nat → Builder P → Py (Builder P)
  | 0, b => .ok b
  | k + 1, b => do
    let b ← rounds ord preds k b
    b.step ord preds

/-- The inflows that the first `k` rounds set touch no tolerance. -/
def ClearRounds {P : Type} [DecidableEq P] (ord : List Nat → List Nat) (preds : P → Predictor) (b : Builder P) (k : Nat) : Prop :=
  ∀ m < k, ∀ bm l T b', rounds ord preds m b = .ok bm → bm.prepare ord preds = .ok (l, T, b') →
    ∀ p ∈ l, ∀ cur c, (b'.flow.inflow p.1).getValuesAtTime b'.flow.phi = .ok (cur, c) → cur.dictEq p.2 = false →
      Clear b'.net.data b'.flow p.1 p.2

/-- `ps` was predicted by `p` for the routing period `k`, from the flow as it was at some time in this period. -/
def Predicted {P : Type} (n : Network P) (preds : P → Predictor) (d : ℚ) (f0 : DFlow) (cs : List FlowCall) (k : Nat) (p : P) (ps : List PL) : Prop :=
  ∃ pre f, pre <+: cs ∧ runFlow n.data f0 pre = .ok f ∧ k * d ≤ f.phi ∧ f.phi < (k + 1) * d ∧ (preds p).predict (k * d) f = .ok ps

end Verif.Spec
