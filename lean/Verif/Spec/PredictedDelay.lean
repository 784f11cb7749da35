import Verif.Model.PredictedDelay
import Verif.Spec.FlowBuilder

/-! Delays of edges with respect to predictions. -/

namespace Verif.Spec
open Verif

/-- Commodity `i` enters edge `e` with a rate above `eps` at some time in `[a, b)`. -/
def FlowsInto (flow : DFlow) (i e : Nat) (a b : ℚ) : Prop := ∃ x, a ≤ x ∧ x < b ∧ eps < inRate flow e i x

/-- Where commodity `c` may be: on an edge that it can reach, from which it can reach its sink, and not out of its sink. -/
structure OnTheWay {P : Type} (g : Graph) (c : Commodity P) (e : Nat) : Prop where
  source : ∃ s ∈ c.sources, Path g s.1 (g.nodeFrom e)
  sink : Path g (g.nodeTo e) c.sink
  out : g.nodeFrom e ≠ c.sink

/-- How much later than possible one is at the sink, entering edge `e` at time `t`: the difference `b' - b` of the earliest arrival of
who takes `e` first and of the earliest arrival of all who are at the tail of `e` at time `t`; 0 if `e` starts a route on which every
edge is punctual up to `eps` (and always so if all costs exceed `eps`). -/
def EdgeDelay (g : Graph) (c : Nat → ℚ → ℚ) (sink : Nat) (t : ℚ) (e : Nat) (d : ℚ) : Prop :=
  ∃ b b', Earliest g c (g.nodeFrom e) t sink b ∧ Earliest g c (g.nodeTo e) (t + c e t) sink b' ∧ b ≤ b' ∧
    (d = b' - b ∨ (d = 0 ∧ StartsPunctual g c t sink e)) ∧
    ((∀ e ∈ g.edges, ∀ x, t ≤ x → eps < c e x) → StartsPunctual g c t sink e → d = 0)

/-- `get_pred_edge_delay` of the `e`-th edge at time `t`, with the costs that `costs_from_preds` makes of the predictions `ps` and the
nodes of the commodity. -/
def DelayAt {P : Type} (n : Network P) (c : Commodity P) (ps : List PL) (t : ℚ) (e : Nat) (d : ℚ) : Prop :=
  ∃ nodes costs, Delay.comNodes n c = .ok nodes ∧ Delay.costsFromPreds n ps t = .ok costs ∧ Delay.predEdgeDelay t e n c.sink nodes costs = .ok d

/-- What a report says: its delay is at least every delay at the two ends of every measurement interval, on every edge that the commodity
enters in this interval; and it is 0 without a witness, or it is the delay at its witness. -/
structure Reports {P : Type} (flow : DFlow) (n : Network P) (i : Nat) (c : Commodity P) (times : List ℚ) (preds : List (List PL)) (m : Delay.Found) : Prop where
  above : ∀ (k e : Nat) (a b : ℚ) (p q : List PL), times[k]? = some a → times[k + 1]? = some b → preds[k]? = some p → preds[k + 1]? = some q →
    e < n.graph.edges.length → FlowsInto flow i e a b →
    ∃ d d', DelayAt n c p a e d ∧ DelayAt n c q b e d' ∧ 0 ≤ d ∧ 0 ≤ d' ∧ d ≤ m.eps ∧ d' ≤ m.eps
  attained : (m.witness = none ∧ m.eps = 0) ∨ ∃ (w : Delay.Witness) (k : Nat) (p q : List PL), m.witness = some w ∧ 0 < m.eps ∧
    times[k]? = some w.start ∧ times[k + 1]? = some w.stop ∧ preds[k]? = some p ∧ preds[k + 1]? = some q ∧
    w.edge < n.graph.edges.length ∧ FlowsInto flow i w.edge w.start w.stop ∧
    if w.atStart then DelayAt n c p w.start w.edge m.eps else DelayAt n c q w.stop w.edge m.eps

end Verif.Spec
