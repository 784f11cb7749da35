import Verif.Model.FlowBuilder
import Mathlib.Algebra.Order.Floor.Ring
import Mathlib.Data.Rat.Floor

/-! Model of src/eval/predicted_delay.py. The status logger is left out. -/

namespace Verif
namespace Delay
open Builder Dijkstra

variable {P : Type}

/-- `costs_from_preds` (src/eval/predicted_delay.py:138-155); every entry is made as in `FlowBuilder._get_costs`. -/
def costsFromPreds (n : Network P) (preds : List PL) (at_ : ℚ) : Py (List PL) :=
  mapPy (costOfEdge n at_ preds) (List.range n.graph.edges.length)

/-- `get_pred_edge_delay` (src/eval/predicted_delay.py:158-179). -/
def predEdgeDelay (at_ : ℚ) (i : Nat) (n : Network P) (sink : Nat) (nodes : List Nat) (costs : List PL) : Py ℚ := do
  let e ← rd n.graph.edges i
  let res ← dynamicDijkstra n.graph at_ (n.graph.nodeFrom e) sink nodes (costs.map PL.eval)
  let active ← activeEdges n.graph res (n.graph.nodeFrom e) sink
  if e ∈ active then pure 0
  else do
    let c ← rd costs i
    let x ← c.eval at_
    let res' ← dynamicDijkstra n.graph (at_ + x) (n.graph.nodeTo e) sink nodes (costs.map PL.eval)
    let b' ← look res'.arrival sink
    let b ← look res.arrival sink
    pure (b' - b)

/-- `any(f.values[max(0, rank)] > eps for rank in …)` (src/eval/predicted_delay.py:188). -/
def anyPositive (values : List ℚ) : List Int → Py Bool
  | [] => .ok false
  | r :: rs => do
    let v ← rd values (max 0 r).toNat
    if v > eps then pure true else anyPositive values rs

/-- `is_positive_during` (src/eval/predicted_delay.py:182-188). -/
def isPositiveDuring (f : RC) (start stop : ℚ) : Py Bool := do
  let a ← elemLrank f.times start
  let b ← elemRank f.times stop
  anyPositive f.values ((List.range (b + 1 - a).toNat).map (fun (k : Nat) => a + k))

/-- `DelayWitness` (src/eval/predicted_delay.py:19-24); `occured_at` is `"start"` iff `atStart`. -/
structure Witness where
  start : ℚ
  stop : ℚ
  atStart : Bool
  edge : Nat

/-- `max_eps` and `witness` (src/eval/predicted_delay.py:51-52). -/
structure Found where
  eps : ℚ
  witness : Option Witness

/-- `if delay > max_eps: …` (src/eval/predicted_delay.py:99-106, 115-122). -/
def better (d : ℚ) (w : Witness) (m : Found) : Found := if d > m.eps then ⟨d, some w⟩ else m

/-- `if edge_idx not in delays_at_start: …` (src/eval/predicted_delay.py:91-98). -/
def startDelays (n : Network P) (sink : Nat) (nodes : List Nat) (start : ℚ) (costs : List PL) (e : Nat) (atStart : Nat → Option ℚ) : Py (Nat → Option ℚ) :=
  if (atStart e).isSome then .ok atStart
  else do
    let d ← predEdgeDelay start e n sink nodes costs
    pure (put atStart e d)

/-- The body of the loop over edges, for an edge with inflow (src/eval/predicted_delay.py:90-122). The two dicts: `delays_at_start`,
`delays_at_end`. -/
def measureEdge (n : Network P) (sink : Nat) (nodes : List Nat) (start stop : ℚ) (costsStart costsEnd : List PL) (e : Nat) (m : Found)
    (atStart atEnd : Nat → Option ℚ) : Py (Found × (Nat → Option ℚ) × (Nat → Option ℚ)) := do
  let atStart ← startDelays n sink nodes start costsStart e atStart
  let d ← look atStart e
  let m := better d ⟨start, stop, true, e⟩ m
  let d' ← predEdgeDelay stop e n sink nodes costsEnd
  let m := better d' ⟨start, stop, false, e⟩ m
  pure (m, atStart, put atEnd e d')

/-- The loop over edges (src/eval/predicted_delay.py:86-122). -/
def measureEdges (flow : DFlow) (n : Network P) (i sink : Nat) (nodes : List Nat) (start stop : ℚ) (costsStart costsEnd : List PL) :
    List Nat → Found → (Nat → Option ℚ) → (Nat → Option ℚ) → Py (Found × (Nat → Option ℚ))
  | [], m, _, atEnd => .ok (m, atEnd)
  | e :: es, m, atStart, atEnd =>
    match (flow.inflow e).funs i with
    | none => measureEdges flow n i sink nodes start stop costsStart costsEnd es m atStart atEnd
    | some f => do
      if ← isPositiveDuring f start stop then do
        let (m, atStart, atEnd) ← measureEdge n sink nodes start stop costsStart costsEnd e m atStart atEnd
        measureEdges flow n i sink nodes start stop costsStart costsEnd es m atStart atEnd
      else measureEdges flow n i sink nodes start stop costsStart costsEnd es m atStart atEnd

/-- The loop over intervals (src/eval/predicted_delay.py:77-125). -/
def measureIntervals (flow : DFlow) (n : Network P) (i sink : Nat) (nodes : List Nat) (times : List ℚ) (preds : List (List PL)) :
    List Nat → Found → List PL → (Nat → Option ℚ) → Py Found
  | [], m, _, _ => .ok m
  | k :: ks, m, costsStart, atStart => do
    let start ← rd times k
    let stop ← rd times (k + 1)
    let ps ← rd preds (k + 1)
    let costsEnd ← costsFromPreds n ps stop
    let (m, atEnd) ← measureEdges flow n i sink nodes start stop costsStart costsEnd (List.range n.graph.edges.length) m atStart (fun _ => none)
    measureIntervals flow n i sink nodes times preds ks m costsEnd atEnd

/-- `com_nodes` (src/eval/predicted_delay.py:56-64). -/
def comNodes (n : Network P) (c : Commodity P) : Py (List Nat) := do
  let reaching ← n.graph.nodesReaching c.sink
  let reached ← mapPy (fun s => n.graph.reachableNodes s.1) c.sources
  pure (reaching.filter (fun v => v ∈ reached.flatten))

/-- `pred_times` (src/eval/predicted_delay.py:66-72). -/
def predTimes (future : Nat) (reroute predInterval horizon : ℚ) : Py (List ℚ) := do
  let h := horizon - (future + 1) * predInterval
  let d ← pyDiv reroute 2
  let x ← pyDiv h d
  pure ((List.range (⌊x⌋ + 1).toNat).map (fun (k : Nat) => (k : ℚ) * d))

/-- The body of the loop over commodities (src/eval/predicted_delay.py:50-125). `batch p` is `predictors[p].batch_predict`. -/
def delayOf (flow : DFlow) (n : Network P) (batch : P → List ℚ → DFlow → Py (List (List PL))) (future : Nat) (reroute predInterval horizon : ℚ)
    (i : Nat) : Py Found := do
  let c ← rd n.commodities i
  let nodes ← comNodes n c
  let times ← predTimes future reroute predInterval horizon
  let preds ← batch c.predictor times flow
  let start ← rd times 0
  let ps ← rd preds 0
  let costs ← costsFromPreds n ps start
  measureIntervals flow n i c.sink nodes times preds (List.range (times.length - 1)) ⟨0, none⟩ costs (fun _ => none)

/-- `approximate_max_predicted_delay` (src/eval/predicted_delay.py:38-135): per commodity the delay, its witness, its predictor and
whether it is one of the new commodities. -/
def approximateMax (flow : DFlow) (n : Network P) (batch : P → List ℚ → DFlow → Py (List (List PL))) (new : List Nat) (future : Nat)
    (reroute predInterval horizon : ℚ) : Py (List (Found × P × Bool)) :=
  mapPy (fun i => do
    let m ← delayOf flow n batch future reroute predInterval horizon i
    let c ← rd n.commodities i
    pure (m, c.predictor, new.contains i)) (List.range n.commodities.length)

end Delay
end Verif
