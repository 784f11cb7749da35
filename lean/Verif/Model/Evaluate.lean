import Verif.Model.BellmanFord
import Verif.Model.FlowBuilder

/-! Model of parts of src/eval/evaluate.py. Status messages, files and logging are left out. -/

namespace Verif
namespace Evaluate
open Builder (mapPy)

variable {P : Type}

/-- One entry of `costs` (src/eval/evaluate.py:52-61). -/
def queueCost (n : Network P) (horizon : ℚ) (q : PL) (e : Nat) : Py PL := do
  let tau ← rd n.travelTime e
  let nu ← rd n.capacity e
  let vs ← mapPy (fun v => do
    let x ← pyDiv v nu
    pure (tau + x)) q.values
  let a ← pyDiv q.first nu
  let b ← pyDiv q.last nu
  let p ← PL.new q.times vs a b ((0 : ℚ) : WithBot ℚ) (horizon : WithTop ℚ)
  p.simplify

/-- `min(inflow_horizon, h)` (src/eval/evaluate.py:79). -/
def capAt : WithTop ℚ → ℚ → ℚ
  | none, h => h
  | some b, h => min b h

/-- The end of `integrate_opt`: the integral up to `h`, the late departures and the average (src/eval/evaluate.py:84-90). -/
def average (travel : PL) (horizon until_ h : ℚ) : Py ℚ := do
  let i ← travel.integrate 0 h
  pyDiv (if h < until_ then i + (horizon * (until_ - h) - (until_ ^ 2 - h ^ 2) / 2) else i) until_

/-- `integrate_opt` (src/eval/evaluate.py:74-91). The two branches for finite and infinite `inflow_horizon` differ only in the minimum. An infinite result of `max_t_below` needs a label with
infinite domain, which a search with a finite horizon does not return; it is an error here. -/
def integrateOpt (inflowHorizon : WithTop ℚ) (horizon : ℚ) (label : PL) : Py ℚ := do
  pyAssert (label.isMonotone = true)
  let neg ← PL.new [0] [0] (-1) (-1) ⊥ ⊤
  let travel ← label.plus neg
  match ← label.maxTBelow horizon none with
  | some (some m) => average travel horizon (capAt inflowHorizon horizon) (capAt inflowHorizon m)
  | _ => .error .typeErr

/-- The value for a source without label (src/eval/evaluate.py:95); with an infinite `inflow_horizon` it is not a number. -/
def noLabel (horizon : ℚ) : WithTop ℚ → Py ℚ
  | some b => .ok (b * horizon - b ^ 2 / 2)
  | none => .error .value

/-- The labels computed for a source and a sink (src/eval/evaluate.py:51-72). `fuel` bounds the rounds of `bellman_ford`. -/
def optLabels (fuel : Nat) (n : Network P) (flow : DFlow) (horizon : ℚ) (source sink : Nat) : Py (Nat → Option PL) := do
  let costs ← mapPy (fun e => queueCost n horizon (flow.queues e) e) (List.range n.graph.edges.length)
  let back ← n.graph.nodesReaching sink
  let fwd ← n.graph.reachableNodes source
  BF.bellmanFord fuel n.graph sink costs (back.filter (· ∈ fwd)) 0 (horizon : WithTop ℚ)

/-- `calculate_optimal_average_travel_time` (src/eval/evaluate.py:41-95). -/
def optimalAverage (fuel : Nat) (n : Network P) (flow : DFlow) (inflowHorizon : WithTop ℚ) (horizon : ℚ) (c : Commodity P) : Py ℚ :=
  match c.sources with
  | [(source, _)] => do
    let labels ← optLabels fuel n flow horizon source c.sink
    match labels source with
    | some p => integrateOpt inflowHorizon horizon p
    | none => noLabel horizon inflowHorizon
  | _ => .error .value

end Evaluate
end Verif
