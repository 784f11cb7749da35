import Verif.Model.FlowBuilder
import Mathlib.Data.List.Sort

/-! Model of the predictors in src/core/predictors. The number of edges of the network, the length of `flow.queues`, is a
parameter. A trained model is an arbitrary function from the rows of inputs to the rows of outputs that may raise. NumPy
arrays are lists; boolean masks are functions of the edge id. -/

namespace Verif
namespace Predictors
open Builder (mapPy)

/-- `ZeroPredictor` (src/core/predictors/zero_predictor.py:10-21). -/
def zero (edges : Nat) : Predictor where
  predict t _ := do
    let f ← PL.new [t] [0] 0 0 ⊥ ⊤
    pure ((List.range edges).map (fun _ => f))
  constant := true

/-- `ConstantPredictor` (src/core/predictors/constant_predictor.py:10-27). -/
def const (edges : Nat) : Predictor where
  predict t flow := mapPy (fun i => do
    let cur ← (flow.queues i).eval t
    PL.new [t] [cur] 0 0 ⊥ ⊤) (List.range edges)
  constant := true

/-- The part of the loop body that `LinearPredictor` and `RegularizedLinearPredictor` share
(src/core/predictors/linear_predictor.py:33-41, src/core/predictors/reg_linear_predictor.py:33-42). -/
def follow (horizon t cur gradient : ℚ) : Py PL := do
  let new := cur + horizon * gradient
  if new < 0 ∧ cur > eps then do
    let x ← pyDiv cur gradient
    PL.new [t, t - x] [cur, 0] 0 0 ⊥ ⊤
  else PL.new [t, t + horizon] [cur, new] 0 0 ⊥ ⊤

/-- `LinearPredictor(network, horizon)` (src/core/predictors/linear_predictor.py:13-43). -/
def linear (edges : Nat) (horizon : ℚ) : Predictor where
  predict t flow := mapPy (fun i => do
    let q ← (flow.queues i).eval t
    let cur := max 0 q
    let r ← elemRank (flow.queues i).times t
    let g ← (flow.queues i).gradient r
    follow horizon t cur g) (List.range edges)
  constant := false

/-- `RegularizedLinearPredictor(network, horizon, delta)` (src/core/predictors/reg_linear_predictor.py:12-47). -/
def regLinear (edges : Nat) (horizon delta : ℚ) : Predictor where
  predict t flow := mapPy (fun i => do
    let q ← (flow.queues i).eval t
    let cur := max 0 q
    let q' ← (flow.queues i).eval (t - delta)
    let old := max 0 q'
    let g ← pyDiv (cur - old) delta
    follow horizon t cur g) (List.range edges)
  constant := false

/-- One edge of `LinearRegressionPredictor`: the queues `0` to `4` time units ago (src/core/predictors/linear_regression_predictor.py:28-57). -/
def wekaEdge (zeroFct : PL) (t q0 q1 q2 q3 q4 : ℚ) : Py PL :=
  if max (max (max (max q0 q1) q2) q3) q4 = 0 then pure zeroFct
  else PL.new [t, t + 1, t + 2, t + 3, t + 4, t + 5, t + 6, t + 7, t + 8, t + 9]
    [q0, q0 + 268 / 100, 101 / 100 * q0 + 536 / 100, 101 / 100 * q0 + 847 / 100, 102 / 100 * q0 + 1167 / 100,
      102 / 100 * q4 + 1467 / 100, 102 / 100 * q3 + 1467 / 100, 102 / 100 * q2 + 1467 / 100, 102 / 100 * q1 + 1467 / 100, 102 / 100 * q0 + 1467 / 100]
    0 0 ⊥ ⊤

/-- `LinearRegressionPredictor` (src/core/predictors/linear_regression_predictor.py:10-61). -/
def weka (edges : Nat) : Predictor where
  predict t flow := do
    let zeroFct ← PL.new [t] [0] 0 0 ⊥ ⊤
    mapPy (fun i => do
      let x0 ← (flow.queues i).eval t
      let x1 ← (flow.queues i).eval (t - 1)
      let x2 ← (flow.queues i).eval (t - 2)
      let x3 ← (flow.queues i).eval (t - 3)
      let x4 ← (flow.queues i).eval (t - 4)
      wekaEdge zeroFct t (max 0 x0) (max 0 x1) (max 0 x2) (max 0 x3) (max 0 x4)) (List.range edges)
  constant := false

/-- `[t + k * step for k in range(0, future + 1)]`. -/
def futureTimes (t step : ℚ) (future : Nat) : List ℚ := (List.range (future + 1)).map (fun (k : Nat) => t + k * step)

/-- `[t + k * step for k in range(-past + 1, 1)]`. -/
def pastTimes (t step : ℚ) (past : Nat) : List ℚ := (List.range past).map (fun (k : Nat) => t + ((k : ℚ) - past + 1) * step)

/-- `for i in range(1, len(new_values)): new_values[i] = max(new_values[i], new_values[i - 1] - drop)`, the first value apart
(e.g. src/core/predictors/sk_full_net_predictor.py:94-99). -/
def repair (drop : ℚ) : ℚ → List ℚ → List ℚ
  | cur, [] => [cur]
  | cur, v :: vs => cur :: repair drop (max v (cur - drop)) vs

/-- `np.maximum(raw, 0)` (e.g. src/core/predictors/sk_full_net_predictor.py:76-78). -/
def clip (l : List ℚ) : List ℚ := l.map (fun v => max v 0)

/-- `l[k * n : (k + 1) * n]`. -/
def slice (k n : Nat) (l : List ℚ) : List ℚ := (l.drop (k * n)).take n

/-- `np.count_nonzero(mask[:e])`. -/
def countMask (mask : Nat → Bool) (e : Nat) : Nat := ((List.range e).filter mask).length

/-- What the full-net and neighbourhood predictors are made of (src/core/predictors/sk_full_net_predictor.py:16-34 and the
like). -/
structure Setup where
  edges : Nat
  capacity : Nat → ℚ
  input : Nat → Bool
  output : Nat → Bool
  past : Nat
  future : Nat
  interval : ℚ

/-- Masked rows of past values: `[f.eval_sorted_array(input_times) for e_id, f in enumerate(fs) if mask[e_id]]`, flattened
(src/core/predictors/sk_full_net_predictor.py:58-71). -/
def rowsOf (mask : Nat → Bool) (f : Nat → Py PL) (times : List ℚ) (edges : List Nat) : Py (List ℚ) := do
  let rows ← mapPy (fun e => do
    let p ← f e
    p.evalSortedArray times) (edges.filter mask)
  pure rows.flatten

/-- The prediction of one edge, from its current queue and the model's answer for it
(src/core/predictors/sk_full_net_predictor.py:85-101). -/
def edgeFn (c : Setup) (step t cur : ℚ) (raw : List ℚ) (e : Nat) : Py PL :=
  PL.new (futureTimes t step c.future) (repair (c.interval * c.capacity e) cur raw) 0 0 ⊥ ⊤

/-- `predict` of `SKFullNetPredictor` and `TFFullNetPredictor` (src/core/predictors/sk_full_net_predictor.py:42-103,
src/core/predictors/tf_full_net_predictor.py:40-101). All edge loads are computed first. -/
def fullNet (c : Setup) (model : List (List ℚ) → Py (List (List ℚ))) : Predictor where
  predict t flow := do
    let zeroFct ← PL.new [t] [0] 0 0 ⊥ ⊤
    let loads ← mapPy flow.edgeLoad (List.range c.edges)
    let qs ← rowsOf c.input (fun e => .ok (flow.queues e)) (pastTimes t c.interval c.past) (List.range c.edges)
    let ls ← rowsOf c.input (fun e => rd loads e) (pastTimes t c.interval c.past) (List.range c.edges)
    let out ← model [t :: (qs ++ ls)]
    let raw ← rd out 0
    mapPy (fun e =>
      if c.output e then do
        let cur ← (flow.queues e).eval t
        edgeFn c c.interval t cur (slice (countMask c.output e) c.future (clip raw)) e
      else pure zeroFct) (List.range c.edges)
  constant := false

/-- `predict` of `SKNeighborhoodPredictor` and `TFNeighborhoodPredictor` (src/core/predictors/sk_neighborhood_predictor.py:49-112,
src/core/predictors/tf_neighborhood_predictor.py:48-112): one model per edge, fed with the edges `near e`; the masked-out rows of
`data` are never used because `near e` lies inside the input mask. The times of the prediction are one unit apart. -/
def neighborhood (c : Setup) (near : Nat → Nat → Bool) (models : Nat → List (List ℚ) → Py (List (List ℚ))) : Predictor where
  predict t flow := do
    let zeroFct ← PL.new [t] [0] 0 0 ⊥ ⊤
    let loads ← mapPy flow.edgeLoad (List.range c.edges)
    mapPy (fun e =>
      if c.output e then do
        let qs ← rowsOf (fun j => near e j && c.input j) (fun e => .ok (flow.queues e)) (pastTimes t c.interval c.past) (List.range c.edges)
        let ls ← rowsOf (fun j => near e j && c.input j) (fun e => rd loads e) (pastTimes t c.interval c.past) (List.range c.edges)
        let out ← models e [t :: (qs ++ ls)]
        let raw ← rd out 0
        let cur ← (flow.queues e).eval t
        edgeFn c 1 t cur (clip raw) e
      else pure zeroFct) (List.range c.edges)
  constant := false

/-- `batch_predict` of the base class (src/core/predictor.py:23-31). -/
def batch (p : Predictor) (ts : List ℚ) (flow : DFlow) : Py (List (List PL)) :=
  match ts.max? with
  | none => .error .value
  | some m => if flow.phi < m then .error .value else mapPy (fun t => p.predict t flow) ts

/-- `sorted(set(t + k * interval for t in times for k in range(-past + 1, 1)))`
(src/core/predictors/sk_full_net_predictor.py:119-126). -/
def gridTimes (ts : List ℚ) (step : ℚ) (past : Nat) : List ℚ :=
  ((ts.map (fun t => pastTimes t step past)).flatten.insertionSort (· ≤ ·)).dedup

/-- `evaluated[time]`: the values of a function on the grid, by time (src/core/predictors/sk_full_net_predictor.py:127-132). -/
def onGrid (f : PL) (grid : List ℚ) : Py (List (ℚ × ℚ)) := do
  let vs ← f.evalSortedArray grid
  pure (grid.zip vs)

/-- `d[time]`. -/
def atTime (d : List (ℚ × ℚ)) (t : ℚ) : Py ℚ :=
  match d.lookup t with
  | none => .error .key
  | some v => .ok v

/-- `evaluated[e_id]` of the edges in the input mask (src/core/predictors/sk_full_net_predictor.py:112-132). -/
def gridsOf (mask : Nat → Bool) (f : Nat → Py PL) (grid : List ℚ) (edges : List Nat) : Py (List (Nat × List (ℚ × ℚ))) :=
  mapPy (fun e => do
    let p ← f e
    let g ← onGrid p grid
    pure (e, g)) (edges.filter mask)

/-- `evaluated[e_id]`. -/
def gridOf (d : List (Nat × List (ℚ × ℚ))) (e : Nat) : Py (List (ℚ × ℚ)) :=
  match d.lookup e with
  | none => .error .key
  | some g => .ok g

/-- The values of the edges at the past times of `t` (src/core/predictors/sk_full_net_predictor.py:144-159). -/
def rowFrom (d : List (Nat × List (ℚ × ℚ))) (times : List ℚ) (edges : List Nat) : Py (List ℚ) := do
  let rows ← mapPy (fun e => do
    let g ← gridOf d e
    mapPy (atTime g) times) edges
  pure rows.flatten

/-- `batch_predict` of `SKFullNetPredictor` and `TFFullNetPredictor` (src/core/predictors/sk_full_net_predictor.py:105-205,
src/core/predictors/tf_full_net_predictor.py:103-203). The number of an output edge among the output edges is counted
during the loop there. -/
def fullNetBatch (c : Setup) (model : List (List ℚ) → Py (List (List ℚ))) (ts : List ℚ) (flow : DFlow) : Py (List (List PL)) := do
  let loads ← mapPy flow.edgeLoad (List.range c.edges)
  let grid := gridTimes ts c.interval c.past
  let qs ← gridsOf c.input (fun e => .ok (flow.queues e)) grid (List.range c.edges)
  let ls ← gridsOf c.input (fun e => rd loads e) grid (List.range c.edges)
  let zeroFct ← PL.new [0] [0] 0 0 ⊥ ⊤
  let rows ← mapPy (fun t => do
    let a ← rowFrom qs (pastTimes t c.interval c.past) ((List.range c.edges).filter c.input)
    let b ← rowFrom ls (pastTimes t c.interval c.past) ((List.range c.edges).filter c.input)
    pure (t :: (a ++ b))) ts
  let out ← model rows
  mapPy (fun p => do
    let raw ← rd out p.1
    mapPy (fun e =>
      if c.output e then do
        let g ← gridOf qs e
        let cur ← atTime g p.2
        edgeFn c c.interval p.2 cur (slice (countMask c.output e) c.future (clip raw)) e
      else pure zeroFct) (List.range c.edges)) ((List.range ts.length).zip ts)

/-- `batch_predict` of `SKNeighborhoodPredictor` and `TFNeighborhoodPredictor` (src/core/predictors/sk_neighborhood_predictor.py:114-207,
src/core/predictors/tf_neighborhood_predictor.py:114-201), for one output edge: the predictions for all times. The dicts are
indexed by the number of an edge among the input edges; `evaluated_queues[masked_id]` of an output edge outside the input mask
is that of the next input edge. The TensorFlow version evaluates the functions one time at a time. -/
def neighborhoodEdge (c : Setup) (near : Nat → Nat → Bool) (models : Nat → List (List ℚ) → Py (List (List ℚ))) (ts : List ℚ)
    (qs ls : List (Nat × List (ℚ × ℚ))) (e : Nat) : Py (List PL) := do
  let edges := (List.range c.edges).filter (fun j => near e j && c.input j)
  let rows ← mapPy (fun t => do
    let a ← rowFrom qs (pastTimes t c.interval c.past) edges
    let b ← rowFrom ls (pastTimes t c.interval c.past) edges
    pure (t :: (a ++ b))) ts
  let out ← models e rows
  mapPy (fun p => do
    let j ← rd ((List.range c.edges).filter c.input) (countMask c.input e)
    let g ← gridOf qs j
    let cur ← atTime g p.2
    let raw ← rd out p.1
    edgeFn c c.interval p.2 cur (clip raw) e) ((List.range ts.length).zip ts)

/-- `batch_predict` of the neighbourhood predictors, as a list of lists by edge (the code returns its transpose, by time). -/
def neighborhoodBatch (c : Setup) (near : Nat → Nat → Bool) (models : Nat → List (List ℚ) → Py (List (List ℚ))) (ts : List ℚ) (flow : DFlow) :
    Py (List (List PL)) := do
  let loads ← mapPy flow.edgeLoad (List.range c.edges)
  let grid := gridTimes ts c.interval c.past
  let qs ← gridsOf c.input (fun e => .ok (flow.queues e)) grid (List.range c.edges)
  let ls ← gridsOf c.input (fun e => rd loads e) grid (List.range c.edges)
  let zeroFct ← PL.new [0] [0] 0 0 ⊥ ⊤
  mapPy (fun e => if c.output e then neighborhoodEdge c near models ts qs ls e else pure (ts.map (fun _ => zeroFct))) (List.range c.edges)

/-- The values of `PerEdgeLinearRegressionPredictor` (src/core/predictors/per_edge_linear_regression_predictor.py:61-69), the first one apart. -/
def perEdgeValues (average : Bool) (cap : ℚ) : ℚ → List ℚ → List ℚ
  | cur, [] => [cur]
  | cur, v :: vs =>
    let x := if average then 2 * v - cur else v
    cur :: perEdgeValues average cap (max (max x (cur - cap)) 0) vs

/-- `[f(e)(t) for t in times for e in edges]`. -/
def interleaved (flow : DFlow) (times : List ℚ) (edges : List Nat) : Py (List ℚ) := do
  let rows ← mapPy (fun t => mapPy (fun e => (flow.queues e).eval t) edges) times
  pure rows.flatten

/-- `PerEdgeLinearRegressionPredictor` (src/core/predictors/per_edge_linear_regression_predictor.py:15-71). `inc e` are the ids of the
edges into the tail of `e`, `out e` those of the edges out of its head. The times of the inputs are
`[t - k for k in range(-past + 1, 1)]`. -/
def perEdge (edges : Nat) (inc out : Nat → List Nat) (capacity : Nat → ℚ) (past future : Nat) (average : Bool)
    (models : Nat → List (List ℚ) → Py (List (List ℚ))) : Predictor where
  predict t flow := do
    let times : List ℚ := (List.range past).map (fun (k : Nat) => t - ((k : ℚ) - past + 1))
    mapPy (fun e => do
      let a ← interleaved flow times (inc e)
      let b ← interleaved flow times (out e)
      let c ← interleaved flow times [e]
      let res ← models e [a ++ b ++ c]
      let raw ← rd res 0
      let cur ← (flow.queues e).eval t
      let p ← PL.new (futureTimes t 1 future) (perEdgeValues average (capacity e) cur raw) 0 0 ⊥ ⊤
      p.simplify) (List.range edges)
  constant := false

end Predictors
end Verif
