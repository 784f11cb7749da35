import Verif.Model.Dataset

/-! Model of the older generators of training data in src/ml/generate_queues.py: `generate_queues`, `generate_training_data_with_edge_loads`,
`expanded_queues_from_flows` and `expanded_queues_from_flows_per_edge`. Rows of data are dicts, as lists of keys with values in order of insertion;
files are given by their contents. -/

namespace Verif.Expanded
open Verif Verif.Builder Verif.Dataset

/-- `range(a, b, step)`: `ValueError` when `step` is 0. -/
def stepRange (a b step : Int) : Py (List Int) :=
  if step = 0 then .error .value
  else if 0 < step then .ok ((List.range ((b - a + step - 1) / step).toNat).map (fun (k : Nat) => a + k * step))
  else .ok ((List.range ((a - b - step - 1) / (-step)).toNat).map (fun (k : Nat) => a + k * step))

/-- A file `*.flow.pickle`. `build_flows` writes it with `gzip.open` (src/ml/build_test_flows.py:112-113), `plain` is a pickle that is not
compressed, `empty` a lock file `.lock.*.flow.pickle`. -/
inductive FlowFile
  | gzip (s : DFlow)
  | plain (s : DFlow)
  | empty

/-- `with open(path, "rb") as file: flow = pickle.load(file)` (src/ml/generate_queues.py:35-36, 155-156, 222-223, 283-284). Compressed bytes raise
`UnpicklingError`, an empty file `EOFError`; both are called `runtime` here. -/
def FlowFile.load : FlowFile → Py DFlow
  | .plain s => .ok s
  | .gzip _ => .error .runtime
  | .empty => .error .runtime

/-- The body of `generate_queues` for one file (src/ml/generate_queues.py:35-39): one row per edge. -/
def queuesOf (edges : Nat) (past horizon step : Int) (f : FlowFile) : Py (List (List ℚ)) := do
  let s ← f.load
  let times ← stepRange (-past) (horizon + 1) step
  mapPy (fun e => mapPy (fun (t : Int) => (s.queues e).eval t) times) (List.range edges)

/-- A column of the expanded queues: `i{k}[{t}]` or `e[{t}]` (src/ml/generate_queues.py:231-233). -/
inductive Col
  | inc (k : Nat) (t : Int)
  | own (t : Int)
  deriving DecidableEq, Repr

/-- `d[key] = queues[i](phi - step_length * t)` for all `t` in `ts` (src/ml/generate_queues.py:230-233). -/
def fill {K : Type} (s : DFlow) (step phi : ℚ) (key : Int → K) (i : Nat) (ts : List Int) : Py (List (K × ℚ)) :=
  mapPy (fun (t : Int) => do
    let v ← (s.queues i).eval (phi - step * t)
    pure (key t, v)) ts

/-- The dict `d` of one edge and time (src/ml/generate_queues.py:228-233); the keys are distinct. -/
def expandedRow (g : Graph) (past future : Nat) (step : ℚ) (s : DFlow) (phi : Int) (r : Nat) : Py (List (Col × ℚ)) := do
  let inc ← mapPy (fun (p : Nat × Nat) => fill s step phi (Col.inc p.2) (g.edge p.1).id (intRange (-past) 1)) (g.incoming (g.nodeFrom r)).zipIdx
  let own ← fill s step phi Col.own (g.edge r).id (intRange (-past) (future + 1))
  pure (inc.flatten ++ own)

/-- The samples of one file (src/ml/generate_queues.py:222-235). -/
def expandedFile (g : Graph) (past future : Nat) (step : ℚ) (times : List Int) (f : FlowFile) : Py (List (List (Col × ℚ))) := do
  let s ← f.load
  let rows ← mapPy (fun phi => mapPy (expandedRow g past future step s phi) g.edges) times
  pure (rows.flatten.filter (fun d => d.any (fun p => decide (p.2 ≠ 0))))

/-- The columns of the table (src/ml/generate_queues.py:238-239). -/
def expandedCols (past future : Nat) : List Col :=
  (List.range 5).flatMap (fun k => (intRange (-past) 1).map (Col.inc k)) ++ (intRange (-past) (future + 1)).map Col.own

/-- `DataFrame(samples, columns=cols)`: keys that are not columns are left out, missing keys give `NaN` (`none`). -/
def frame {K : Type} [DecidableEq K] (cols : List K) (samples : List (List (K × ℚ))) : List (List (Option ℚ)) :=
  samples.map (fun d => cols.map (fun c => d.lookup c))

/-- The table of `expanded_queues_from_flows` (src/ml/generate_queues.py:215-240), with its header. -/
def expandedTable (g : Graph) (past future : Nat) (step horizon : ℚ) (sampleStep : Int) (files : List FlowFile) : Py (List Col × List (List (Option ℚ))) := do
  let times ← stepRange 0 ⌊horizon - step * future⌋ sampleStep
  let samples ← mapPy (expandedFile g past future step times) files
  pure (expandedCols past future, frame (expandedCols past future) samples.flatten)

/-- The two files of the output folder: the table, if it is there, and whether there is a lock. -/
structure Folder where
  out : Option (List Col × List (List (Option ℚ)))
  lock : Bool

/-- `expanded_queues_from_flows` (src/ml/generate_queues.py:190-244): the lock is not removed when an exception is raised. -/
def expandedRun (g : Graph) (past future : Nat) (step horizon : ℚ) (sampleStep : Int) (files : List FlowFile) (F : Folder) : Folder × Py Unit :=
  if F.out.isSome then (F, .ok ())
  else if F.lock then (F, .ok ())
  else match expandedTable g past future step horizon sampleStep files with
    | .ok t => (⟨some t, false⟩, .ok ())
    | .error e => (⟨none, true⟩, .error e)

/-- `d[k] = v`. -/
def put {K : Type} [DecidableEq K] (d : List (K × ℚ)) (k : K) (v : ℚ) : List (K × ℚ) :=
  if d.any (fun p => decide (p.1 = k)) then d.map (fun p => if p.1 = k then (k, v) else p) else d ++ [(k, v)]

/-- One value of the table of an edge: an integral or a value (src/ml/generate_queues.py:297-303, 306-312, 314-320). -/
def sampleOf (average : Bool) (step phi : ℚ) (q : PL) (t : Int) : Py ℚ :=
  if average then q.integrate (phi - step * (t + 1)) (phi - step * t) else q.eval (phi - step * t)

/-- `for t in ts: d[f"{i}[{t}]"] = …` (src/ml/generate_queues.py:296-303, 305-312, 313-320). -/
def fillEdge (average : Bool) (step phi : ℚ) (s : DFlow) (i : Nat) : List Int → List ((Nat × Int) × ℚ) → Py (List ((Nat × Int) × ℚ))
  | [], d => .ok d
  | t :: ts, d => do
    let v ← sampleOf average step phi (s.queues i) t
    fillEdge average step phi s i ts (put d (i, t) v)

/-- `for ie in edges: for t in ts: …` (src/ml/generate_queues.py:295-303, 304-312). -/
def fillEdges (average : Bool) (step phi : ℚ) (s : DFlow) (ts : List Int) : List Nat → List ((Nat × Int) × ℚ) → Py (List ((Nat × Int) × ℚ))
  | [], d => .ok d
  | i :: is, d => do
    let d' ← fillEdge average step phi s i ts d
    fillEdges average step phi s ts is d'

/-- The dict `d` of one time (src/ml/generate_queues.py:294-320). -/
def edgeRow (g : Graph) (average : Bool) (past future : Nat) (step : ℚ) (r : Nat) (s : DFlow) (phi : Int) : Py (List ((Nat × Int) × ℚ)) := do
  let d ← fillEdges average step phi s (intRange (-past + 1) 1) ((g.incoming (g.nodeFrom r)).map (fun p => (g.edge p).id)) []
  let d ← fillEdges average step phi s (intRange (-past + 1) 1) ((g.outgoing (g.nodeTo r)).map (fun p => (g.edge p).id)) d
  fillEdge average step phi s (g.edge r).id (intRange (-past + 1) (future + 1)) d

/-- The table of one edge (src/ml/generate_queues.py:288-322): the columns are the keys of the first sample, `IndexError` without samples. -/
def edgeTable (g : Graph) (average : Bool) (past future : Nat) (step horizon : ℚ) (sampleStep : Int) (flows : List DFlow) (r : Nat) :
    Py (List (Nat × Int) × List (List (Option ℚ))) := do
  let times ← stepRange 0 ⌊horizon - step * future⌋ sampleStep
  let rows ← mapPy (fun s => mapPy (edgeRow g average past future step r s) times) flows
  let first ← rd rows.flatten 0
  pure (first.map Prod.fst, frame (first.map Prod.fst) rows.flatten)

/-- One row of `generate_training_data_with_edge_loads` (src/ml/generate_queues.py:174-186). -/
def trainingRow (edges past future : Nat) (interval : ℚ) (s : DFlow) (loads : List PL) (t : ℚ) : Py (List ℚ) := do
  let pastTimes := (intRange (-past + 1) 1).map (fun (i : Int) => t + i * interval)
  let futureTimes := (intRange 1 (future + 1)).map (fun (i : Int) => t + i * interval)
  let a ← mapPy (fun x => mapPy (fun e => (s.queues e).eval x) (List.range edges)) pastTimes
  let b ← mapPy (fun x => mapPy (fun (l : PL) => l.eval x) loads) pastTimes
  let c ← mapPy (fun x => mapPy (fun e => (s.queues e).eval x) (List.range edges)) futureTimes
  pure (a.flatten ++ b.flatten ++ c.flatten)

/-- `training_sets[row] = values` (src/ml/generate_queues.py:182): `IndexError` without such a row, `ValueError` when the number of values is wrong. -/
def setRow (width : Nat) (sets : List (List ℚ)) (row : Nat) (values : List ℚ) : Py (List (List ℚ)) :=
  if sets.length ≤ row then .error .index
  else if values.length = width then .ok (sets.set row values)
  else .error .value

/-- The loop over the prediction times (src/ml/generate_queues.py:172-186): `row` stays 0. -/
def trainingLoop (edges past future : Nat) (interval : ℚ) (s : DFlow) (loads : List PL) : List ℚ → List (List ℚ) → Py (List (List ℚ))
  | [], sets => .ok sets
  | t :: ts, sets => do
    let values ← trainingRow edges past future interval s loads t
    let sets ← setRow (edges * past + edges * past + edges * future) sets 0 values
    trainingLoop edges past future interval s loads ts sets

/-- The array saved by `generate_training_data_with_edge_loads` for one file (src/ml/generate_queues.py:155-187). `np.ndarray(shape)` is not initialised: `memory n` is
what its `n` rows hold at first. -/
def trainingData (edges past future : Nat) (horizon reroute interval : ℚ) (memory : Nat → List (List ℚ)) (f : FlowFile) : Py (List (List ℚ)) := do
  let s ← f.load
  let x ← pyDiv horizon reroute
  let times := (intRange 0 (⌊x⌋ + 1)).map (fun (i : Int) => (i : ℚ) * reroute)
  let loads ← mapPy s.edgeLoad (List.range edges)
  trainingLoop edges past future interval s loads times (memory times.length)

end Verif.Expanded
