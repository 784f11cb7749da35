import Verif.Model.FlowBuilder

/-! Model of the statistics in src/eval/evaluate_network.py. A run is the list `avg_travel_times` of its JSON file: the average travel times of the predictors and, at the end, the optimal one. -/

namespace Verif
namespace Statistics
open Builder (mapPy)

/-- `any(travel_times[j] != travel_times[0] for j in range(len(travel_times) - 1))` (src/eval/evaluate_network.py:233-235, 277-279, 334-336, 356-358). -/
def differ (run : List ℚ) : Bool := run.dropLast.any (fun x => x != run.getD 0 0)

/-- `travel_times[i] / travel_times[-1] - 1`. -/
def slowdown (run : List ℚ) (i : Nat) : Py ℚ := do
  let x ← rd run i
  let opt ← rdLast run
  let q ← pyDiv x opt
  pure (q - 1)

/-- `np.average(l)`; `none` is `nan`, for the empty list. -/
def average (l : List ℚ) : Option ℚ := if l = [] then none else some (l.sum / l.length)

/-- `eval_jsons_to_avg_slowdowns` (src/eval/evaluate_network.py:326-345), for `k` predictors and the runs in the order of the files: the average slowdowns that are saved.
`eval_jsons_to_avg_eps` is the same function. -/
def avgSlowdowns (k : Nat) (runs : List (List ℚ)) : Py (List (Option ℚ)) := do
  let rows ← mapPy (fun run => mapPy (slowdown run) (List.range k)) (runs.filter differ)
  mapPy (fun i => do
    let column ← mapPy (fun row => rd row i) rows
    pure (average column)) (List.range k)

/-- The numbers printed by `generate_slowdown_boxplot` (src/eval/evaluate_network.py:265-301): the "mean average travel time" of each predictor. -/
def printedMeans (k : Nat) (runs : List (List ℚ)) : Py (List ℚ) := do
  let rows ← mapPy (fun run => mapPy (fun i => rd run i) (List.range k)) (runs.filter differ)
  mapPy (fun i => do
    let column ← mapPy (fun row => rd row i) rows
    pyDiv column.sum runs.length) (List.range k)

/-- What is read from the JSON file of a run (src/eval/evaluate_network.py:231-232, 275-276, 311-312); errors may be `nan`. -/
structure Run (E : Type) where
  times : List ℚ
  errors : List E

variable {P K L E : Type}

/-- `visualization_config`: predictor types with colour and label, in order. -/
abbrev Styles (P K L : Type) := List (P × K × L)

/-- Column `i` of rows of numbers. -/
def column {α : Type} (rows : List (List α)) (i : Nat) : Py (List α) := mapPy (fun row => rd row i) rows

/-- `[BoxPlot(labels[i], colors[i], data[i]) for i in range(len(data))]` (src/eval/evaluate_network.py:288-290, 319). -/
def boxPlots {α : Type} (styles : Styles P K L) (rows : List (List α)) : Py (List (L × K × List α)) :=
  mapPy (fun x : (P × K × L) × Nat => do
    let data ← column rows x.2
    pure (x.1.2.2, x.1.2.1, data)) styles.zipIdx

/-- The plots of `generate_slowdown_boxplot` (src/eval/evaluate_network.py:265-294). -/
def slowdownPlots (styles : Styles P K L) (runs : List (Run E)) : Py (List (L × K × List ℚ)) := do
  let rows ← mapPy (fun run => mapPy (slowdown run) (List.range styles.length)) ((runs.map Run.times).filter differ)
  boxPlots styles rows

/-- The plots of `generate_mae_boxplot` (src/eval/evaluate_network.py:301-323). -/
def errorPlots (styles : Styles P K L) (runs : List (Run E)) : Py (List (L × K × List E)) := do
  let rows ← mapPy (fun run : Run E => mapPy (fun i => rd run.errors i) (List.range styles.length)) runs
  boxPlots styles rows

/-- `coordinates[i].append((err, travel_times[i] - travel_times[-1]))` (src/eval/evaluate_network.py:237): the pair, for `k` lists of coordinates. -/
def coordinate (k : Nat) (times : List ℚ) (x : E × Nat) : Py (E × ℚ) :=
  if x.2 < k then do
    let t ← rd times x.2
    let opt ← rdLast times
    pure (x.1, t - opt)
  else .error .index

/-- The coordinates of `compare_mae_with_perf` (src/eval/evaluate_network.py:223-262), with their colours. -/
def comparison (styles : Styles P K L) (runs : List (Run E)) : Py (List (K × List (E × ℚ))) := do
  let rows ← mapPy (fun run : Run E => mapPy (coordinate styles.length run.times) run.errors.zipIdx) (runs.filter (fun run => differ run.times))
  pure (styles.zipIdx.map (fun x => (x.1.2.1, rows.filterMap (fun row => row[x.2]?))))

end Statistics
end Verif
