import Verif.Model.Evaluation

/-! Model of src/eval/evaluate_sample.py: the study of the sample network with growing demand, and its two pictures. Numbers are written to the JSON file and to the pictures as they are. The measured computation time of a
run is whatever the run reports. -/

namespace Verif
namespace SampleStudy
open Builder (mapPy)

/-- `build_sample_network` (src/test/sample_network.py:4-31), without the positions. -/
def sampleNetwork {P : Type} : Network P := ((((Network.empty.addEdge 0 1 1 2).addEdge 0 2 3 1).addEdge 1 3 1 2).addEdge 3 0 1 1).addEdge 3 2 1 1

/-- The network of a run (src/eval/evaluate_sample.py:42-46); `zero` is `PredictorType.ZERO`. -/
def studyNetwork {P : Type} (zero : P) (demand : ℚ) : Py (Network P) := do
  let f ← RC.new [0, 25] [demand, 0] ((0 : ℚ) : WithBot ℚ) ⊤
  sampleNetwork.addCommodity [(0, f)] 2 zero

/-- The call of `evaluate_single_run` for a demand (src/eval/evaluate_sample.py:42-60), with the travel times that it returns; `keys` are the predictors of `build_predictors` (src/eval/evaluate_sample.py:19-29). -/
def studyRun {P : Type} [DecidableEq P] (ord : List Nat → List Nat) (zero : P) (keys : List P) (preds : ℚ → P → Predictor) (batch : ℚ → P → List ℚ → DFlow → Py (List (List PL))) (tick : Nat → Bool)
    (fuel search : Nat) (demand : ℚ) : Py (List ℚ) := do
  let n ← studyNetwork zero demand
  let c ← rd n.commodities 0
  let rep ← Evaluation.evaluateSingleRun ord n (fun _ => c) [0] keys (preds demand) (batch demand) 0 true 500 (1 / 4) 25 1 1 none true tick fuel search
  pure rep.travelTimes

/-- `for i, val in enumerate(times): avg_times[i].append(val)` (src/eval/evaluate_sample.py:61-62). -/
def appendEach : List (List ℚ) → List ℚ → Py (List (List ℚ))
  | lists, [] => .ok lists
  | [], _ :: _ => .error .index
  | l :: lists, t :: times => do
    let r ← appendEach lists times
    pure ((l ++ [t]) :: r)

/-- The loop (src/eval/evaluate_sample.py:38-65), with its `avg_times`. -/
def loop (run : ℚ → Py (List ℚ)) (step maxDemand : ℚ) : Nat → ℚ → List (List ℚ) → Py (List (List ℚ))
  | 0, _, _ => .error .fuel
  | n + 1, demand, avgTimes =>
    if demand ≤ maxDemand then do
      let times ← run demand
      let avgTimes' ← appendEach avgTimes times
      loop run step maxDemand n (demand + step) avgTimes'
    else .ok avgTimes

/-- The contents of `avg_times_sample.json` (src/eval/evaluate_sample.py:33-73). The fuel is enough for the 120 demands. -/
def avgTimes (run : ℚ → Py (List ℚ)) : Py (List (List ℚ)) := loop run (1 / 4) 30 200 (0 + 1 / 4) [[], [], [], [], [], []]

/-- A style of a curve (src/eval/evaluate_sample.py:83-93). -/
structure Style where
  label : String
  color : String
  dashed : Bool
  deriving DecidableEq

/-- `configs` of the first picture (src/eval/evaluate_sample.py:83-93). -/
def styles : List Style :=
  [⟨"$\\hat q^{\\text{Z}}$", "blue", false⟩, ⟨"$\\hat q^{\\text{C}}$", "red", false⟩, ⟨"$\\hat q^{\\text{L}}$", "{rgb,255:red,0; green,128; blue,0}", false⟩,
    ⟨"$\\hat q^{\\text{RL}}$", "orange", false⟩, ⟨"$\\hat q^{\\text{ML}}$", "black", false⟩, ⟨"$\\text{OPT}$", "purple", true⟩]

/-- `configs` of the second picture (src/eval/evaluate_sample.py:128-137). -/
def regretStyles : List Style :=
  [⟨"$\\hat q^{\\text{Z}}$", "blue", false⟩, ⟨"$\\hat q^{\\text{C}}$", "red", false⟩, ⟨"$\\hat q^{\\text{L}}$", "{rgb,255:red,0; green,128; blue,0}", false⟩,
    ⟨"$\\hat q^{\\text{RL}}$", "orange", false⟩, ⟨"$\\hat q^{\\text{ML}}$", "black", false⟩]

/-- A picture: the legend entries, and the curves with colour and points. The `i`-th legend entry is that of the `i`-th curve (as pgfplots does it). -/
structure Picture where
  legend : List String
  curves : List (String × Bool × List (ℚ × ℚ))

/-- `x = (i + 1) * 0.25` (src/eval/evaluate_sample.py:115, 161). -/
def abscissa (i : Nat) : ℚ := (i + 1) * (1 / 4)

/-- `sample_from_file_to_tikz` (src/eval/evaluate_sample.py:82-124). -/
def picture (avgTimes : List (List ℚ)) : Py Picture := do
  let curves ← mapPy (fun x : List ℚ × Nat => do
    let s ← rd styles x.2
    pure (s.color, s.dashed, x.1.zipIdx.map (fun y => (abscissa y.2, y.1)))) avgTimes.zipIdx
  pure ⟨styles.map Style.label, curves⟩

/-- `f"({x}, {y / avg_times[-1][i]})"` (src/eval/evaluate_sample.py:160-162). -/
def regretPoint (avgTimes : List (List ℚ)) (y : ℚ × Nat) : Py (ℚ × ℚ) := do
  let opt ← rdLast avgTimes
  let o ← rd opt y.2
  let q ← pyDiv y.1 o
  pure (abscissa y.2, q)

/-- `sample_regrets_from_file_to_tikz` (src/eval/evaluate_sample.py:127-170): the last list gets no curve. -/
def regrets (avgTimes : List (List ℚ)) : Py Picture := do
  let curves ← mapPy (fun x : List ℚ × Nat => do
    let s ← rd regretStyles x.2
    let points ← mapPy (regretPoint avgTimes) x.1.zipIdx
    pure (s.color, s.dashed, points)) avgTimes.dropLast.zipIdx
  pure ⟨regretStyles.map Style.label, curves⟩

/-- `eval_sample` (src/eval/evaluate_sample.py:32-79): what is written. -/
def evalSample (run : ℚ → Py (List ℚ)) : Py (List (List ℚ) × Picture × Picture) := do
  let ts ← avgTimes run
  let p ← picture ts
  let r ← regrets ts
  pure (ts, p, r)

end SampleStudy
end Verif
