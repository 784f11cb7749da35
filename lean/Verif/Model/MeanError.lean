import Verif.Model.Dataset

/-! Model of `evaluate_mean_absolute_error` (src/eval/evaluate.py:227-290). NumPy arrays are nested lists; `len(flow.queues)` is a parameter `edges`. The status message is left out. -/

namespace Verif
namespace MAE
open Builder (mapPy)

/-- `l[i]` of NumPy, where a negative index counts from the end. -/
def rdNeg {α : Type} (l : List α) (i : Int) : Py α :=
  if 0 ≤ i then rd l i.toNat
  else if 0 ≤ i + l.length then rd l (i + l.length).toNat
  else .error .index

/-- `a - b` of two rows (src/eval/evaluate.py:273-274). NumPy would also stretch a row of length 1, which needs a predictor that answers for one edge only; all unequal lengths are errors here. -/
def minusRows (a b : List ℚ) : Py (List ℚ) :=
  if a.length = b.length then .ok (List.zipWith (· - ·) a b) else .error .value

/-- `[i * reroute_interval for i in range(0, floor(h / reroute_interval) + 1)]` (src/eval/evaluate.py:239-242, 248). -/
def steps (reroute h : ℚ) : Py (List ℚ) := do
  let x ← pyDiv h reroute
  pure ((List.range (⌊x⌋ + 1).toNat).map (fun (i : Nat) => (i : ℚ) * reroute))

/-- `queue_values` (src/eval/evaluate.py:245-250). -/
def queueValues (edges : Nat) (reroute horizon : ℚ) (flow : DFlow) : Py (List (List ℚ)) := do
  let ts ← steps reroute horizon
  mapPy (fun t => mapPy (fun e => (flow.queues e).eval t) (List.range edges)) ts

/-- `to_samples` (src/eval/evaluate.py:255-263). -/
def toSamples (future : Nat) (interval t : ℚ) (preds : List PL) : Py (List (List ℚ)) :=
  mapPy (fun (k : Nat) => mapPy (fun (q : PL) => q.eval (t + ((k : ℚ) + 1) * interval)) preds) (List.range future)

/-- The differences for the prediction of number `i` (src/eval/evaluate.py:271-275). -/
def diffsOf (future : Nat) (stride : Int) (queues : List (List ℚ)) (samples : List (List ℚ)) (i : Nat) : Py (List (List ℚ)) :=
  mapPy (fun (k : Nat) => do
    let a ← rd samples k
    let b ← rdNeg queues ((i : Int) + ((k : Int) + 1) * stride)
    minusRows a b) (List.range future)

/-- `np.average(np.abs(diff))` (src/eval/evaluate.py:282); of an empty array it is not a number, here `none`. -/
def averageAbs (diff : List (List (List ℚ))) : Option ℚ :=
  if diff.flatten.flatten.length = 0 then none
  else some ((diff.flatten.flatten.map (fun x => |x|)).sum / diff.flatten.flatten.length)

/-- The body of the loop over the predictors and the average (src/eval/evaluate.py:252-283). -/
def errorOf (future : Nat) (interval : ℚ) (stride : Int) (times : List ℚ) (queues : List (List ℚ)) (flow : DFlow) (batch : List ℚ → DFlow → Py (List (List PL))) : Py (Option ℚ) := do
  let preds ← batch times flow
  let samples ← mapPy (fun (p : Nat × ℚ) => do
    let ps ← rd preds p.1
    toSamples future interval p.2 ps) ((List.range times.length).zip times)
  let diffs ← mapPy (fun i => do
    let s ← rd samples i
    diffsOf future stride queues s i) (List.range times.length)
  pure (averageAbs diffs)

/-- `evaluate_mean_absolute_error` (src/eval/evaluate.py:227-290). `predictors` are the items of the dict: a name and the method `batch_predict`. -/
def meanAbsoluteErrors {T : Type} (edges : Nat) (flow : DFlow) (predictors : List (T × (List ℚ → DFlow → Py (List (List PL))))) (future : Nat) (reroute interval horizon : ℚ) :
    Py (List (T × Option ℚ)) := do
  let times ← steps reroute (horizon - (future + 1) * interval)
  let stride ← Dataset.strideOf reroute interval
  let queues ← queueValues edges reroute horizon flow
  mapPy (fun p => do
    let x ← errorOf future interval stride times queues flow p.2
    pure (p.1, x)) predictors

end MAE
end Verif
