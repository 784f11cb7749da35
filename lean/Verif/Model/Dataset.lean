import Mathlib.Data.Rat.Floor
import Verif.Model.FlowBuilder
import Verif.Model.Predictors
import Verif.Model.AvgTravelTime

/-! Model of `save_queues_and_edge_loads_for_flow` (src/ml/generate_queues.py:44-85) and of `QueueAndEdgeLoadDataset`
(src/ml/QueueAndEdgeLoadsDataset.py:11-128). Numpy arrays are nested lists; what `np.save` writes, `np.load` reads back. The mask files and console
output are not modelled. -/

namespace Verif.Dataset
open Verif Verif.Builder

/-- Python's `round(x)`: to the nearest integer, ties to the even one. -/
def roundPy (x : ℚ) : Int :=
  if x - ⌊x⌋ < 1 / 2 then ⌊x⌋
  else if 1 / 2 < x - ⌊x⌋ then ⌊x⌋ + 1
  else if ⌊x⌋ % 2 = 0 then ⌊x⌋ else ⌊x⌋ + 1

/-- `range(a, b)`. -/
def intRange (a b : Int) : List Int := (List.range (b - a).toNat).map (fun (k : Nat) => a + k)

/-- `round(prediction_interval / reroute_interval)` (src/ml/generate_queues.py:56-58, src/ml/QueueAndEdgeLoadsDataset.py:38-40). -/
def strideOf (reroute interval : ℚ) : Py Int := do
  let x ← pyDiv interval reroute
  pure (roundPy x)

/-- The sampled times (src/ml/generate_queues.py:67-73, src/ml/QueueAndEdgeLoadsDataset.py:41-47). -/
def sampleTimes (past : Nat) (stride : Int) (reroute horizon : ℚ) : Py (List ℚ) := do
  let x ← pyDiv horizon reroute
  pure ((intRange (-((past : Int) - 1) * stride) (⌊x⌋ + 1)).map (fun (i : Int) => (i : ℚ) * reroute))

/-- One saved file: the rows of queues and the rows of edge loads, one row per edge. -/
abbrev Samples := List (List ℚ) × List (List ℚ)

/-- `save_queues_and_edge_loads_for_flow` (src/ml/generate_queues.py:44-82); the array is returned instead of saved. -/
def samplesOf (edges past : Nat) (horizon reroute interval : ℚ) (flow : DFlow) : Py Samples := do
  let stride ← strideOf reroute interval
  let x ← pyDiv interval reroute
  if 1 / 10 ^ 14 < |(stride : ℚ) - x| then .error .value
  else do
    let times ← sampleTimes past stride reroute horizon
    let loads ← mapPy flow.edgeLoad (List.range edges)
    let ls ← mapPy (fun (l : PL) => l.evalSortedArray times) loads
    let qs ← mapPy (fun e => (flow.queues e).evalSortedArray times) (List.range edges)
    pure (qs, ls)

/-- `QueueAndEdgeLoadDataset` (src/ml/QueueAndEdgeLoadsDataset.py:11-18). -/
structure Data where
  past : Nat
  future : Nat
  reroute : ℚ
  stride : Int
  samplesPerFlow : Int
  data : List Samples
  inputMask : List Bool
  outputMask : List Bool
  addInput : Option (List Bool)
  addOutput : Option (List Bool)

/-- `data.shape != (2, edges, len(times))`, negated (src/ml/QueueAndEdgeLoadsDataset.py:60-63). -/
def shapeOk (edges len : Nat) (d : Samples) : Bool :=
  decide (d.1.length = edges) && decide (d.2.length = edges) && d.1.all (fun r => decide (r.length = len)) && d.2.all (fun r => decide (r.length = len))

/-- `np.maximum(m, np.amax(rows, axis=…))` (src/ml/QueueAndEdgeLoadsDataset.py:64-65). -/
def maxRows (m : List ℚ) (rows : List (List ℚ)) : List ℚ := List.zipWith (fun a r => r.foldl max a) m rows

/-- The loop over the files (src/ml/QueueAndEdgeLoadsDataset.py:58-72): the maxima of each edge. `np.amax` of nothing raises `ValueError`. -/
def readFiles (edges len : Nat) : List Samples → List ℚ → List ℚ → Py (List ℚ × List ℚ)
  | [], a, b => .ok (a, b)
  | d :: ds, a, b =>
    if shapeOk edges len d = false then .error .value
    else if len = 0 then .error .value
    else readFiles edges len ds (maxRows (maxRows a d.1) d.2) (maxRows b d.1)

/-- `__init__` (src/ml/QueueAndEdgeLoadsDataset.py:20-78), given the contents of the files. -/
def new (edges past future : Nat) (reroute interval horizon : ℚ) (files : List Samples) : Py Data := do
  let stride ← strideOf reroute interval
  let times ← sampleTimes past stride reroute horizon
  if files.isEmpty then .error .value
  else do
    let (a, b) ← readFiles edges times.length files (List.replicate edges 0) (List.replicate edges 0)
    pure { past := past, future := future, reroute := reroute, stride := stride,
           samplesPerFlow := (times.length : Int) - stride * ((past : Int) + future), data := files,
           inputMask := a.map (fun v => decide (0 < v)), outputMask := b.map (fun v => decide (0 < v)),
           addInput := none, addOutput := none }

/-- `use_additional_input_mask` (src/ml/QueueAndEdgeLoadsDataset.py:80-81). -/
def Data.useInput (D : Data) (m : List Bool) : Data := { D with addInput := some m }

/-- `use_additional_output_mask` (src/ml/QueueAndEdgeLoadsDataset.py:83-84). -/
def Data.useOutput (D : Data) (m : List Bool) : Data := { D with addOutput := some m }

/-- `mask if additional is None else mask * additional` (src/ml/QueueAndEdgeLoadsDataset.py:95-104). `ValueError` for different lengths;
broadcasting of arrays of length 1 is not modelled. -/
def bothMasks (m : List Bool) : Option (List Bool) → Py (List Bool)
  | none => .ok m
  | some a => if m.length = a.length then .ok (List.zipWith (· && ·) m a) else .error .value

/-- A bound of a slice, from a possibly negative number. -/
def bound (len : Nat) (a : Int) : Nat := (max 0 (min (if a < 0 then a + len else a) len)).toNat

/-- `l[a:b:step]`; `ValueError` when `step` is 0; negative steps are not modelled. -/
def pySlice {α : Type} (l : List α) (a b step : Int) : Py (List α) :=
  if step ≤ 0 then .error .value
  else .ok ((List.range ((bound l.length b - bound l.length a + (step.toNat - 1)) / step.toNat)).filterMap
    (fun j => l[bound l.length a + j * step.toNat]?))

/-- `rows[mask]`: `IndexError` for different lengths. -/
def maskRows {α : Type} (mask : List Bool) (rows : List α) : Py (List α) :=
  if mask.length = rows.length then .ok (((rows.zip mask).filter (fun p => p.2)).map Prod.fst) else .error .index

/-- `rows[mask, a:b:step].flatten()`. -/
def block (mask : List Bool) (rows : List (List ℚ)) (a b step : Int) : Py (List ℚ) :=
  if step ≤ 0 then .error .value
  else do
    let rs ← maskRows mask rows
    let cut ← mapPy (fun r => pySlice r a b step) rs
    pure cut.flatten

/-- `l[i]` with Python's negative indices. -/
def rdInt {α : Type} (l : List α) (i : Int) : Py α :=
  if 0 ≤ i then rd l i.toNat
  else if 0 ≤ i + l.length then rd l (i + l.length).toNat
  else .error .index

/-- `__getitem__` (src/ml/QueueAndEdgeLoadsDataset.py:86-112). -/
def Data.get (D : Data) (index : Int) : Py (List ℚ × List ℚ) :=
  if D.samplesPerFlow = 0 then .error .zeroDiv
  else do
    let flowId := index.fdiv D.samplesPerFlow
    let sampleId := index.fmod D.samplesPerFlow
    let data ← rdInt D.data flowId
    let phiInd := sampleId + ((D.past : Int) - 1) * D.stride
    let lastInd := phiInd + D.future * D.stride
    let inMask ← bothMasks D.inputMask D.addInput
    let outMask ← bothMasks D.outputMask D.addOutput
    let qs ← block inMask data.1 sampleId (phiInd + 1) D.stride
    let ls ← block inMask data.2 sampleId (phiInd + 1) D.stride
    let target ← block outMask data.1 (phiInd + D.stride) (lastInd + 1) D.stride
    pure ((sampleId : ℚ) * D.reroute :: (qs ++ ls), target)

/-- `__len__` (src/ml/QueueAndEdgeLoadsDataset.py:114-115). -/
def Data.len (D : Data) : Int := D.data.length * D.samplesPerFlow

end Verif.Dataset
