import Verif.Model.Dataset
import Verif.Model.Resume

/-! Model of the training of the four kinds of models (src/ml/SKFullNetworkModel.py:17-91, src/ml/TFFullNetworkModel.py:14-133, src/ml/SKNeighborhood.py:19-113, src/ml/TFNeighborhood.py:15-162), of the mask files that they share
(src/ml/QueueAndEdgeLoadsDataset.py:75-78, 117-128) and of `from_model(s)` (src/core/predictors/sk_full_net_predictor.py:208-229, src/core/predictors/tf_full_net_predictor.py:206-224,
src/core/predictors/sk_neighborhood_predictor.py:210-237, src/core/predictors/tf_neighborhood_predictor.py:204-229). Processes may be stopped at any point, as in `Model/Resume`. The learning itself is an arbitrary function of the
data it is given; `wait_for_locks`, logs and checkpoints are not modelled here. -/

namespace Verif
namespace Training
open Resume Dataset
open Builder (mapPy)

/-- scikit-learn or tensorflow. -/
inductive Library
  | sk | tf
  deriving DecidableEq

/-- The arguments of the training functions. `near e` is `get_neighboring_edges_mask_undirected(e, network, max_distance)` (src/ml/SKNeighborhood.py:70-72). -/
structure Setting where
  edges : Nat
  past : Nat
  future : Nat
  reroute : ℚ
  interval : ℚ
  horizon : ℚ
  near : Nat → Nat → Bool

/-- The files: the samples in `queues_and_edge_loads_dir`, the two mask files beside it, and the models: of the full network (`none`) and of single edges. A tensorflow model is a directory; one that exists but does not hold a
complete model is `torn`. -/
structure Folder (M : Type) where
  samples : List Dataset.Samples
  inMask : File (List Bool)
  outMask : File (List Bool)
  model : Library → Option Nat → File M

abbrev Matrix := List (List ℚ)

/-- What `fit` makes of `X_train, X_test, Y_train, Y_test`. -/
abbrev Learner (M : Type) := Library → Matrix → Matrix → Matrix → Matrix → Py M

/-- `iter(dataset)` for a class without `__iter__`: `dataset[i]`, `dataset[i + 1]`, … until `IndexError` (src/ml/SKFullNetworkModel.py:44). -/
def itemsFrom (D : Data) : Nat → Nat → Py (List (List ℚ × List ℚ))
  | 0, _ => .error .fuel
  | n + 1, i =>
    match D.get (i : Int) with
    | .error .index => .ok []
    | .error e => .error e
    | .ok x => do
      let r ← itemsFrom D n (i + 1)
      pure (x :: r)

/-- All items of the dataset. -/
def items (D : Data) : Py (List (List ℚ × List ℚ)) := itemsFrom D (D.len.natAbs + 2) 0

/-- `np.array(rows)`: `ValueError` for rows of different lengths. -/
def asArray (rows : Matrix) : Py Matrix := if rows.all (fun r => decide (r.length = (rows.headD []).length)) then .ok rows else .error .value

/-- The number of training samples of `train_test_split(X, Y, test_size=0.1, shuffle=False)`: a tenth, rounded up, is for testing, and `ValueError` is raised if nothing remains. Exact instead of floating-point numbers. -/
def trainCount (n : Nat) : Py Nat := if n - (n + 9) / 10 = 0 then .error .value else .ok (n - (n + 9) / 10)

/-- `X, Y = zip(*dataset)` (`ValueError` if there is no item), the split and the fit (src/ml/SKFullNetworkModel.py:44-53, src/ml/TFFullNetworkModel.py:43-108). -/
def learn {M : Type} (L : Learner M) (lib : Library) (D : Data) : Py M := do
  let xs ← items D
  if xs.isEmpty then .error .value
  else do
    let X ← asArray (xs.map Prod.fst)
    let Y ← asArray (xs.map Prod.snd)
    let n ← trainCount xs.length
    L lib (X.take n) (X.drop n) (Y.take n) (Y.drop n)

/-- The dataset as it is used for a model: for the model of an edge with the additional masks `input_mask * neighbours` and `[e == edge for e in edges]` (src/ml/SKNeighborhood.py:69-76). -/
def forSlot (c : Setting) : Option Nat → Data → Data
  | none, D => D
  | some e, D => (D.useInput (List.zipWith (· && ·) D.inputMask ((List.range c.edges).map (c.near e)))).useOutput ((List.range c.edges).map (fun j => decide (j = e)))

/-- `QueueAndEdgeLoadDataset(…)`. -/
def dataset {M : Type} (c : Setting) (d : Folder M) : Py Data := Dataset.new c.edges c.past c.future c.reroute c.interval c.horizon d.samples

section
variable {M : Type}

/-- The folder with another model. -/
def setModel (d : Folder M) (lib : Library) (slot : Option Nat) (f : File M) : Folder M := { d with model := fun l s => if l = lib ∧ s = slot then f else d.model l s }

/-- The folder with the masks of `D`. -/
def withMasks (D : Data) (d : Folder M) : Folder M := { d with inMask := .whole D.inputMask, outMask := .whole D.outputMask }

/-- `np.savetxt` of both masks (src/ml/QueueAndEdgeLoadsDataset.py:77-78). -/
def saveMasks (D : Data) (d : Folder M) : List (Folder M) :=
  [{ d with inMask := .torn }, { d with inMask := .whole D.inputMask }, { d with inMask := .whole D.inputMask, outMask := .torn }, withMasks D d]

/-- Fitting a model and saving it: `open(path, "wb")` and `pickle.dump`, or `model.save(path)` (src/ml/SKFullNetworkModel.py:44-61, src/ml/TFFullNetworkModel.py:43-111). -/
def fitting (c : Setting) (L : Learner M) (lib : Library) (slot : Option Nat) (D : Data) (d : Folder M) : Trace (Folder M) :=
  match learn L lib (forSlot c slot D) with
  | .error _ => ([], .raised)
  | .ok m => ([setModel d lib slot .torn, setModel d lib slot (.whole m)], .returned)

/-- `os.makedirs(path, exist_ok=True)`, for tensorflow only (src/ml/TFFullNetworkModel.py:29, src/ml/TFNeighborhood.py:56). -/
def prepare (lib : Library) (slot : Option Nat) (d : Folder M) : Folder M :=
  match lib with
  | .sk => d
  | .tf => if (d.model .tf slot).present then d else setModel d .tf slot .torn

/-- `handle` (src/ml/SKFullNetworkModel.py:30-70, src/ml/TFFullNetworkModel.py:28-112, src/ml/SKNeighborhood.py:55-97, src/ml/TFNeighborhood.py:55-146): the dataset is read, which writes the masks, unless this process `has` it
already; then the model is fitted. -/
def trainHandle (c : Setting) (L : Learner M) (lib : Library) (slot : Option Nat) (has : Option Data) (d : Folder M) : Trace (Folder M) :=
  andThen [prepare lib slot d]
    (match has with
    | some D => fitting c L lib slot D (prepare lib slot d)
    | none =>
      match dataset c d with
      | .error _ => ([], .raised)
      | .ok D => andThen (saveMasks D (prepare lib slot d)) (fitting c L lib slot D (withMasks D (prepare lib slot d))))

/-- The lock of a model (numbers above 0). -/
def lockOf : Library → Option Nat → Nat
  | .sk, none => 1
  | .tf, none => 2
  | .sk, some e => 2 * e + 3
  | .tf, some e => 2 * e + 4

/-- `with_file_lock(path, handle)` (src/ml/SKFullNetworkModel.py:72, src/ml/TFFullNetworkModel.py:114, src/ml/SKNeighborhood.py:97, src/ml/TFNeighborhood.py:146). -/
def fitTask (c : Setting) (L : Learner M) (lib : Library) (slot : Option Nat) (has : Option Data) : LockedTask (Folder M) where
  lock := lockOf lib slot
  done d := (d.model lib slot).present
  handle := trainHandle c L lib slot has

/-- Reading the dataset without any lock, as the training of neighbourhood models does if there are no mask files (src/ml/SKNeighborhood.py:35-45). The number of its lock is not used by anything. -/
def maskTask (c : Setting) : LockedTask (Folder M) where
  lock := 0
  done _ := false
  handle d :=
    match dataset c d with
    | .error _ => ([], .raised)
    | .ok D => (saveMasks D d, .returned)

/-- `[v > 0 for v in np.loadtxt(path)]` (src/ml/QueueAndEdgeLoadsDataset.py:117-125); `none` if it raises. A file with a single number is read as an array without dimensions, over which one cannot iterate. A file that was not
written completely reads as `part`. -/
def loadMask (part : Option (List Bool)) : File (List Bool) → Option (List Bool)
  | .absent => none
  | .torn => part
  | .whole m => if m.length = 1 then none else some m

/-- `load_mask` (src/ml/QueueAndEdgeLoadsDataset.py:117-125). -/
def loadMasks (part : Option (List Bool)) (d : Folder M) : Option (List Bool × List Bool) :=
  match loadMask part d.inMask, loadMask part d.outMask with
  | some a, some b => some (a, b)
  | _, _ => none

/-- The masks of the dataset in the folder. -/
def freshMasks (c : Setting) (d : Folder M) : Option (List Bool × List Bool) :=
  match dataset c d with
  | .ok D => some (D.inputMask, D.outputMask)
  | .error _ => none

/-- `train_sk_full_net_model` and `train_tf_full_net_model` (src/ml/SKFullNetworkModel.py:17-91, src/ml/TFFullNetworkModel.py:14-133): the masks that the returned function will use, or `none` if an exception is raised. The masks
are those of the dataset that the handler has read, if it ran in this process. -/
def trainFull (part : Option (List Bool)) (c : Setting) (L : Learner M) (lib : Library) (w : Place (Folder M)) : Place (Folder M) × Option (List Bool × List Bool) :=
  match call (fitTask c L lib none none) w with
  | (w', .raised) => (w', none)
  | (w', .returned) => (w', freshMasks c w.files)
  | (w', .skipped) => (w', loadMasks part w'.files)

/-- The arguments of the predictors (src/ml/SKFullNetworkModel.py:80-89). Masks of a wrong length, with which predictions raise, are not modelled further. -/
def setup (c : Setting) (capacity : Nat → ℚ) (masks : List Bool × List Bool) : Predictors.Setup where
  edges := c.edges
  capacity := capacity
  input e := masks.1.getD e false
  output e := masks.2.getD e false
  past := c.past
  future := c.future
  interval := c.interval

/-- What the function returned by the training of a full-network model builds: the model is loaded from its file, which raises if it is not complete (src/core/predictors/sk_full_net_predictor.py:208-229,
src/core/predictors/tf_full_net_predictor.py:206-224). `apply` is `model.predict`. -/
def loadFull (apply : M → Matrix → Py Matrix) (c : Setting) (capacity : Nat → ℚ) (lib : Library) (masks : List Bool × List Bool) (d : Folder M) : Option Predictor :=
  match d.model lib none with
  | .whole m => some (Predictors.fullNet (setup c capacity masks) (apply m))
  | _ => none

/-- The loop over the edges (src/ml/SKNeighborhood.py:50-97, src/ml/TFNeighborhood.py:50-146): the dataset and the masks are replaced as soon as a handler runs. `none` if an exception is raised. -/
def trainLoop (c : Setting) (L : Learner M) (lib : Library) : List Nat → Option Data → List Bool × List Bool → Place (Folder M) → Place (Folder M) × Option (List Bool × List Bool)
  | [], _, masks, w => (w, some masks)
  | e :: es, has, masks, w =>
    match masks.2[e]? with
    | none => (w, none)
    | some false => trainLoop c L lib es has masks w
    | some true =>
      match call (fitTask c L lib (some e) has) w with
      | (w', .raised) => (w', none)
      | (w', .skipped) => trainLoop c L lib es has masks w'
      | (w', .returned) =>
        match (match has with
          | some D => some D
          | none => (dataset c w.files).toOption) with
        | none => (w', none)
        | some D => trainLoop c L lib es (some D) (D.inputMask, D.outputMask) w'

/-- `train_sk_neighborhood_model` and `train_tf_neighborhood_model` (src/ml/SKNeighborhood.py:19-99, src/ml/TFNeighborhood.py:15-148). -/
def trainEdges (part : Option (List Bool)) (c : Setting) (L : Learner M) (lib : Library) (w : Place (Folder M)) : Place (Folder M) × Option (List Bool × List Bool) :=
  if w.files.inMask.present && w.files.outMask.present then
    match loadMasks part w.files with
    | none => (w, none)
    | some masks => trainLoop c L lib (List.range c.edges) none masks w
  else
    match dataset c w.files with
    | .error _ => (w, none)
    | .ok D => trainLoop c L lib (List.range c.edges) (some D) (D.inputMask, D.outputMask) ⟨w.locked, withMasks D w.files⟩

/-- A complete file. -/
def contents {α : Type} : File α → Option α
  | .whole a => some a
  | _ => none

/-- What the function returned by the training of neighbourhood models builds (src/core/predictors/sk_neighborhood_predictor.py:210-237, src/core/predictors/tf_neighborhood_predictor.py:204-229): the models of the edges in the
output mask are loaded. -/
def loadEdges (apply : M → Matrix → Py Matrix) (c : Setting) (capacity : Nat → ℚ) (lib : Library) (masks : List Bool × List Bool) (d : Folder M) : Option Predictor :=
  if (List.range c.edges).all (fun e => decide (e < masks.2.length) && (!masks.2.getD e false || (contents (d.model lib (some e))).isSome)) then
    some (Predictors.neighborhood (setup c capacity masks) c.near (fun e X =>
      match contents (d.model lib (some e)) with
      | some m => apply m X
      | none => .error .key))
  else none

end

/-- Somebody adds, removes or replaces samples, by `generate_queues_and_edge_loads` (src/ml/generate_queues.py:88-129) or by hand: from then on the folder holds `ss`. The number of its lock is not used by anything. -/
def newSamples {M : Type} (ss : List Dataset.Samples) : LockedTask (Folder M) where
  lock := 0
  done _ := false
  handle d := ([{ d with samples := ss }], .returned)

end Training
end Verif
