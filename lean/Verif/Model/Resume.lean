import Verif.Model.Evaluation
import Verif.Model.Demands
import Verif.Model.Merge
import Verif.Model.FileLock
import Mathlib.Logic.Function.Basic

/-! Model of what is on the disk while flows are evaluated (src/eval/evaluate_network.py:42-104) and training flows are built (src/ml/build_test_flows.py:70-138), when processes may be stopped at any point: by an
exception from outside (no space left, Ctrl-C) or by being killed. One process works on a file at a time (C65). A file that is being written exists from the moment it is opened. -/

namespace Verif
namespace Resume
open Builder (mapPy)

/-- A file: it does not exist, it was opened for writing and holds only a part of its contents, or it is complete. -/
inductive File (α : Type)
  | absent | torn | whole (a : α)

/-- `os.path.exists(path)`. -/
def File.present {α : Type} : File α → Bool
  | .absent => false
  | _ => true

/-- What a handler does: the files after each of its steps, and how it ends. -/
abbrev Trace (D : Type) := List D × FileLock.Ending

/-- First `ds`, then `t`. -/
def andThen {D : Type} (ds : List D) (t : Trace D) : Trace D := (ds ++ t.1, t.2)

/-- A call of `with_file_lock`: which lock it uses, whether all expected files exist, and its handler. -/
structure LockedTask (D : Type) where
  lock : Nat
  done : D → Bool
  handle : D → Trace D

/-- The lock files that exist, and all other files. -/
structure Place (D : Type) where
  locked : Nat → Bool
  files : D

/-- How a call of `with_file_lock` ends. -/
inductive Outcome
  | skipped | returned | raised
  deriving DecidableEq

/-- The outcome of a call whose handler has ended. -/
def outcomeOf : FileLock.Ending → Outcome
  | .returned => .returned
  | .raised => .raised

/-- Whether the call returns at once (src/utilities/file_lock.py:20-25). -/
def skips {D : Type} (t : LockedTask D) (w : Place D) : Bool := w.locked t.lock || t.done w.files

/-- `with_file_lock` without anything happening from outside (src/utilities/file_lock.py:8-35): the lock is made before the handler, and removed after it. -/
def call {D : Type} (t : LockedTask D) (w : Place D) : Place D × Outcome :=
  if skips t w then (w, .skipped)
  else (⟨Function.update w.locked t.lock false, ((t.handle w.files).1).getLast?.getD w.files⟩, outcomeOf (t.handle w.files).2)

/-- What a process that calls `with_file_lock` can leave behind. An exception that is raised between any two steps of the handler passes through `finally`, which removes the lock (src/utilities/file_lock.py:31-35); a process
that is killed leaves it. -/
inductive Attempt {D : Type} (t : LockedTask D) (w : Place D) : Place D → Prop
  | ends : Attempt t w (call t w).1
  | interrupted (x : D) : skips t w = false → x ∈ w.files :: (t.handle w.files).1 → Attempt t w ⟨Function.update w.locked t.lock false, x⟩
  | killed (x : D) : skips t w = false → x ∈ w.files :: (t.handle w.files).1 → Attempt t w ⟨Function.update w.locked t.lock true, x⟩
  | killedEarly : Attempt t w w

/-! ### Evaluations -/

/-- The files of an evaluation: `flow_path`, `json_eval_path` and `visualization_json_path` (src/eval/evaluate_network.py:43-58). -/
structure Outputs (F J V : Type) where
  flow : File F
  json : File J
  vis : File V

/-- What an evaluation computes: the flow, the contents of the json file, and if there is to be a visualisation, what is computed before its file is opened, and what while it is open. -/
structure Job (F J M V : Type) where
  build : Py F
  assess : F → Py J
  merge : F → Py M
  encode : M → Py V
  pictures : Bool

variable {F J M V : Type}

/-- `to_visualization_json` (src/visualization/to_json.py:39-77): what is written is computed while the file is open. -/
def writePicture (job : Job F J M V) (m : M) (d : Outputs F J V) : Trace (Outputs F J V) :=
  match job.encode m with
  | .error _ => ([{ d with vis := .torn }], .raised)
  | .ok v => ([{ d with vis := .torn }, { d with vis := .whole v }], .returned)

/-- `if generate_flow_visualization` (src/eval/evaluate_network.py:84-98). -/
def drawPicture (job : Job F J M V) (f : F) (d : Outputs F J V) : Trace (Outputs F J V) :=
  if job.pictures then
    match job.merge f with
    | .error _ => ([], .raised)
    | .ok m => writePicture job m d
  else ([], .returned)

/-- The rest of `evaluate_single_run` once there is a flow (src/eval/evaluate.py:186-225), and of the handler. -/
def writeReport (job : Job F J M V) (f : F) (d : Outputs F J V) : Trace (Outputs F J V) :=
  match job.assess f with
  | .error _ => ([], .raised)
  | .ok j => andThen [{ d with json := .torn }, { d with json := .whole j }] (drawPicture job f { d with json := .whole j })

/-- The handler of `eval_network_demand` (src/eval/evaluate_network.py:60-98, src/eval/evaluate.py:152-184). Loading a flow from a file that is not complete raises. -/
def evalHandle (job : Job F J M V) (d : Outputs F J V) : Trace (Outputs F J V) :=
  match d.flow with
  | .torn => ([], .raised)
  | .whole f => writeReport job f d
  | .absent =>
    match job.build with
    | .error _ => ([], .raised)
    | .ok f => andThen [{ d with flow := .torn }, { d with flow := .whole f }] (writeReport job f { d with flow := .whole f })

/-- `with_file_lock(flow_path, handle, expect_exists)` (src/eval/evaluate_network.py:100-103). -/
def evalTask (job : Job F J M V) : LockedTask (Outputs F J V) where
  lock := 0
  done d := d.flow.present && d.json.present && (!job.pictures || d.vis.present)
  handle := evalHandle job

/-! ### What an evaluation computes -/

variable {P C : Type} [DecidableEq P]

/-- The contents of a visualisation (src/visualization/to_json.py:44-75). -/
structure Picture (C : Type) where
  nodes : List (Nat × ℚ × ℚ)
  edges : List (Nat × Nat × Nat × ℚ × ℚ)
  commodities : List (Nat × C)
  flow : DFlow

/-- `network.graph.positions[id]` (src/visualization/to_json.py:49-50). -/
def nodeItem (positions : List (Nat × ℚ × ℚ)) (v : Nat) : Py (Nat × ℚ × ℚ) :=
  match positions.lookup v with
  | none => .error .key
  | some p => .ok (v, p)

/-- The item of the edge with index `id` (src/visualization/to_json.py:55-62). -/
def edgeItem (n : Network P) (x : Nat × Nat) : Py (Nat × Nat × Nat × ℚ × ℚ) := do
  let c ← rd n.capacity x.2
  let t ← rd n.travelTime x.2
  pure (x.2, n.graph.nodeFrom x.1, n.graph.nodeTo x.1, c, t)

/-- `color_by_comm_idx[id]` (src/visualization/to_json.py:65). -/
def colourItem (colours : List (Nat × C)) (i : Nat) : Py (Nat × C) :=
  match colours.lookup i with
  | none => .error .key
  | some c => .ok (i, c)

/-- What `to_visualization_json` writes (src/visualization/to_json.py:39-77). -/
def visualization (n : Network P) (positions : List (Nat × ℚ × ℚ)) (colours : List (Nat × C)) (flow : DFlow) : Py (Picture C) := do
  let nodes ← mapPy (nodeItem positions) n.graph.nodes
  let edges ← mapPy (edgeItem n) n.graph.edges.zipIdx
  let comms ← mapPy (colourItem colours) (List.range n.commodities.length)
  pure ⟨nodes, edges, comms, flow⟩

/-- `{id: COLORS[comm.predictor_type] for (id, comm) in enumerate(network.commodities)}` (src/eval/evaluate_network.py:93-96). -/
def colourDict (colours : P → Option C) (n : Network P) : Py (List (Nat × C)) :=
  mapPy (fun x : Commodity P × Nat => match colours x.1.predictor with
    | none => .error .key
    | some c => .ok (x.2, c)) n.commodities.zipIdx

/-- The arguments of `eval_network_demand` (src/eval/evaluate_network.py:21-37), the network in the file, and the random generator: `rand` as in `Model/Demands`; `pick seed k` is what `random.randrange(0, k)` then draws, up to
multiples of `k`. `order` gives the items of a dict of rates in their order. `colours` is `COLORS`. -/
structure Config (P C : Type) where
  file : Network P
  ord : List Nat → List Nat
  rand : Nat → Nat → ℚ → ℚ → ℚ
  pick : Nat → Nat → Nat
  keys : List P
  preds : P → Predictor
  batch : P → List ℚ → DFlow → Py (List (List PL))
  constant : P
  inflowHorizon : ℚ
  sigma : Option ℚ
  split : Bool
  horizon : ℚ
  reroute : ℚ
  interval : ℚ
  future : Nat
  search : Nat
  colours : P → Option C
  positions : List (Nat × ℚ × ℚ)
  order : FRC → List (Nat × RC)
  pictures : Bool

/-- What differs from attempt to attempt: log messages and the times at which they are due, the measured time. `fuel` bounds the rounds of the builder. -/
structure Clock where
  suppress : Bool
  tick : Nat → Bool
  fuel : Nat
  time : ℚ

/-- The network with demands, and the focused commodity (src/eval/evaluate_network.py:61-67). -/
def demandsOf (cfg : Config P C) (index : Nat) : Py (Network P × Nat) := do
  let n ← Demands.evaluation cfg.rand cfg.file (cfg.inflowHorizon : WithTop ℚ) cfg.sigma index
  if n.commodities.length = 0 then .error .value
  else pure (n, cfg.pick (-(index : Int) - 1).natAbs n.commodities.length % n.commodities.length)

/-- The network with the commodities that are evaluated (src/eval/evaluate.py:119-150). -/
def setupOf (cfg : Config P C) (x : Network P × Nat) : Py (Network P × List Nat) :=
  SingleRun.setup cfg.ord x.1 (Demands.objectOf x.1.commodities cfg.constant) (List.range x.1.commodities.length) cfg.keys x.2 cfg.split cfg.inflowHorizon

/-- `evaluate_single_run` with the flow in the file, if there is one (src/eval/evaluate_network.py:71-85). -/
def runOf (cfg : Config P C) (a : Clock) (x : Network P × Nat) (stored : Option DFlow) : Py (Evaluation.Report P) :=
  Evaluation.evaluateSingleRun cfg.ord x.1 (Demands.objectOf x.1.commodities cfg.constant) (List.range x.1.commodities.length) cfg.keys cfg.preds cfg.batch x.2 cfg.split cfg.horizon cfg.reroute cfg.inflowHorizon
    cfg.future cfg.interval stored a.suppress a.tick a.fuel cfg.search

/-- The evaluation with number `index`, as one attempt computes it (src/eval/evaluate_network.py:60-98). The flow is saved together with the measured time. -/
def evalJob (cfg : Config P C) (index : Nat) (a : Clock) : Job (DFlow × ℚ) (Evaluation.Report P × ℚ) (Network P × DFlow × List (Nat × C)) (Picture C) where
  build := do
    let x ← demandsOf cfg index
    let (n, new) ← setupOf cfg x
    let flow ← Evaluation.buildOrLoad cfg.ord cfg.keys cfg.preds cfg.reroute cfg.horizon new a.suppress a.tick a.fuel n none
    pure (flow, a.time)
  assess f := do
    let x ← demandsOf cfg index
    let rep ← runOf cfg a x (some f.1)
    pure (rep, f.2)
  merge f := do
    let x ← demandsOf cfg index
    let (n, _) ← setupOf cfg x
    let merged ← Merge.mergeCommodities f.1 n.graph.edges.length (List.range x.1.commodities.length) (fun e => cfg.order (f.1.inflow e)) (fun e => cfg.order (f.1.outflow e))
    let colours ← colourDict cfg.colours n
    pure (n, merged, colours)
  encode m := visualization m.1 cfg.positions m.2.2 m.2.1
  pictures := cfg.pictures

/-! ### Training flows -/

/-- The contents of a file with a training flow: the flow, or the text "Dummy file". -/
inductive Stored (F : Type)
  | flow (f : F) | dummy

/-- The files of a training flow: its own, its visualisation, and the file with queues and edge loads (src/ml/build_test_flows.py:72-73, src/scenarios/anaheim_multi_com_scenario.py:78-89). -/
structure Samples (F S V : Type) where
  flow : File (Stored F)
  vis : File V
  sample : File S

/-- What is computed for a training flow; `callback` says whether `on_flow_computed` is given to `build_flows`; it then saves the sample, else it is `no_op`. -/
structure Training (F S V : Type) where
  build : Py F
  sample : F → Py S
  callback : Bool
  picture : F → Py V
  pictures : Bool
  dummy : Bool

variable {S : Type}

/-- `if generate_visualization` (src/ml/build_test_flows.py:114-130). What is written is computed beforehand, as a simplification. -/
def trainPicture (job : Training F S V) (f : F) (d : Samples F S V) : Trace (Samples F S V) :=
  if job.pictures then
    match job.picture f with
    | .error _ => ([], .raised)
    | .ok v => ([{ d with vis := .torn }, { d with vis := .whole v }], .returned)
  else ([], .returned)

/-- `save_queues_and_edge_loads_for_flow` (src/ml/generate_queues.py:43-86): the file is written at the end. Then the rest of the handler. -/
def writeSample (job : Training F S V) (f : F) (d : Samples F S V) (next : Samples F S V → Trace (Samples F S V)) : Trace (Samples F S V) :=
  match job.sample f with
  | .error _ => ([], .raised)
  | .ok s => andThen [{ d with sample := .torn }, { d with sample := .whole s }] (next { d with sample := .whole s })

/-- `on_flow_computed(flow_id, flow)` (src/ml/build_test_flows.py:112) and the rest of the handler. -/
def trainCallback (job : Training F S V) (f : F) (d : Samples F S V) : Trace (Samples F S V) :=
  if job.callback then writeSample job f d (trainPicture job f) else trainPicture job f d

/-- `if save_dummy` (src/ml/build_test_flows.py:102-108). -/
def savedAs (job : Training F S V) (f : F) : Stored F := if job.dummy then .dummy else .flow f

/-- The handler of `build_flows` (src/ml/build_test_flows.py:75-132). Loading a flow from an incomplete file or a dummy raises. -/
def trainHandle (job : Training F S V) (d : Samples F S V) : Trace (Samples F S V) :=
  match d.flow with
  | .torn => ([], .raised)
  | .whole .dummy => ([], .raised)
  | .whole (.flow f) => trainPicture job f d
  | .absent =>
    match job.build with
    | .error _ => ([], .raised)
    | .ok f => andThen [{ d with flow := .torn }, { d with flow := .whole (savedAs job f) }] (trainCallback job f { d with flow := .whole (savedAs job f) })

/-- `with_file_lock(flow_path, handle, expect_exists)` (src/ml/build_test_flows.py:134-137). -/
def trainTask (job : Training F S V) : LockedTask (Samples F S V) where
  lock := 0
  done d := d.flow.present && (!job.pictures || d.vis.present)
  handle := trainHandle job

/-- The handler of `generate_queues_and_edge_loads` (src/ml/generate_queues.py:115-126). Nothing is done for flows without a file, which `os.listdir` does not list. -/
def sampleHandle (job : Training F S V) (d : Samples F S V) : Trace (Samples F S V) :=
  match d.flow with
  | .absent => ([], .returned)
  | .torn => ([], .raised)
  | .whole .dummy => ([], .raised)
  | .whole (.flow f) => writeSample job f d (fun _ => ([], .returned))

/-- `with_file_lock(out_path, handle)` (src/ml/generate_queues.py:128). -/
def sampleTask (job : Training F S V) : LockedTask (Samples F S V) where
  lock := 1
  done d := d.sample.present
  handle := sampleHandle job

end Resume
end Verif
