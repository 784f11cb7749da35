import Verif.Model.FileLock

/-! Model of the loops over files with locks (src/ml/build_test_flows.py:45-138, src/ml/generate_queues.py:107-129, src/ml/SKNeighborhood.py:50-99, src/ml/TFNeighborhood.py:48-148,
src/ml/SKFullNetworkModel.py:72-74, src/ml/TFFullNetworkModel.py:114-116, src/scenarios/sioux_falls_scenario.py:40-64, src/eval/evaluate_network.py:60-106): a process calls
`with_file_lock` for one file after the other and then `wait_for_locks`. Any number of processes run, interleaved between any two system calls. -/

namespace Verif.FileLock

/-- What a process does: its calls of `with_file_lock` and the directory it waits for. -/
structure Job where
  calls : List Call
  waits : List Char

/-- Where a process is: in its `k`-th call, in `wait_for_locks`, behind it, or ended by an exception. -/
inductive Stage
  | call (k : Nat) (pc : Pc)
  | waiting
  | done
  | raised
  deriving DecidableEq

/-- All processes, and the files. -/
structure Workers where
  fs : Fs
  stage : Nat → Stage
  dead : Nat → Bool

/-- What happens next in a process: something in its call, a round of `wait_for_locks` in which `os.listdir` returns `names`, or the process is killed. -/
inductive JobEvent
  | inCall (ev : Event)
  | lists (names : List (List Char))
  | kill

/-- The loop goes on with the `k`-th call, or is over (src/ml/SKNeighborhood.py:50, 99). -/
def enter (j : Job) (k : Nat) : Stage := if k < j.calls.length then .call k .start else .waiting

/-- After a step in the `k`-th call (src/utilities/file_lock.py:20-35). -/
def afterStep (j : Job) (k : Nat) : Pc → Stage
  | .finished .returned => enter j (k + 1)
  | .finished .raised => .raised
  | .skipped => enter j (k + 1)
  | pc => .call k pc

/-- One step of a process. A round of `wait_for_locks` ends the waiting if no name starts with the prefix of locks (src/utilities/file_lock.py:41-49); sleeping takes no step. -/
def stepJob (j : Job) (fs : Fs) : Stage → JobEvent → Option (Fs × Stage)
  | .call k pc, .inCall ev =>
    match j.calls[k]? with
    | some c => (stepCall c fs pc ev).map (fun r => (r.1, afterStep j k r.2))
    | none => none
  | .waiting, .lists names => some (fs, if (names.filter (fun n => lockPrefix.isPrefixOf n)).length > 0 then .waiting else .done)
  | _, _ => none

/-- One step of process `i`. -/
def stepWorkers (jobs : Nat → Job) (w : Workers) (i : Nat) (ev : JobEvent) : Option Workers :=
  if w.dead i then none
  else match ev with
    | .kill => some { w with dead := fun j => if j = i then true else w.dead j }
    | ev => (stepJob (jobs i) w.fs (w.stage i) ev).map (fun r => { w with fs := r.1, stage := fun j => if j = i then r.2 else w.stage j })

/-- A schedule: which process does what, one after the other. -/
def runWorkers (jobs : Nat → Job) : Workers → List (Nat × JobEvent) → Option Workers
  | w, [] => some w
  | w, (i, ev) :: evs => (stepWorkers jobs w i ev).bind (fun w' => runWorkers jobs w' evs)

/-- `os.path.dirname(path)`: what is in front of the last slash, without slashes at its end unless there is nothing else. -/
def dirname (path : List Char) : List Char :=
  let head := (path.reverse.dropWhile (· ≠ '/')).reverse
  if head.all (· = '/') then head else (head.reverse.dropWhile (· = '/')).reverse

/-- The model of edge `e` (src/ml/SKNeighborhood.py:53). -/
def modelFile (models : List Char) (e : Nat) : Path := (models, (toString e).toList ++ ".pickle".toList)

/-- `train_sk_neighborhood_model`, as far as files are concerned: one model per edge, then `wait_for_locks(os.path.dirname(models_path))` (src/ml/SKNeighborhood.py:50-99). -/
def trainNeighborhood (models : List Char) (edges : List Nat) : Job := ⟨edges.map (fun e => ⟨modelFile models e, none⟩), dirname models⟩

/-- `build_flows`, `generate_queues_and_edge_loads`, `eval_network`, `train_sk_full_net_model`, `eval_shallow` and the like: files of one directory, each perhaps with further outputs, then
`wait_for_locks` for this directory (src/ml/build_test_flows.py:133-138, src/ml/generate_queues.py:127-129, src/ml/SKFullNetworkModel.py:72-74, src/ml/TFFullNetworkModel.py:114-116,
src/scenarios/sioux_falls_scenario.py:63-64, src/eval/evaluate_network.py:101-106). `os.path.dirname(os.path.join(d, name))` is `d` for names without slash. -/
def makeFiles (dir : List Char) (files : List (List Char × List Path)) : Job := ⟨files.map (fun f => ⟨(dir, f.1), some ((dir, f.1) :: f.2)⟩), dir⟩

end Verif.FileLock
