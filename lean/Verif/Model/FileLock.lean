import Mathlib.Data.List.Basic

/-! Model of src/utilities/file_lock.py: any number of processes that call `with_file_lock`, interleaved between any two system calls. Only the existence of files
matters. A handler is an arbitrary program; it does not touch lock files. `os.remove` fails only if the file does not exist. -/

namespace Verif.FileLock

/-- A file: its directory and its name. -/
abbrev Path := List Char × List Char

/-- Which files exist. -/
abbrev Fs := Path → Bool

/-- What every lock file's name starts with. -/
def lockPrefix : List Char := ".lock.".toList

/-- `os.path.join(directory, f".lock.{filename}")` (src/utilities/file_lock.py:16-19). -/
def lockPath (p : Path) : Path := (p.1, lockPrefix ++ p.2)

/-- A call of `with_file_lock`: `file_path` and `expect_exists` (src/utilities/file_lock.py:8-12). -/
structure Call where
  file : Path
  expects : Option (List Path)

/-- `if expect_exists is None: expect_exists = [file_path]` (src/utilities/file_lock.py:13-14). -/
def Call.outputs (c : Call) : List Path :=
  match c.expects with
  | none => [c.file]
  | some l => l

/-- How a call or its handler ends. -/
inductive Ending
  | returned | raised
  deriving DecidableEq

/-- Where a process is in the call. -/
inductive Pc
  /-- before line 20 -/
  | start
  /-- in the `all(…)` of line 23, with the paths still to look at -/
  | checking (rest : List Path)
  /-- before the `open` of line 28 -/
  | opening
  /-- in the handler, line 30 -/
  | running
  /-- before the `os.remove` of line 33 -/
  | removing (res : Ending)
  /-- after the call ran its handler (or failed to open the lock) -/
  | finished (res : Ending)
  /-- after the call returned at line 22 or 25 -/
  | skipped
  deriving DecidableEq

/-- All processes, and the files. A dead process was killed where it was. -/
structure World where
  fs : Fs
  pc : Nat → Pc
  dead : Nat → Bool

/-- What happens next in a process. -/
inductive Event
  /-- the next system call succeeds -/
  | go
  /-- the lock file cannot be opened -/
  | openFails
  /-- the handler changes which files exist -/
  | work (fs : Fs)
  /-- the handler ends -/
  | ends (res : Ending)
  /-- the process is killed -/
  | kill

/-- `os.remove(p)`, or the printed error if there is no such file (src/utilities/file_lock.py:32-35). -/
def removeFile (fs : Fs) (p : Path) : Fs := fun q => if q = p then false else fs q

/-- `open(p, "w")` (src/utilities/file_lock.py:28-29). -/
def openFile (fs : Fs) (p : Path) : Fs := fun q => if q = p then true else fs q

/-- One step of a process in `with_file_lock` (src/utilities/file_lock.py:20-35). -/
def stepCall (c : Call) (fs : Fs) : Pc → Event → Option (Fs × Pc)
  | .start, .go => some (fs, if fs (lockPath c.file) then .skipped else .checking c.outputs)
  | .checking [], .go => some (fs, .skipped)
  | .checking (p :: rest), .go => some (fs, if fs p then .checking rest else .opening)
  | .opening, .go => some (openFile fs (lockPath c.file), .running)
  | .opening, .openFails => some (fs, .removing .raised)
  | .running, .work fs' => some (fs', .running)
  | .running, .ends res => some (fs, .removing res)
  | .removing res, .go => some (removeFile fs (lockPath c.file), .finished res)
  | _, _ => none

/-- One step of process `i`. -/
def step (calls : Nat → Call) (w : World) (i : Nat) (ev : Event) : Option World :=
  if w.dead i then none
  else match ev with
    | .kill => some { w with dead := fun j => if j = i then true else w.dead j }
    | ev => (stepCall (calls i) w.fs (w.pc i) ev).map (fun r => { w with fs := r.1, pc := fun j => if j = i then r.2 else w.pc j })

/-- A schedule: which process does what, one after the other. -/
def run (calls : Nat → Call) : World → List (Nat × Event) → Option World
  | w, [] => some w
  | w, (i, ev) :: evs => (step calls w i ev).bind (fun w' => run calls w' evs)

/-- `wait_for_locks` (src/utilities/file_lock.py:38-49): `listing t` are the names in the directory `t` seconds after the start; `now` is the time, and `backoff`
the seconds to sleep next. Returns the time at which it returned; `fuel` bounds the rounds. Computation takes no time. -/
def waitForLocks (listing : Nat → List (List Char)) : Nat → Nat → Nat → Option Nat
  | 0, _, _ => none
  | fuel + 1, now, backoff =>
    if ((listing now).filter (fun n => lockPrefix.isPrefixOf n)).length > 0 then waitForLocks listing fuel (now + backoff) (min (backoff * 2) 30)
    else some now

end Verif.FileLock
