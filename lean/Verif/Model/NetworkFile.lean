import Verif.Model.Prelude

/-! Model of the file `network.pickle` that all workers of a scenario share: `Network.to_file` and `Network.from_file` (src/core/network.py:215-222), as called by every
`run_scenario` (for example src/scenarios/nguyen_scenario.py:97-106, src/scenarios/sioux_falls_scenario.py:94-97 and src/tokyo/tokyo_scenario.py:39-47): a worker writes the
file once and then reads it any number of times: before it builds flows (src/scenarios/sioux_falls_scenario.py:97), for every training flow (src/ml/build_test_flows.py:80)
and for every evaluation (src/eval/evaluate_network.py:62). Nothing locks this file. System calls are atomic and any number of workers are interleaved between any two of
them. Writing and reading happen in pieces of arbitrary lengths (those of the buffers of Python). Simplification: `pickle.load` reads to the end of the file; the `STOP` of a
pickle is at its end. -/

namespace Verif.NetworkFile

/-- Where a worker is. -/
inductive Phase
  /-- before `network.to_file(network_path)`, or not started yet -/
  | before
  /-- in `to_file`, with the number of bytes that are written (src/core/network.py:215-217) -/
  | writing (k : Nat)
  /-- after `to_file`, not reading -/
  | ready
  /-- in `from_file`, with the bytes that are read (src/core/network.py:220-222) -/
  | reading (bytes : List UInt8)
  /-- killed -/
  | dead
  deriving DecidableEq

/-- The file, the workers, and what their calls of `from_file` ended with, last first. -/
structure World (N : Type) where
  file : List UInt8
  phase : Nat → Phase
  results : List (Nat × Py N)

/-- What happens in a worker. -/
inductive Event
  /-- `open(file_path, "wb")` of `to_file` (src/core/network.py:216) -/
  | create
  /-- some of the bytes of the pickle get to the file (src/core/network.py:217) -/
  | write (m : Nat)
  /-- the file is closed, `to_file` returns -/
  | close
  /-- `open(file_path, "rb")` of `from_file` (src/core/network.py:221) -/
  | look
  /-- some bytes are read (src/core/network.py:222) -/
  | read (m : Nat)
  /-- the end of the file was seen: `pickle.load` returns or raises (src/core/network.py:222) -/
  | load
  /-- the worker is killed -/
  | kill
  deriving DecidableEq

/-- A `write` of `bytes` at position `k`; if the file is shorter, the gap reads as zeros (POSIX). -/
def writeAt (file : List UInt8) (k : Nat) (bytes : List UInt8) : List UInt8 :=
  (file ++ List.replicate (k - file.length) 0).take k ++ bytes ++ file.drop (k + bytes.length)

/-- Worker `p` is now in phase `ph`. -/
def World.now {N : Type} (w : World N) (p : Nat) (ph : Phase) : World N := { w with phase := fun q => if q = p then ph else w.phase q }

/-- One system call of worker `p`, which pickles its network to the bytes `pickled p` (src/core/network.py:215-222). -/
def step {N : Type} (pickled : Nat → List UInt8) (loads : List UInt8 → Py N) (w : World N) (p : Nat) : Event → Option (World N)
  | .create => if w.phase p = .before then some ({ w with file := [] }.now p (.writing 0)) else none
  | .write m => match w.phase p with
    | .writing k => if 0 < m ∧ k + m ≤ (pickled p).length then some ({ w with file := writeAt w.file k (((pickled p).drop k).take m) }.now p (.writing (k + m))) else none
    | _ => none
  | .close => if w.phase p = .writing (pickled p).length then some (w.now p .ready) else none
  | .look => if w.phase p = .ready then some (w.now p (.reading [])) else none
  | .read m => match w.phase p with
    | .reading b => some (w.now p (.reading (b ++ (w.file.drop b.length).take m)))
    | _ => none
  | .load => match w.phase p with
    | .reading b => if w.file.length ≤ b.length then some ({ w with results := (p, loads b) :: w.results }.now p .ready) else none
    | _ => none
  | .kill => some (w.now p .dead)

/-- A sequence of system calls of the workers. -/
def run {N : Type} (pickled : Nat → List UInt8) (loads : List UInt8 → Py N) (w : World N) : List (Nat × Event) → Option (World N)
  | [] => some w
  | (p, ev) :: evs => match step pickled loads w p ev with
    | some w' => run pickled loads w' evs
    | none => none

/-- No worker has started; there may be a file of earlier attempts. -/
def fresh {N : Type} (old : List UInt8) : World N := ⟨old, fun _ => .before, []⟩

end Verif.NetworkFile
