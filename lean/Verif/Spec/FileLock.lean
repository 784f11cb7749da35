import Verif.Model.FileLock

/-! What a lock should do. -/

namespace Verif.Spec
open Verif.FileLock

/-- The name of a lock file. -/
def IsLock (p : Path) : Prop := lockPrefix <+: p.2

/-- The schedule `evs` can happen from `w` on, and whenever a handler changes files, this respects `P i before after`. -/
def Respects (calls : Nat → Call) (P : Nat → Fs → Fs → Prop) (w : World) (evs : List (Nat × Event)) : Prop :=
  ∀ (pre post : List (Nat × Event)) (i : Nat) (fs : Fs) (w' : World), evs = pre ++ (i, .work fs) :: post → run calls w pre = some w' → P i w'.fs fs

/-- Handlers leave lock files alone. -/
def KeepsLocks (_ : Nat) (fs fs' : Fs) : Prop := ∀ p, IsLock p → fs' p = fs p

/-- Handlers do not delete the outputs of `c`. -/
def KeepsOutputs (c : Call) (_ : Nat) (fs fs' : Fs) : Prop := ∀ p ∈ c.outputs, fs p = true → fs' p = true

/-- Only handlers of calls for the same file change a call's outputs. -/
def OwnOutputs (calls : Nat → Call) (j : Nat) (fs fs' : Fs) : Prop := ∀ i, (calls i).file ≠ (calls j).file → ∀ p ∈ (calls i).outputs, fs' p = fs p

/-- At the beginning, no process has begun and none is dead. -/
def Fresh (w : World) : Prop := (∀ i, w.pc i = .start) ∧ ∀ i, w.dead i = false

/-- Process `i` is in its handler (and perhaps was killed there). -/
def InHandler (w : World) (i : Nat) : Prop := w.pc i = .running

/-- Process `i` has made its lock file and has not removed it (and perhaps was killed in between). -/
def HoldsLock (w : World) (i : Nat) : Prop := w.pc i = .running ∨ ∃ res, w.pc i = .removing res

/-- Process `i` is alive, has found no lock, and has not yet made one. -/
def InWindow (w : World) (i : Nat) : Prop := w.dead i = false ∧ ((∃ rest, w.pc i = .checking rest) ∨ w.pc i = .opening)

/-- No two processes that work on the same file are between looking for the lock and making it at the same time, and lock files can be opened: looking for the lock and
making it are as good as one step. -/
def NoRace (calls : Nat → Call) (w : World) (evs : List (Nat × Event)) : Prop :=
  (∀ i, (i, Event.openFails) ∉ evs) ∧
  ∀ (pre post : List (Nat × Event)) (w' : World), evs = pre ++ post → run calls w pre = some w' →
    ∀ i j, (calls i).file = (calls j).file → InWindow w' i → InWindow w' j → i = j

end Verif.Spec
