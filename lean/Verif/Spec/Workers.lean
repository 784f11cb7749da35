import Verif.Model.Workers
import Verif.Spec.FileLock

/-! What is assumed of processes that work on files with locks. -/

namespace Verif.Spec
open Verif Verif.FileLock

/-- The operating system and the handlers do what they should in state `w`: a listing shows what is in the directory; handlers leave locks alone, delete no output, and have made the outputs of
their call when they return. -/
def Fair (jobs : Nat → Job) (w : Workers) (i : Nat) : JobEvent → Prop
  | .lists names => ∀ q, q ∈ names ↔ w.fs ((jobs i).waits, q) = true
  | .inCall (.work fs) => (∀ p, IsLock p → fs p = w.fs p) ∧ ∀ j, ∀ c ∈ (jobs j).calls, ∀ p ∈ c.outputs, w.fs p = true → fs p = true
  | .inCall (.ends .returned) => ∀ k pc c, w.stage i = .call k pc → (jobs i).calls[k]? = some c → ∀ p ∈ c.outputs, w.fs p = true
  | _ => True

/-- All of a schedule is fair. -/
def FairRun (jobs : Nat → Job) (w : Workers) (evs : List (Nat × JobEvent)) : Prop :=
  ∀ pre i ev post w', evs = pre ++ (i, ev) :: post → runWorkers jobs w pre = some w' → Fair jobs w' i ev

/-- No handler raises and every lock file can be opened. -/
def NoRaise (evs : List (Nat × JobEvent)) : Prop := ∀ i, (i, .inCall (.ends .raised)) ∉ evs ∧ (i, .inCall .openFails) ∉ evs

/-- All processes are at their beginning and alive. -/
def Begin (jobs : Nat → Job) (w : Workers) : Prop := (∀ i, w.stage i = enter (jobs i) 0) ∧ ∀ i, w.dead i = false

end Verif.Spec
