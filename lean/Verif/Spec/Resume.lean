import Verif.Model.Resume

/-! What interrupted processes may leave behind. -/

namespace Verif.Spec
open Verif Verif.Resume

/-- Everything that can have happened since `w0`: processes that try any of the tasks, each of which may be stopped at any point, and somebody who removes lock files. -/
inductive History {D : Type} (tasks : LockedTask D → Prop) (w0 : Place D) : Place D → Prop
  | start : History tasks w0 w0
  | attempt {w w' : Place D} {t : LockedTask D} : History tasks w0 w → tasks t → Attempt t w w' → History tasks w0 w'
  | unlock {w : Place D} (l : Nat) : History tasks w0 w → History tasks w0 ⟨Function.update w.locked l false, w.files⟩

/-- A directory in which nothing has happened. -/
def emptyOutputs {F J V : Type} : Place (Outputs F J V) := ⟨fun _ => false, ⟨.absent, .absent, .absent⟩⟩

/-- A directory in which nothing has happened. -/
def emptySamples {F S V : Type} : Place (Samples F S V) := ⟨fun _ => false, ⟨.absent, .absent, .absent⟩⟩

/-- The complete files belong together: the flow was built by one of the attempts, report and visualisation are those of this flow. -/
def Agree {F J M V : Type} (jobs : Job F J M V → Prop) (d : Outputs F J V) : Prop :=
  (∀ f, d.flow = .whole f → ∃ job, jobs job ∧ job.build = .ok f) ∧
  (∀ j, d.json = .whole j → ∃ f job, d.flow = .whole f ∧ jobs job ∧ job.assess f = .ok j) ∧
  ∀ v, d.vis = .whole v → ∃ f m job, d.flow = .whole f ∧ jobs job ∧ job.merge f = .ok m ∧ job.encode m = .ok v

/-- All files are complete. -/
def AllWhole {F J V : Type} (pictures : Bool) (d : Outputs F J V) : Prop :=
  (∃ f, d.flow = .whole f) ∧ (∃ j, d.json = .whole j) ∧ (pictures = true → ∃ v, d.vis = .whole v)

/-- The file that is written last is not just a part. -/
def LastNotTorn {F J V : Type} (pictures : Bool) (d : Outputs F J V) : Prop := if pictures then d.vis ≠ .torn else d.json ≠ .torn

/-- The files of a training flow belong together: a saved flow was built by one of the attempts, and the sample is the one of a flow that was built by one of the attempts, which is the saved flow, if it is saved. -/
def SamplesAgree {F S V : Type} (jobs : Training F S V → Prop) (d : Samples F S V) : Prop :=
  (∀ f, d.flow = .whole (.flow f) → ∃ job, jobs job ∧ job.build = .ok f) ∧
  ∀ s, d.sample = .whole s → ∃ f job job', jobs job ∧ job.build = .ok f ∧ jobs job' ∧ job'.sample f = .ok s ∧ (d.flow = .whole .dummy ∨ d.flow = .whole (.flow f))

end Verif.Spec
