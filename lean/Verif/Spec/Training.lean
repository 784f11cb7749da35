import Verif.Model.Training
import Verif.Spec.Resume
import Verif.Spec.Dataset

/-! What files of trained models should be like. -/

namespace Verif.Spec
open Verif Verif.Resume Verif.Training

/-- The dataset of the samples `ss`. -/
def DataOf (c : Setting) (ss : List Dataset.Samples) (D : Dataset.Data) : Prop := Dataset.new c.edges c.past c.future c.reroute c.interval c.horizon ss = .ok D

/-- What processes may attempt in a folder whose samples are `ss`: to train any of the models with one of the learners, with the dataset they may have read before, or to write the masks. -/
def learnTasks {M : Type} (c : Setting) (learners : Learner M → Prop) (ss : List Dataset.Samples) (t : LockedTask (Folder M)) : Prop :=
  t = maskTask c ∨ ∃ L lib slot has, learners L ∧ (∀ D, has = some D → DataOf c ss D) ∧ t = fitTask c L lib slot has

/-- What processes may attempt if the samples may change. -/
def anyTasks {M : Type} (t : LockedTask (Folder M)) : Prop := (∃ c, t = maskTask c) ∨ (∃ c L lib slot has, t = fitTask c L lib slot has) ∨ ∃ ss, t = newSamples ss

/-- A folder with samples and nothing else. -/
def samplesOnly {M : Type} (ss : List Dataset.Samples) : Place (Folder M) := ⟨fun _ => false, ⟨ss, .absent, .absent, fun _ _ => .absent⟩⟩

/-- All complete files are those of the samples `ss`: the masks, and the models, which were made by one of the learners. -/
def FilesOf {M : Type} (c : Setting) (learners : Learner M → Prop) (ss : List Dataset.Samples) (d : Folder M) : Prop :=
  (∀ a, d.inMask = .whole a → ∃ D, DataOf c ss D ∧ D.inputMask = a) ∧
  (∀ b, d.outMask = .whole b → ∃ D, DataOf c ss D ∧ D.outputMask = b) ∧
  ∀ lib slot m, d.model lib slot = .whole m → ∃ D L, DataOf c ss D ∧ learners L ∧ learn L lib (forSlot c slot D) = .ok m

/-- No mask file was left incomplete. -/
def MasksNotTorn {M : Type} (d : Folder M) : Prop := d.inMask ≠ .torn ∧ d.outMask ≠ .torn

end Verif.Spec
