import Verif.Model.NetworkFile

/-! What workers of a scenario rely on. -/

namespace Verif.Spec
open Verif Verif.NetworkFile

/-- No worker begins to write the file. -/
def NobodyCreates (evs : List (Nat × Event)) : Prop := ∀ p, (p, Event.create) ∉ evs

/-- All workers pickle the same network: they run the same scenario. -/
def SamePickle (pickled : Nat → List UInt8) (bytes : List UInt8) : Prop := ∀ p, pickled p = bytes

/-- Everybody who has begun to write the file is past that. -/
def NobodyWrites {N : Type} (w : World N) : Prop := ∀ p, w.phase p = .before ∨ w.phase p = .ready ∨ ∃ b, w.phase p = .reading b

/-- What worker `p` was given by its calls of `from_file` between two moments, last first. -/
def Given {N : Type} (w w' : World N) (p : Nat) (rs : List (Py N)) : Prop :=
  ∃ new, w'.results = new ++ w.results ∧ rs = (new.filter (fun x => decide (x.1 = p))).map Prod.snd

end Verif.Spec
