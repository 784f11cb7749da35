import Verif.Model.BuildWithTimes

/-! Several generators made by `build_flow` of one builder, used in any order. -/

namespace Verif.Spec
open Verif

/-- The generators by number, and the builder they share. -/
structure Shared (P : Type) where
  gens : Nat → Builder.Gen
  builder : Builder P

variable {P : Type} [DecidableEq P]

/-- `next(generators[g])`: the new state and the outcome (a flow, an exception, or `none` for `StopIteration`). -/
def Shared.next (ord : List Nat → List Nat) (preds : P → Predictor) (s : Shared P) (g : Nat) : Shared P × Except (Option Err) DFlow :=
  let r := Builder.next ord preds (s.gens g) s.builder
  (⟨fun j => if j = g then r.1 else s.gens j, r.2.1⟩, r.2.2)

/-- `next` on the generators in the given order: the outcomes and the final state. -/
def Shared.run (ord : List Nat → List Nat) (preds : P → Predictor) : Shared P → List Nat → List (Except (Option Err) DFlow) × Shared P
  | s, [] => ([], s)
  | s, g :: gs =>
    let r := s.next ord preds g
    let t := Shared.run ord preds r.1 gs
    (r.2 :: t.1, t.2)

/-- All generators are new. -/
def Shared.fresh (b : Builder P) : Shared P := ⟨fun _ => .fresh, b⟩

end Verif.Spec
