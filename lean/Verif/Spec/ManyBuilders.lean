import Verif.Spec.Predictors
import Verif.Spec.FlowBuilder

/-! What predictors may use for builders not to disturb each other. -/

namespace Verif.Spec
open Verif

/-- What is predicted for a time up to now does not change as a flow goes on whose states meet `ok`: only the past is used. -/
def PastOnly (m : Nat) (p : Predictor) (ok : DFlow → Prop) : Prop :=
  QueuesOnly m p ∨ (QueuesAndLoadsOnly m p ∧ ∀ s, ok s → LoadsApart m s)

/-- The flow after one of the first `k` rounds. -/
def FlowOf {P : Type} [DecidableEq P] (ord : List Nat → List Nat) (preds : P → Predictor) (b0 : Builder P) (k : Nat) (s : DFlow) : Prop :=
  ∃ m ≤ k, ∃ b, rounds ord preds m b0 = .ok b ∧ b.flow = s

end Verif.Spec
