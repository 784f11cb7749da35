import Verif.Model.DepletionQueue
import Mathlib.Logic.Function.Basic

/-! What a depletion queue is: a map from edges to planned depletions, where a depletion has a time and possibly a change of the outflow with its own time. -/

namespace Verif.Spec

/-- The planned depletions: for an edge the time, and the change of outflow. -/
abbrev Plan := Nat → Option (ℚ × Option (ℚ × (Rates × ℚ)))

/-- No depletion is planned before `D`. -/
def Plan.From (P : Plan) (D : ℚ) : Prop := ∀ j D' c, P j = some (D', c) → D ≤ D'

/-- `k` is the smallest of the numbers `S`, or infinity if there are none. -/
def Smallest (S : ℚ → Prop) (k : EVal) : Prop :=
  (∃ x, S x ∧ (∀ y, S y → x ≤ y) ∧ k = EVal.fin x) ∨ ((∀ x, ¬ S x) ∧ k = ⊤)

/-- The answer of a call, and the plan after it. -/
def DepCall (P : Plan) (c : DepQ.Call) (a : DepQ.Answer) (P' : Plan) : Prop :=
  match c with
  | .set e D change => a = .nothing ∧ P' = Function.update P e (some (D, change))
  | .remove e => (P e ≠ none ∧ a = .nothing ∧ P' = Function.update P e none) ∨ (P e = none ∧ a = .raised ∧ P' = P)
  | .pop => (∃ e D change, P e = some (D, change) ∧ P.From D ∧ a = .popped e D change ∧ P' = Function.update P e none) ∨
      ((∀ e, P e = none) ∧ a = .raised ∧ P' = P)
  | .contains e => a = .yes (P e).isSome ∧ P' = P
  | .size => (∃ l : List Nat, l.Nodup ∧ (∀ e, e ∈ l ↔ P e ≠ none) ∧ a = .number l.length) ∧ P' = P
  | .minDepletion => (∃ k, Smallest (fun D => ∃ e c, P e = some (D, c)) k ∧ a = .key k) ∧ P' = P
  | .minChangeTime => (∃ k, Smallest (fun t => ∃ e D v, P e = some (D, some (t, v))) k ∧ a = .key k) ∧ P' = P

/-- The answers of a history of calls. -/
def DepHistory (P : Plan) : List DepQ.Call → List DepQ.Answer → Prop
  | [], as => as = []
  | c :: cs, as => ∃ a as' P', as = a :: as' ∧ DepCall P c a P' ∧ DepHistory P' cs as'

end Verif.Spec
