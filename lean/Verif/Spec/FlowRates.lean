import Mathlib.Algebra.Order.Ring.Rat
import Mathlib.Algebra.Order.Field.Rat
import Mathlib.Data.List.Basic
import Verif.Spec.Functions

/-! Specification of a record of rates over time, independent of the model: a plain list of all
extensions ever made. -/

namespace Verif.Spec

/-- A call on a collection. -/
inductive RateOp where
  | extend (time : ℚ) (values : List (Nat × ℚ)) (sum : ℚ)
  | query (time : ℚ)

/-- The last of the recorded extensions at a time `≤ t`. -/
def inForce (hist : List (ℚ × List (Nat × ℚ))) (t : ℚ) : Option (ℚ × List (Nat × ℚ)) :=
  (hist.filter (fun p => decide (p.1 ≤ t))).getLast?

/-- The answers of all queries (`none`: refused). `consumed` is the time of the extension that the
last answer came from: earlier times are refused. -/
def rateAnswers (hist : List (ℚ × List (Nat × ℚ))) (consumed : ℚ) : List RateOp → List (Option (List (Nat × ℚ)))
  | [] => []
  | .extend t v _ :: ops => rateAnswers (hist ++ [(t, v)]) consumed ops
  | .query t :: ops =>
    if t < consumed then none :: rateAnswers hist consumed ops
    else
      match inForce hist t with
      | none => none :: rateAnswers hist consumed ops
      | some p => some p.2 :: rateAnswers hist p.1 ops

/-- Extensions come at non-decreasing times from `last` on and have positive rates. -/
def RateOpsOk (last : ℚ) : List RateOp → Prop
  | [] => True
  | .extend t v _ :: ops => last ≤ t ∧ (∀ p ∈ v, 0 < p.2) ∧ RateOpsOk t ops
  | .query _ :: ops => RateOpsOk last ops

/-- Queries come at non-decreasing times from `last` on. -/
def QueriesMono (last : ℚ) : List RateOp → Prop
  | [] => True
  | .extend _ _ _ :: ops => QueriesMono last ops
  | .query t :: ops => last ≤ t ∧ QueriesMono t ops

/-- The answers when nothing is ever refused: the extension in force. -/
def plainAnswers (hist : List (ℚ × List (Nat × ℚ))) : List RateOp → List (Option (List (Nat × ℚ)))
  | [] => []
  | .extend t v _ :: ops => plainAnswers (hist ++ [(t, v)]) ops
  | .query t :: ops => (inForce hist t).map Prod.snd :: plainAnswers hist ops

/-- One extension: time, rate by commodity, sum of the rates. -/
structure Ext where
  time : ℚ
  values : List (Nat × ℚ)
  sum : ℚ

/-- The rate of commodity `i` at time `t` after the extensions `l` (in order): that of the last one not
later than `t`, 0 for absent commodities. -/
def rateIn (l : List Ext) (i : Nat) (t : ℚ) : ℚ :=
  match (l.filter (fun x => decide (x.time ≤ t))).getLast? with
  | none => 0
  | some x => (x.values.lookup i).getD 0

/-- The total rate at time `t` after the extensions `l`. -/
def sumIn (l : List Ext) (t : ℚ) : ℚ :=
  match (l.filter (fun x => decide (x.time ≤ t))).getLast? with
  | none => 0
  | some x => x.sum

/-- Every extension has positive rates of distinct commodities, comes at the time of the one before or
more than `e` later, and changes no rate and no sum by a positive amount `≤ e`. -/
def ExtsOk (e : ℚ) : ℚ → List (Nat × ℚ) → ℚ → List Ext → Prop
  | _, _, _, [] => True
  | L, V, R, x :: l => Later e L x.time ∧ (x.values.map Prod.fst).Nodup ∧ (∀ p ∈ x.values, 0 < p.2) ∧
      Far e R x.sum ∧ (∀ i, Far e ((V.lookup i).getD 0) ((x.values.lookup i).getD 0)) ∧
      ExtsOk e x.time x.values x.sum l

end Verif.Spec
