import Verif.Model.Expanded
import Verif.Spec.Dataset

/-! What the rows of the older training data should contain. -/

namespace Verif.Spec
open Verif Verif.Expanded

/-- The multiples of `k` from 0 up to, but not including, `b`, in order. -/
def Multiples (k b : Int) (l : List Int) : Prop := l.Pairwise (· < ·) ∧ ∀ i, i ∈ l ↔ 0 ≤ i ∧ i < b ∧ k ∣ i

/-- What a column should hold in the row of the edge `r` at time `phi`: for `e[t]` the queue of the edge `t` steps later (earlier for negative `t`), for
`i{k}[t]` the one of the `k`-th edge into the tail, nothing if there are fewer edges. -/
def meant (g : Graph) (s : DFlow) (step : ℚ) (phi : Int) (r : Nat) : Col → Option ℚ
  | .own t => some (queueAt s (g.edge r).id (phi + step * t))
  | .inc k t => (g.incoming (g.nodeFrom r))[k]?.map (fun p => queueAt s (g.edge p).id (phi + step * t))

/-- The same column with past and future interchanged. -/
def mirror : Col → Col
  | .own t => .own (-t)
  | .inc k t => .inc k (-t)

/-- One of the sampled queues is not empty. -/
def Busy (g : Graph) (s : DFlow) (past future : Nat) (step : ℚ) (phi : Int) (r : Nat) : Prop :=
  (∃ t : Int, -past ≤ t ∧ t ≤ future ∧ queueAt s (g.edge r).id (phi - step * t) ≠ 0) ∨
    ∃ p ∈ g.incoming (g.nodeFrom r), ∃ t : Int, -past ≤ t ∧ t ≤ 0 ∧ queueAt s (g.edge p).id (phi - step * t) ≠ 0

/-- The header of the expanded queues. -/
def HeaderOk (past future : Nat) (cols : List Col) : Prop :=
  cols.Nodup ∧ (∀ t, Col.own t ∈ cols ↔ -(past : Int) ≤ t ∧ t ≤ future) ∧ ∀ k t, Col.inc k t ∈ cols ↔ k < 5 ∧ -(past : Int) ≤ t ∧ t ≤ 0

/-- The header of the table of one edge: its own past and future, and the past of the edges into its tail and out of its head. -/
def EdgeHeaderOk (g : Graph) (past future r : Nat) (cols : List (Nat × Int)) : Prop :=
  cols.Nodup ∧ ∀ j t, (j, t) ∈ cols ↔ (j = (g.edge r).id ∧ -(past : Int) < t ∧ t ≤ future) ∨
    (∃ p, (p ∈ g.incoming (g.nodeFrom r) ∨ p ∈ g.outgoing (g.nodeTo r)) ∧ j = (g.edge p).id ∧ -(past : Int) < t ∧ t ≤ 0)

/-- What a row of training data for the time `t` should be: queues and loads up to `t` and queues after it, each time for all edges. -/
def trainingMeant (edges past future : Nat) (interval : ℚ) (s : DFlow) (t : ℚ) : List ℚ :=
  (before t interval past).flatMap (fun x => (List.range edges).map (fun e => queueAt s e x)) ++
    (before t interval past).flatMap (fun x => (List.range edges).map (fun e => loadAt s e x)) ++
    (after t interval future).flatMap (fun x => (List.range edges).map (fun e => queueAt s e x))

end Verif.Spec
