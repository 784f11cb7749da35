import Verif.Model.Neighbors
import Verif.Spec.Graph

/-! Edges within a distance of an edge. -/

namespace Verif.Spec
open Verif

/-- `n` steps of `R` lead from `a` to `b`. -/
inductive Steps (R : Nat → Nat → Prop) : Nat → Nat → Nat → Prop
  | nil (a : Nat) : Steps R 0 a a
  | snoc {n a b c : Nat} (h : Steps R n a b) (hr : R b c) : Steps R (n + 1) a c

/-- Edge `r` is `e` or can be the last of at most `d` edges of a directed walk that starts where `e` ends. -/
def Ahead (g : Graph) (e d r : Nat) : Prop := r = e ∨ (r ∈ g.edges ∧ ∃ k < d, Steps (Joins g) k (g.nodeTo e) (g.nodeFrom r))

/-- Edge `r` is `e` or can be the first of at most `d` edges of a directed walk that ends where `e` starts. -/
def Behind (g : Graph) (e d r : Nat) : Prop := r = e ∨ (r ∈ g.edges ∧ ∃ k < d, Steps (Joins g) k (g.nodeTo r) (g.nodeFrom e))

/-- Some edge joins the two nodes in either direction. -/
def Touch (g : Graph) (u v : Nat) : Prop := Joins g u v ∨ Joins g v u

/-- Edge `r` is `e` or can be the last of at most `d` edges of an undirected walk that starts in an end of `e`. -/
def Around (g : Graph) (e d r : Nat) : Prop :=
  r = e ∨ (r ∈ g.edges ∧ ∃ k < d, ∃ a b, (a = g.nodeFrom e ∨ a = g.nodeTo e) ∧ (b = g.nodeFrom r ∨ b = g.nodeTo r) ∧ Steps (Touch g) k a b)

end Verif.Spec
