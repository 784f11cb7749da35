import Verif.Spec.Graph
import Verif.Model.Dijkstra

/-! Routes with fixed and with time-dependent costs. -/

namespace Verif.Spec
open Verif

/-- The cost of an edge in a cost vector. -/
def costOf (g : Graph) (costs : List ℚ) (e : Nat) : ℚ := costs.getD (g.edge e).id 0

/-- A route inside `nodes` to the sink: its first node, its number of edges, its length. -/
inductive Route (g : Graph) (c : Nat → ℚ) (nodes : List Nat) (sink : Nat) : Nat → Nat → ℚ → Prop
  | nil : Route g c nodes sink sink 0 0
  | cons {k : Nat} {L : ℚ} (e : Nat) (he : e ∈ g.edges) (hv : g.nodeFrom e ∈ nodes)
      (h : Route g c nodes sink (g.nodeTo e) k L) : Route g c nodes sink (g.nodeFrom e) (k + 1) (c e + L)

/-- Who leaves `source` at time `phi` and walks along edges whose heads are in `nodes`, never waiting, can be at a node
at a time; entering edge `e` at time `t` takes `c e t`. -/
inductive Arrives (g : Graph) (c : Nat → ℚ → ℚ) (nodes : List Nat) (source : Nat) (phi : ℚ) : Nat → ℚ → Prop
  | start : Arrives g c nodes source phi source phi
  | step {t : ℚ} (e : Nat) (he : e ∈ g.edges) (hw : g.nodeTo e ∈ nodes) (h : Arrives g c nodes source phi (g.nodeFrom e) t) :
      Arrives g c nodes source phi (g.nodeTo e) (t + c e t)

/-- From time `phi` on, the cost callables return the non-negative costs `c`, which obey first in first out. -/
structure FifoCosts (g : Graph) (phi : ℚ) (costs : List (ℚ → Py ℚ)) (c : Nat → ℚ → ℚ) : Prop where
  call : ∀ e ∈ g.edges, ∃ f, costs[(g.edge e).id]? = some f ∧ ∀ t, phi ≤ t → f t = .ok (c e t)
  nonneg : ∀ e ∈ g.edges, ∀ t, phi ≤ t → 0 ≤ c e t
  fifo : ∀ e ∈ g.edges, ∀ s t, phi ≤ s → s ≤ t → s + c e s ≤ t + c e t

/-- Edge `e` was explored by the search and is tight up to `tol`: using it, the head is reached on time. -/
def Tight (g : Graph) (res : Dijkstra.Result) (tol : ℚ) (e : Nat) : Prop :=
  ∃ x a b, res.realized e = some x ∧ res.arrival (g.nodeFrom e) = some a ∧ res.arrival (g.nodeTo e) = some b ∧ a + x ≤ b + tol

/-- A route all of whose edges are explored and tight. -/
def TightPath (g : Graph) (res : Dijkstra.Result) (tol : ℚ) : Nat → Nat → Prop :=
  Relation.ReflTransGen (fun u v => ∃ e ∈ g.edges, g.nodeFrom e = u ∧ g.nodeTo e = v ∧ Tight g res tol e)

end Verif.Spec
