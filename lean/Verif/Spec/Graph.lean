import Verif.Model.Network
import Mathlib.Logic.Relation

/-! Graphs as lists of joined nodes, paths, and the history of edge operations. -/

namespace Verif.Spec
open Verif

/-- Some edge of the graph leads from `u` to `v`. -/
def Joins (g : Graph) (u v : Nat) : Prop := ∃ r ∈ g.edges, g.nodeFrom r = u ∧ g.nodeTo r = v

/-- There is a directed path (of any length, also 0) from `u` to `v`. -/
def Path (g : Graph) : Nat → Nat → Prop := Relation.ReflTransGen (Joins g)

/-- What users rely on: ids are positions, the adjacency lists of every node hold exactly the present edges
with that end, in the order of the edge list, and all ends are nodes of the graph. -/
structure Consistent (g : Graph) : Prop where
  nodes : g.nodes.Nodup
  edges : g.edges.Nodup
  known : ∀ r ∈ g.edges, r < g.fresh
  ends : ∀ r ∈ g.edges, g.nodeFrom r ∈ g.nodes ∧ g.nodeTo r ∈ g.nodes
  out : ∀ v ∈ g.nodes, g.outgoing v = g.edges.filter (fun r => g.nodeFrom r = v)
  inc : ∀ v ∈ g.nodes, g.incoming v = g.edges.filter (fun r => g.nodeTo r = v)
  ids : ∀ (i : Nat) (h : i < g.edges.length), (g.edge g.edges[i]).id = i

/-- What is known of an edge: its ends, travel time and capacity as given. -/
structure Road where
  tail : Nat
  head : Nat
  travelTime : ℚ
  capacity : ℚ

/-- Operations on the edges of a network: add an edge, remove the `i`-th edge, reverse the graph. -/
inductive RoadOp where
  | add (r : Road)
  | remove (i : Nat)
  | reverse

/-- The operation on the network. -/
def stepNet {P : Type} (n : Network P) : RoadOp → Py (Network P)
  | .add r => .ok (n.addEdge r.tail r.head r.travelTime r.capacity)
  | .remove i => do
    let r ← rd n.graph.edges i
    n.removeEdge r
  | .reverse => .ok { n with graph := n.graph.reverse }

/-- Operations in turn. -/
def runNet {P : Type} : Network P → List RoadOp → Py (Network P)
  | n, [] => .ok n
  | n, o :: os => do
    let n ← stepNet n o
    runNet n os

/-- The roads after the operation. -/
def stepRoads (l : List Road) : RoadOp → List Road
  | .add r => l ++ [r]
  | .remove i => l.eraseIdx i
  | .reverse => l

/-- Is the graph reversed after the operation? -/
def stepRev (b : Bool) : RoadOp → Bool
  | .reverse => !b
  | _ => b

/-- The ends of the edges in order, as given to `add_edge`. -/
def pairs (g : Graph) : List (Nat × Nat) := g.edges.map (fun r => ((g.edge r).tail, (g.edge r).head))

/-- The network holds exactly these roads, in this order, with consistent ids and adjacency lists. -/
structure Holds {P : Type} (n : Network P) (l : List Road) (b : Bool) : Prop where
  graph : Consistent n.graph
  rev : n.graph.reversed = b
  pairs : pairs n.graph = l.map (fun r => (r.tail, r.head))
  cap : n.capacity = l.map Road.capacity
  time : n.travelTime = l.map Road.travelTime

/-- A walk over roads of capacity at least `c`, with its total travel time. -/
inductive Walk (l : List Road) (c : ℚ) : Nat → Nat → ℚ → Prop
  | nil (a : Nat) : Walk l c a a 0
  | cons {b : Nat} {t : ℚ} (r : Road) (hr : r ∈ l) (hc : c ≤ r.capacity) (h : Walk l c r.head b t) :
      Walk l c r.tail b (r.travelTime + t)

/-- Valid operations: edges are added while the graph is not reversed, and the removed edge exists. -/
def RoadOpsOk : List Road → Bool → List RoadOp → Prop
  | _, _, [] => True
  | l, b, o :: os =>
    (match o with
     | .add _ => b = false
     | .remove i => i < l.length
     | .reverse => True) ∧ RoadOpsOk (stepRoads l o) (stepRev b o) os

end Verif.Spec
