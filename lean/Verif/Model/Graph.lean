import Verif.Model.Prelude

/-! Model of src/core/graph.py.

Edge objects are referenced by natural numbers (`Graph.edge` maps a reference to the object, `fresh` is the
next unused reference). A node object is identified with its id: the dict `nodes` holds at most one
object per id. `positions` is not modelled. -/

namespace Verif

/-- An `Edge` object (src/core/graph.py:6-16): `_node_from`, `_node_to`, `id`. -/
structure Edge where
  tail : Nat
  head : Nat
  id : Nat
  deriving DecidableEq, Repr

/-- A `Node` object (src/core/graph.py:30-40): `_incoming_edges`, `_outgoing_edges`, as references. -/
structure NodeRec where
  inc : List Nat
  out : List Nat
  deriving DecidableEq, Repr

/-- A `DirectedGraph` (src/core/graph.py:72-82). `nodes` are the keys of the dict in insertion order. -/
structure Graph where
  edge : Nat → Edge
  fresh : Nat
  edges : List Nat
  nodes : List Nat
  node : Nat → NodeRec
  reversed : Bool

/-- Replace the object behind a reference. -/
def putAt {α : Type _} (d : Nat → α) (r : Nat) (x : α) : Nat → α := fun j => if j = r then x else d j

namespace Graph

/-- `DirectedGraph()` (src/core/graph.py:78-82). -/
def empty : Graph := { edge := fun _ => ⟨0, 0, 0⟩, fresh := 0, edges := [], nodes := [], node := fun _ => ⟨[], []⟩, reversed := false }

/-- `Edge.node_from` (src/core/graph.py:18-20). -/
def nodeFrom (g : Graph) (r : Nat) : Nat := if g.reversed then (g.edge r).head else (g.edge r).tail

/-- `Edge.node_to` (src/core/graph.py:22-24). -/
def nodeTo (g : Graph) (r : Nat) : Nat := if g.reversed then (g.edge r).tail else (g.edge r).head

/-- `Node.incoming_edges` (src/core/graph.py:42-46). -/
def incoming (g : Graph) (v : Nat) : List Nat := if g.reversed then (g.node v).out else (g.node v).inc

/-- `Node.outgoing_edges` (src/core/graph.py:55-59). -/
def outgoing (g : Graph) (v : Nat) : List Nat := if g.reversed then (g.node v).inc else (g.node v).out

/-- The list object behind `v.incoming_edges` becomes `l` (src/core/graph.py:42-53). -/
def setIncoming (g : Graph) (v : Nat) (l : List Nat) : Graph :=
  { g with node := putAt g.node v (if g.reversed then { g.node v with out := l } else { g.node v with inc := l }) }

/-- The list object behind `v.outgoing_edges` becomes `l` (src/core/graph.py:55-66). -/
def setOutgoing (g : Graph) (v : Nat) (l : List Nat) : Graph :=
  { g with node := putAt g.node v (if g.reversed then { g.node v with inc := l } else { g.node v with out := l }) }

/-- `if v not in self.nodes.keys(): self.nodes[v] = Node(v, self)` (src/core/graph.py:100-103). -/
def ensureNode (g : Graph) (v : Nat) : Graph :=
  if v ∈ g.nodes then g else { g with nodes := g.nodes ++ [v], node := putAt g.node v ⟨[], []⟩ }

/-- `add_edge` (src/core/graph.py:99-108). -/
def addEdge (g : Graph) (u v : Nat) : Graph :=
  let g := (g.ensureNode u).ensureNode v
  let r := g.fresh
  let g := { g with edge := putAt g.edge r ⟨u, v, g.edges.length⟩, fresh := r + 1, edges := g.edges ++ [r] }
  let g := g.setOutgoing u (g.outgoing u ++ [r])
  g.setIncoming v (g.incoming v ++ [r])

/-- `reverse` (src/core/graph.py:136-137). -/
def reverse (g : Graph) : Graph := { g with reversed := !g.reversed }

/-- The `for` loop of a search (src/core/graph.py:116-119, 130-133): `far` is the far end of an edge. The
set is a list, the stack has its top at the head of the list. -/
def scan (far : Nat → Nat) : List Nat → List Nat → List Nat → List Nat × List Nat
  | [], found, queue => (found, queue)
  | e :: es, found, queue =>
    if far e ∈ found then scan far es found queue
    else scan far es (far e :: found) (far e :: queue)

/-- The `while` loop of a search (src/core/graph.py:114-119, 128-133). First argument: fuel. -/
def search (far : Nat → Nat) (adj : Nat → List Nat) : Nat → List Nat → List Nat → Py (List Nat)
  | _, found, [] => .ok found
  | 0, _, _ :: _ => .error .fuel
  | fuel + 1, found, v :: queue =>
    let r := scan far (adj v) found queue
    search far adj fuel r.1 r.2

/-- `get_nodes_reaching` (src/core/graph.py:110-120). -/
def nodesReaching (g : Graph) (v : Nat) : Py (List Nat) := do
  pyAssert (v ∈ g.nodes)
  search g.nodeFrom g.incoming (g.nodes.length + 1) [v] [v]

/-- `get_reachable_nodes` (src/core/graph.py:122-134). -/
def reachableNodes (g : Graph) (v : Nat) : Py (List Nat) :=
  search g.nodeTo g.outgoing (g.nodes.length + 1) [v] [v]

/-- The pickled state of a graph (src/core/graph.py:92-97). -/
structure State where
  edges : List (Nat × Nat)
  reversed : Bool
  deriving DecidableEq

/-- `__getstate__` (src/core/graph.py:92-97). -/
def getstate (g : Graph) : State := ⟨g.edges.map (fun r => (g.nodeFrom r, g.nodeTo r)), g.reversed⟩

/-- `__setstate__` (src/core/graph.py:84-90). -/
def setstate (s : State) : Graph :=
  s.edges.foldl (fun g p => g.addEdge p.1 p.2) { empty with reversed := s.reversed }

end Graph
end Verif
