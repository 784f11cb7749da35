import Verif.Model.Graph
import Verif.Model.RightConstant

/-! Model of src/core/network.py. NumPy arrays are lists. -/

namespace Verif

/-- A `Commodity` (src/core/network.py:13-26). Node keys are node ids; `P` are the predictor types. -/
structure Commodity (P : Type) where
  sources : List (Nat × RC)
  sink : Nat
  predictor : P

/-- A `Network` (src/core/network.py:29-39). -/
structure Network (P : Type) where
  graph : Graph
  capacity : List ℚ
  travelTime : List ℚ
  commodities : List (Commodity P)

namespace Network
variable {P : Type}

/-- `Network()` (src/core/network.py:35-39). -/
def empty : Network P := ⟨Graph.empty, [], [], []⟩

/-- `add_edge` (src/core/network.py:64-69). -/
def addEdge (n : Network P) (u v : Nat) (travelTime capacity : ℚ) : Network P :=
  { n with graph := n.graph.addEdge u v, travelTime := n.travelTime ++ [travelTime], capacity := n.capacity ++ [capacity] }

/-- `add_commodity` (src/core/network.py:71-86). -/
def addCommodity (n : Network P) (sources : List (Nat × RC)) (sink : Nat) (p : P) : Py (Network P) := do
  pyAssert (∀ s ∈ sources, s.1 ∈ n.graph.nodes)
  pyAssert (sink ∈ n.graph.nodes)
  pure { n with commodities := n.commodities ++ [⟨sources, sink, p⟩] }

/-- `l.remove(x)`: `ValueError` when absent. -/
def listRemove (l : List Nat) (x : Nat) : Py (List Nat) := if x ∈ l then .ok (l.erase x) else .error .value

/-- `del l[i]` / `np.delete(l, i)`: `IndexError` when out of range. -/
def listDel {α : Type} (l : List α) (i : Nat) : Py (List α) := if i < l.length then .ok (l.eraseIdx i) else .error .index

/-- `for i in range(len(edges)): edges[i].id = i` (src/core/network.py:94-95). -/
def renumber : Nat → List Nat → (Nat → Edge) → (Nat → Edge)
  | _, [], d => d
  | i, r :: rs, d => renumber (i + 1) rs (putAt d r { d r with id := i })

/-- `_remove_edge` (src/core/network.py:88-95). -/
def removeEdge (n : Network P) (r : Nat) : Py (Network P) := do
  let g := n.graph
  let inc ← listRemove (g.incoming (g.nodeTo r)) r
  let g := g.setIncoming (g.nodeTo r) inc
  let out ← listRemove (g.outgoing (g.nodeFrom r)) r
  let g := g.setOutgoing (g.nodeFrom r) out
  let id := (g.edge r).id
  let edges ← listDel g.edges id
  let capacity ← listDel n.capacity id
  let travelTime ← listDel n.travelTime id
  pure { n with graph := { g with edges := edges, edge := renumber 0 edges g.edge }, capacity := capacity, travelTime := travelTime }

/-- `c.source`: the class has no such attribute (src/core/network.py:13-26, used at 105, 134, 158). -/
def sourceOf (_ : Commodity P) : Py Nat := .error .attribute

/-- `all(c.source != v != c.sink for c in self.commodities)` (src/core/network.py:104-106). -/
def allDiffer (v : Nat) : List (Commodity P) → Py Bool
  | [] => .ok true
  | c :: cs => do
    let s ← sourceOf c
    if s ≠ v ∧ v ≠ c.sink then allDiffer v cs else pure false

/-- One iteration of the first loop of `compress_lonely_nodes` (src/core/network.py:104-122). -/
def compressStep (n : Network P) (v : Nat) : Py (Network P × Bool) := do
  if (n.graph.outgoing v).length = 1 ∧ (n.graph.incoming v).length = 1 then do
    if ← allDiffer v n.commodities then do
      let e1 ← rd (n.graph.incoming v) 0
      let e2 ← rd (n.graph.outgoing v) 0
      let t1 ← rd n.travelTime (n.graph.edge e1).id
      let t2 ← rd n.travelTime (n.graph.edge e2).id
      let c1 ← rd n.capacity (n.graph.edge e1).id
      let c2 ← rd n.capacity (n.graph.edge e2).id
      let n ← n.removeEdge e1
      let n ← n.removeEdge e2
      if n.graph.nodeFrom e1 ≠ n.graph.nodeTo e2 then
        pure (n.addEdge (n.graph.nodeFrom e1) (n.graph.nodeTo e2) (t1 + t2) (min c1 c2), true)
      else pure (n, true)
    else pure (n, false)
  else pure (n, false)

/-- The first loop of `compress_lonely_nodes` (src/core/network.py:103-122); the dict of nodes does not change
during the loop. -/
def compressLoop : List Nat → Network P → List Nat → Py (Network P × List Nat)
  | [], n, rem => .ok (n, rem)
  | v :: vs, n, rem => do
    let (n, b) ← compressStep n v
    compressLoop vs n (if b then rem ++ [v] else rem)

/-- `self.graph.nodes.pop(v.id)` (src/core/network.py:124, 149): `KeyError` when missing. -/
def popNode (n : Network P) (v : Nat) : Py (Network P) :=
  if v ∈ n.graph.nodes then .ok { n with graph := { n.graph with nodes := n.graph.nodes.erase v } } else .error .key

/-- A list of nodes is popped (src/core/network.py:123-124). -/
def popNodes : List Nat → Network P → Py (Network P)
  | [], n => .ok n
  | v :: vs, n => do
    let n ← popNode n v
    popNodes vs n

/-- `compress_lonely_nodes` (src/core/network.py:97-124). -/
def compressLonelyNodes (n : Network P) : Py (Network P) := do
  let (n, rem) ← compressLoop n.graph.nodes n []
  popNodes rem n

/-- The loop over commodities of `remove_unnecessary_nodes` (src/core/network.py:132-137). -/
def importantNodes (n : Network P) : List (Commodity P) → List Nat → Py (List Nat)
  | [], imp => .ok imp
  | c :: cs, imp => do
    let a ← n.graph.nodesReaching c.sink
    let s ← sourceOf c
    let b ← n.graph.reachableNodes s
    importantNodes n cs (imp ++ a.filter (fun v => v ∈ b))

/-- A list of edges is removed (src/core/network.py:144-145, 147-148). -/
def removeEdges : List Nat → Network P → Py (Network P)
  | [], n => .ok n
  | r :: rs, n => do
    let n ← removeEdge n r
    removeEdges rs n

/-- The loop over `remove_nodes` (src/core/network.py:142-149); the set is iterated in some order. -/
def removeNodes : List Nat → Network P → Py (Network P)
  | [], n => .ok n
  | v :: vs, n => do
    let n ← removeEdges (n.graph.outgoing v) n
    let n ← removeEdges (n.graph.incoming v) n
    let n ← popNode n v
    removeNodes vs n

/-- `remove_unnecessary_nodes` (src/core/network.py:126-150). -/
def removeUnnecessaryNodes (n : Network P) : Py (Network P) := do
  let imp ← importantNodes n n.commodities []
  removeNodes (n.graph.nodes.filter (fun v => ¬ v ∈ imp)) n

/-- The list comprehension of `remove_unnecessary_commodities` (src/core/network.py:157-162). -/
def importantLists (n : Network P) : List (Commodity P) → Py (List (List Nat))
  | [] => .ok []
  | c :: cs => do
    let s ← sourceOf c
    let b ← n.graph.reachableNodes s
    let a ← n.graph.nodesReaching c.sink
    let rest ← importantLists n cs
    pure (b.filter (fun v => v ∈ a) :: rest)

/-- `remove_unnecessary_commodities` up to line 162 (src/core/network.py:152-162): the rest is never reached, see
`C50`. -/
def removeUnnecessaryCommodities (n : Network P) (selected : Nat) : Py Unit := do
  let _ ← rd n.commodities selected
  let _ ← importantLists n n.commodities
  pure ()

/-- The pickled state of a network (src/core/network.py:41-54). -/
structure State (P : Type) where
  graph : Graph.State
  capacity : List ℚ
  travelTime : List ℚ
  commodities : List (Commodity P)

/-- `__getstate__` (src/core/network.py:41-54), with the graph pickled in turn. -/
def getstate (n : Network P) : State P := ⟨n.graph.getstate, n.capacity, n.travelTime, n.commodities⟩

/-- The loop of `__setstate__` (src/core/network.py:61-62). -/
def addCommodities : List (Commodity P) → Network P → Py (Network P)
  | [], n => .ok n
  | c :: cs, n => do
    let n ← n.addCommodity c.sources c.sink c.predictor
    addCommodities cs n

/-- `__setstate__` (src/core/network.py:56-62). -/
def setstate (s : State P) : Py (Network P) :=
  addCommodities s.commodities ⟨Graph.setstate s.graph, s.capacity, s.travelTime, []⟩

end Network
end Verif
