import Verif.Model.Graph

/-! Model of src/ml/neighboring_edges.py. Sets are lists of what was added; edges are references, nodes ids. -/

namespace Verif
namespace Neighbors

/-- The sets `discovered`, `new_queue` and `result` of the searches. -/
structure St where
  discovered : List Nat
  queue : List Nat
  result : List Nat
  deriving DecidableEq, Repr

/-- `for e in edges: result.add(e); if end(e) not in discovered: discovered.add(end(e)); new_queue.append(end(e))`
(src/ml/neighboring_edges.py:16-20, 32-36, 54-58, 59-63). -/
def visit (endOf : Nat → Nat) : List Nat → St → St
  | [], s => s
  | e :: es, s =>
    let s := { s with result := e :: s.result }
    if endOf e ∈ s.discovered then visit endOf es s
    else visit endOf es { s with discovered := endOf e :: s.discovered, queue := s.queue ++ [endOf e] }

/-- `for v in queue:` of the forward search (src/ml/neighboring_edges.py:15-20). -/
def scanForward (g : Graph) : List Nat → St → St
  | [], s => s
  | v :: vs, s => scanForward g vs (visit g.nodeTo (g.outgoing v) s)

/-- The rounds of the forward search (src/ml/neighboring_edges.py:13-21): `queue` becomes `new_queue`. -/
def forwardLoop (g : Graph) : Nat → List Nat → St → St
  | 0, _, s => s
  | n + 1, queue, s =>
    let s := scanForward g queue { s with queue := [] }
    forwardLoop g n s.queue s

/-- `get_neighboring_edges_forward` (src/ml/neighboring_edges.py:9-22). -/
def forward (g : Graph) (e : Nat) (d : Nat) : List Nat :=
  (forwardLoop g d [g.nodeTo e] ⟨[g.nodeTo e], [], [e]⟩).result

/-- `for v in queue:` of the backward search (src/ml/neighboring_edges.py:31-36). -/
def scanBackward (g : Graph) : List Nat → St → St
  | [], s => s
  | v :: vs, s => scanBackward g vs (visit g.nodeFrom (g.incoming v) s)

/-- The rounds of the backward search (src/ml/neighboring_edges.py:29-36): `queue` stays as it is. -/
def backwardLoop (g : Graph) : Nat → List Nat → St → St
  | 0, _, s => s
  | n + 1, queue, s => backwardLoop g n queue (scanBackward g queue { s with queue := [] })

/-- `get_neighboring_edges_backward` (src/ml/neighboring_edges.py:25-37). -/
def backward (g : Graph) (e : Nat) (d : Nat) : List Nat :=
  (backwardLoop g d [g.nodeFrom e] ⟨[g.nodeFrom e], [], [e]⟩).result

/-- `get_neighboring_edges_directed` (src/ml/neighboring_edges.py:40-43). -/
def directed (g : Graph) (e : Nat) (d : Nat) : List Nat := backward g e d ++ forward g e d

/-- `for v in queue:` of the undirected search (src/ml/neighboring_edges.py:53-63). -/
def scanBoth (g : Graph) : List Nat → St → St
  | [], s => s
  | v :: vs, s => scanBoth g vs (visit g.nodeTo (g.outgoing v) (visit g.nodeFrom (g.incoming v) s))

/-- The rounds of the undirected search (src/ml/neighboring_edges.py:51-63): `queue` stays as it is. -/
def undirectedLoop (g : Graph) : Nat → List Nat → St → St
  | 0, _, s => s
  | n + 1, queue, s => undirectedLoop g n queue (scanBoth g queue { s with queue := [] })

/-- `get_neighboring_edges_undirected` (src/ml/neighboring_edges.py:46-64). -/
def undirected (g : Graph) (e : Nat) (d : Nat) : List Nat :=
  (undirectedLoop g d [g.nodeFrom e, g.nodeTo e] ⟨[g.nodeFrom e, g.nodeTo e], [], [e]⟩).result

/-- `get_neighboring_edges_mask_directed` (src/ml/neighboring_edges.py:67-71). -/
def maskDirected (g : Graph) (e : Nat) (d : Nat) : List Bool := g.edges.map (fun r => decide (r ∈ directed g e d))

/-- `get_neighboring_edges_mask_undirected` (src/ml/neighboring_edges.py:74-78). -/
def maskUndirected (g : Graph) (e : Nat) (d : Nat) : List Bool := g.edges.map (fun r => decide (r ∈ undirected g e d))

end Neighbors
end Verif
