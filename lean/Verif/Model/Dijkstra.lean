import Verif.Model.Graph
import Verif.Model.Heap

/-! Model of src/core/dijkstra.py. Dicts are partial functions, sets are lists. -/

namespace Verif
namespace Dijkstra

/-- `d[k] = v` on a dict. -/
def put {α : Type} (d : Nat → Option α) (k : Nat) (v : α) : Nat → Option α := fun j => if j = k then some v else d j

/-- `d[k]` on a dict: `KeyError` when missing. -/
def look {α : Type} (d : Nat → Option α) (k : Nat) : Py α :=
  match d k with
  | some v => .ok v
  | none => .error .key

/-- The body of the `for edge` loop of `reverse_dijkstra` (src/core/dijkstra.py:20-33). -/
def relaxBack (g : Graph) (costs : List ℚ) (nodes : List Nat) (w e : Nat) (dist : Nat → Option ℚ) (queue : Heap ℚ Nat) :
    Py ((Nat → Option ℚ) × Heap ℚ Nat) :=
  let v := g.nodeFrom e
  if v ∈ nodes then do
    let c ← rd costs (g.edge e).id
    let dw ← look dist w
    let relaxation := c + dw
    match dist v with
    | none => do
      let queue ← queue.push v relaxation
      pure (put dist v relaxation, queue)
    | some d =>
      if relaxation < d - eps then do
        let queue ← if queue.has v then queue.decreaseKey v relaxation else queue.push v relaxation
        pure (put dist v relaxation, queue)
      else pure (dist, queue)
  else .ok (dist, queue)

/-- The `for edge` loop of `reverse_dijkstra` (src/core/dijkstra.py:20-33). -/
def relaxBackAll (g : Graph) (costs : List ℚ) (nodes : List Nat) (w : Nat) :
    List Nat → (Nat → Option ℚ) → Heap ℚ Nat → Py ((Nat → Option ℚ) × Heap ℚ Nat)
  | [], dist, queue => .ok (dist, queue)
  | e :: es, dist, queue => do
    let (dist, queue) ← relaxBack g costs nodes w e dist queue
    relaxBackAll g costs nodes w es dist queue

/-- The `while` loop of `reverse_dijkstra` (src/core/dijkstra.py:18-35). First argument after the inputs: fuel. -/
def reverseLoop (g : Graph) (costs : List ℚ) (nodes : List Nat) : Nat → (Nat → Option ℚ) → Heap ℚ Nat → Py (Nat → Option ℚ)
  | 0, _, _ => .error .fuel
  | fuel + 1, dist, queue =>
    if queue.len > 0 then do
      let (queue, w) ← queue.pop
      let (dist, queue) ← relaxBackAll g costs nodes w (g.incoming w) dist queue
      reverseLoop g costs nodes fuel dist queue
    else .ok dist

/-- `reverse_dijkstra` (src/core/dijkstra.py:10-35). `nodes` is a set of nodes. -/
def reverseDijkstra (g : Graph) (sink : Nat) (costs : List ℚ) (nodes : List Nat) : Py (Nat → Option ℚ) := do
  let queue ← Heap.ofList [(sink, (0 : ℚ))]
  pyAssert (sink ∈ nodes)
  reverseLoop g costs nodes (nodes.length + 1) (put (fun _ => none) sink 0) queue

/-- A `DynamicDijkstraResult` (src/core/dijkstra.py:38-40). -/
structure Result where
  arrival : Nat → Option ℚ
  realized : Nat → Option ℚ

/-- The body of the `for e` loop of `dynamic_dijkstra` (src/core/dijkstra.py:64-73). -/
def relax (g : Graph) (relevant : List Nat) (costs : List (ℚ → Py ℚ)) (v e : Nat) (arrival realized : Nat → Option ℚ) (queue : Heap ℚ Nat) :
    Py ((Nat → Option ℚ) × Heap ℚ Nat) :=
  let w := g.nodeTo e
  if (arrival w).isSome ∨ ¬ w ∈ relevant then .ok (realized, queue)
  else do
    let c ← rd costs (g.edge e).id
    let a ← look arrival v
    let x ← c a
    let relaxation := a + x
    if queue.has w then do
      match ← queue.keyOf w with
      | none => .error .typeErr
      | some k =>
        if relaxation < k then do
          let queue ← queue.decreaseKey w relaxation
          pure (put realized e x, queue)
        else pure (put realized e x, queue)
    else do
      let queue ← queue.push w relaxation
      pure (put realized e x, queue)

/-- The `for e` loop of `dynamic_dijkstra` (src/core/dijkstra.py:64-73). -/
def relaxAll (g : Graph) (relevant : List Nat) (costs : List (ℚ → Py ℚ)) (v : Nat) (arrival : Nat → Option ℚ) :
    List Nat → (Nat → Option ℚ) → Heap ℚ Nat → Py ((Nat → Option ℚ) × Heap ℚ Nat)
  | [], realized, queue => .ok (realized, queue)
  | e :: es, realized, queue => do
    let (realized, queue) ← relax g relevant costs v e arrival realized queue
    relaxAll g relevant costs v arrival es realized queue

/-- The `while` loop of `dynamic_dijkstra` (src/core/dijkstra.py:59-74). `queue.min_key()` is only called on a non-empty
queue, so its `inf` case is not needed. -/
def dynamicLoop (g : Graph) (sink : Nat) (relevant : List Nat) (costs : List (ℚ → Py ℚ)) :
    Nat → (Nat → Option ℚ) → (Nat → Option ℚ) → Heap ℚ Nat → Py Result
  | 0, _, _, _ => .error .fuel
  | fuel + 1, arrival, realized, queue =>
    if queue.len > 0 then do
      let root ← rd queue.data 0
      let (queue, v) ← queue.pop
      let arrival := put arrival v root.key
      if v = sink then pure ⟨arrival, realized⟩
      else do
        let (realized, queue) ← relaxAll g relevant costs v arrival (g.outgoing v) realized queue
        dynamicLoop g sink relevant costs fuel arrival realized queue
    else .ok ⟨arrival, realized⟩

/-- `dynamic_dijkstra` (src/core/dijkstra.py:43-74). A cost function is a Python callable, which may raise. -/
def dynamicDijkstra (g : Graph) (phi : ℚ) (source sink : Nat) (relevant : List Nat) (costs : List (ℚ → Py ℚ)) : Py Result := do
  let queue ← Heap.ofList [(source, phi)]
  dynamicLoop g sink relevant costs (relevant.length + 2) (fun _ => none) (fun _ => none) queue

/-- The `for e` loop of `get_active_edges_from_dijkstra` (src/core/dijkstra.py:88-98). -/
def activeScan (g : Graph) (res : Result) (source w : Nat) : List Nat → List Nat → List Nat → List Nat → Py (List Nat × List Nat × List Nat)
  | [], active, touched, queue => .ok (active, touched, queue)
  | e :: es, active, touched, queue =>
    match res.realized e with
    | none => activeScan g res source w es active touched queue
    | some x => do
      let v := g.nodeFrom e
      let av ← look res.arrival v
      let aw ← look res.arrival w
      if av + x ≤ aw + eps then
        let active := if v = source then active ++ [e] else active
        if v ∈ touched then activeScan g res source w es active touched queue
        else activeScan g res source w es active (v :: touched) (v :: queue)
      else activeScan g res source w es active touched queue

/-- The `while` loop of `get_active_edges_from_dijkstra` (src/core/dijkstra.py:86-98); the top of the stack is the head. -/
def activeLoop (g : Graph) (res : Result) (source : Nat) : Nat → List Nat → List Nat → List Nat → Py (List Nat)
  | _, active, _, [] => .ok active
  | 0, _, _, _ :: _ => .error .fuel
  | fuel + 1, active, touched, w :: queue => do
    let (active, touched, queue) ← activeScan g res source w (g.incoming w) active touched queue
    activeLoop g res source fuel active touched queue

/-- `get_active_edges_from_dijkstra` (src/core/dijkstra.py:77-101). -/
def activeEdges (g : Graph) (res : Result) (source sink : Nat) : Py (List Nat) := do
  let active ← activeLoop g res source (g.nodes.length + 1) [] [sink] [sink]
  pyAssert (active.length > 0)
  pure active

end Dijkstra
end Verif
