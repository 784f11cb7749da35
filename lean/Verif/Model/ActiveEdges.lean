import Verif.Model.Dijkstra
import Verif.Model.PiecewiseLinear

/-! Model of src/core/active_edges.py. -/

namespace Verif
namespace ActiveEdges
open Dijkstra

/-- `identity` (src/core/active_edges.py:7). -/
def identity : PL := { times := [0], values := [0], first := 1, last := 1, lo := ⊥, hi := ⊤ }

/-- The `for e` loop of `backward_search` (src/core/active_edges.py:21-30). The sets are lists; an edge has one head and every node is visited once, so that adding an edge to the set
is appending it. -/
def backScan (g : Graph) (costs : List (ℚ → Py ℚ)) (arrivals : Nat → Option ℚ) (source w : Nat) : List Nat → List Nat → List Nat → List Nat → Py (List Nat × List Nat × List Nat)
  | [], active, touched, queue => .ok (active, touched, queue)
  | e :: es, active, touched, queue =>
    match arrivals (g.nodeFrom e) with
    | none => backScan g costs arrivals source w es active touched queue
    | some av => do
      let c ← rd costs (g.edge e).id
      let x ← c av
      let aw ← look arrivals w
      if av + x ≤ aw then
        let active := if g.nodeFrom e = source then active ++ [e] else active
        if g.nodeFrom e ∈ touched then backScan g costs arrivals source w es active touched queue
        else backScan g costs arrivals source w es active (g.nodeFrom e :: touched) (g.nodeFrom e :: queue)
      else backScan g costs arrivals source w es active touched queue

/-- The `while` loop of `backward_search` (src/core/active_edges.py:19-30); the top of the stack is the head. -/
def backLoop (g : Graph) (costs : List (ℚ → Py ℚ)) (arrivals : Nat → Option ℚ) (source : Nat) : Nat → List Nat → List Nat → List Nat → Py (List Nat)
  | _, active, _, [] => .ok active
  | 0, _, _, _ :: _ => .error .fuel
  | fuel + 1, active, touched, w :: queue => do
    let (active, touched, queue) ← backScan g costs arrivals source w (g.incoming w) active touched queue
    backLoop g costs arrivals source fuel active touched queue

/-- `backward_search` (src/core/active_edges.py:10-31). -/
def backwardSearch (g : Graph) (costs : List (ℚ → Py ℚ)) (arrivals : Nat → Option ℚ) (source sink : Nat) : Py (List Nat) :=
  backLoop g costs arrivals source (g.nodes.length + 1) [] [sink] [sink]

/-- A member of `new_costs` (src/core/active_edges.py:51-53). All lambdas share the variable `trav`, which is the last traversal function when they are called. An infinite time is not modelled (it
counts as an exception here). -/
def newCost (traversals : List PL) (t : ℚ) : Py ℚ := do
  let trav ← rd traversals (traversals.length - 1)
  match ← trav.maxTBelow (-t) none with
  | some (some r) => pure (-r - t)
  | _ => .error .typeErr

/-- The second search, on the reversed graph `g'` (src/core/active_edges.py:50-56). -/
def secondSearch (g' : Graph) (costs : List PL) (arrivals : Nat → Option ℚ) (source sink : Nat) (relevant : List Nat) : Py (List PL) := do
  let traversals ← costs.mapM (fun cost => cost.plus identity)
  let a ← look arrivals sink
  let _ ← dynamicDijkstra g' a sink source relevant (traversals.map (fun _ => newCost traversals))
  pure traversals

/-- The selection behind the second search (src/core/active_edges.py:58-62): `neg_departures` is the named tuple that `dynamic_dijkstra` returns, so that `neg_departures[e.node_to]` is a
`TypeError`. -/
def selectEdges (g : Graph) (traversals : List PL) (theta : ℚ) : List Nat → Py (List Nat)
  | [] => .ok []
  | e :: _ => do
    let trav ← rd traversals (g.edge e).id
    let _ ← trav.eval theta
    .error .typeErr

/-- `get_active_edges` (src/core/active_edges.py:34-62). Also returned: the graph afterwards. -/
def getActiveEdges (g : Graph) (costs : List PL) (theta : ℚ) (source sink : Nat) (relevant : List Nat) (strongFifo : Bool) : Graph × Py (List Nat) :=
  if ((g.outgoing source).filter (fun e => g.nodeTo e ∈ relevant)).length ≤ 1 then (g, .ok (g.outgoing source))
  else match dynamicDijkstra g theta source sink relevant (costs.map PL.eval) with
    | .error err => (g, .error err)
    | .ok res =>
      if strongFifo then (g, backwardSearch g (costs.map PL.eval) res.arrival source sink)
      else match secondSearch g.reverse costs res.arrival source sink relevant with
        | .error err => (g.reverse, .error err)
        | .ok traversals => (g.reverse.reverse, selectEdges g traversals theta (g.outgoing source))

end ActiveEdges
end Verif
