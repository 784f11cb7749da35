import Verif.Model.PLMin
import Verif.Model.Dijkstra

/-! Model of src/core/bellman_ford.py. Dicts are partial functions, the set `interesting_nodes` is a list. The horizon may be infinite. -/

namespace Verif
namespace BF
open Dijkstra (put look)

/-- `max_t_below(bound)` without default, for a bound that may be infinite (src/utilities/piecewise_linear.py:427-448): no value is above an infinite bound, so the end of the domain
is returned. -/
def maxTBelow (f : PL) : WithTop ℚ → Py (Option (WithTop ℚ))
  | some b => f.maxTBelow b none
  | none => do
    pyAssert (f.isMonotone = true)
    let _ ← f.evalLo
    let _ ← f.evalHi
    pure (some f.hi)

/-- `restrict` to a domain whose end may be infinite (src/utilities/piecewise_linear.py:532-547): the last break point has index `len - 1`. -/
def restrict (f : PL) (a : ℚ) : WithTop ℚ → Py PL
  | some b => f.restrict a b
  | none => do
    pyAssert (f.lo ≤ (a : WithBot ℚ) ∧ f.hi = ⊤)
    let r ← elemRank f.times a
    let firstInd := r + 1
    let lastInd := (f.times.length : Int) - 1
    let firstSlope ← f.gradient (firstInd - 1)
    let lastSlope ← f.gradient lastInd
    if firstInd < lastInd + 1 then
      PL.new ((f.times.drop firstInd.toNat).take (lastInd + 1 - firstInd).toNat)
        ((f.values.drop firstInd.toNat).take (lastInd + 1 - firstInd).toNat) firstSlope lastSlope a ⊤
    else do
      let v ← f.eval a
      PL.new [a] [v] firstSlope lastSlope a ⊤

/-- The loop of `get_fifo_arrival_time` (src/core/bellman_ford.py:28-32): the head of the second list is `new_values[i]`, the first list is `traversal.times[i + 1:]`. -/
def fifoLoop : List ℚ → List ℚ → Py (List ℚ)
  | t :: ts, a :: b :: vs => do
    pyAssert (a ≤ b + eps)
    let r ← fifoLoop ts (max (max a b) t :: vs)
    pure (a :: r)
  | _, vs => .ok vs

/-- `get_fifo_arrival_time` (src/core/bellman_ford.py:26-43). -/
def fifoArrival (f : PL) : Py PL := do
  let vs ← fifoLoop f.times.tail f.values
  let p ← PL.new f.times vs f.first f.last f.lo f.hi
  pure (if p.last < 1 then { p with last := 1 } else p)

/-- `identity` (src/core/bellman_ford.py:21). -/
def identity (phi : ℚ) (horizon : WithTop ℚ) : Py PL := PL.new [phi] [phi] 1 1 (phi : WithBot ℚ) horizon

/-- One entry of `edge_arrival_times` (src/core/bellman_ford.py:45-47). -/
def arrivalTime (ident cost : PL) : Py PL := do
  let s ← ident.plus cost
  let f ← fifoArrival s
  f.simplify

/-- `edge_arrival_times` (src/core/bellman_ford.py:45-47). -/
def arrivalTimes (ident : PL) : List PL → Py (List PL)
  | [] => .ok []
  | c :: cs => do
    let t ← arrivalTime ident c
    let ts ← arrivalTimes ident cs
    pure (t :: ts)

/-- `relaxation` of an edge with arrival times `T` and the label `gw` of its head (src/core/bellman_ford.py:61-67); `none` for the `continue` in line 66. All labels have domains that
start at a number; a label without start is an error here. -/
def relaxation (T gw : PL) : Py (Option PL) :=
  match gw.lo with
  | none => .error .assertion
  | some a => do
    let x ← T.minTAbove a
    match ← maxTBelow T gw.hi with
    | none => pure none
    | some y => do
      let r ← restrict T x y
      let h ← gw.compose r
      pure (some h)

/-- `g`, `node_distance` and `changes_detected_at`. -/
structure State where
  labels : Nat → Option PL
  dist : Nat → Option ℚ
  queue : Heap ℚ Nat

/-- `if v not in changes_detected_at: changes_detected_at.push(v, node_distance[v])` (src/core/bellman_ford.py:70-71,74-75). -/
def mark (s : State) (v : Nat) : Py State :=
  if s.queue.has v then .ok s
  else do
    let d ← look s.dist v
    let q ← s.queue.push v d
    pure { s with queue := q }

/-- Using a relaxation of the label of `v` from `w` (src/core/bellman_ford.py:68-76). -/
def improve (s : State) (w v : Nat) (h : PL) : Py State :=
  match s.labels v with
  | none => do
    let d ← look s.dist w
    let s ← mark { s with dist := put s.dist v (d + 1) } v
    let p ← h.simplify
    pure { s with labels := put s.labels v p }
  | some gv => do
    let le ← gv.smallerEquals h
    if le then pure s
    else do
      let s ← mark s v
      let m ← gv.outerMinimum h
      let p ← m.simplify
      pure { s with labels := put s.labels v p }

/-- The body of the `for edge` loop (src/core/bellman_ford.py:57-76). -/
def relaxEdge (g : Graph) (Ts : List PL) (nodes : List Nat) (w e : Nat) (s : State) : Py State :=
  let v := g.nodeFrom e
  if v ∈ nodes then do
    let T ← rd Ts (g.edge e).id
    let gw ← look s.labels w
    match ← relaxation T gw with
    | none => pure s
    | some h => improve s w v h
  else .ok s

/-- The `for edge` loop (src/core/bellman_ford.py:56-76). -/
def relaxEdges (g : Graph) (Ts : List PL) (nodes : List Nat) (w : Nat) : List Nat → State → Py State
  | [], s => .ok s
  | e :: es, s => do
    let s ← relaxEdge g Ts nodes w e s
    relaxEdges g Ts nodes w es s

/-- The `for w` loop (src/core/bellman_ford.py:55-76). -/
def relaxNodes (g : Graph) (Ts : List PL) (nodes : List Nat) : List Nat → State → Py State
  | [], s => .ok s
  | w :: ws, s => do
    let s ← relaxEdges g Ts nodes w (g.incoming w) s
    relaxNodes g Ts nodes ws s

/-- The `while` loop (src/core/bellman_ford.py:51-76). First argument after the inputs: fuel. -/
def rounds (g : Graph) (Ts : List PL) (nodes : List Nat) : Nat → State → Py (Nat → Option PL)
  | 0, _ => .error .fuel
  | fuel + 1, s =>
    if s.queue.len > 0 then do
      let s ← relaxNodes g Ts nodes s.queue.sortedItems { s with queue := Heap.empty }
      rounds g Ts nodes fuel s
    else .ok s.labels

/-- `bellman_ford` (src/core/bellman_ford.py:11-77). `fuel` bounds the number of rounds of the `while` loop, which the program does not bound. -/
def bellmanFord (fuel : Nat) (g : Graph) (sink : Nat) (costs : List PL) (nodes : List Nat) (phi : ℚ) (horizon : WithTop ℚ) : Py (Nat → Option PL) := do
  let ident ← identity phi horizon
  let Ts ← arrivalTimes ident costs
  let queue ← Heap.ofList [(sink, (0 : ℚ))]
  rounds g Ts nodes fuel ⟨put (fun _ => none) sink ident, put (fun _ => none) sink 0, queue⟩

end BF
end Verif
