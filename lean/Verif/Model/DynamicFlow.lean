import Verif.Model.FlowRates
import Verif.Model.Heap
import Mathlib.Order.WithBot

/-! Model of src/core/dynamic_flow.py.

The lists `inflow`, `outflow`, `queues` indexed by edge ids are functions of the edge id (ids outside
the network, an `IndexError` in Python, are not modelled). Event keys are extended rationals, as the
priority queue compares with `-inf` and `inf`. `max_extension_time` is finite. -/

namespace Verif

/-- A finite key of the event queues. -/
abbrev ev (x : ℚ) : EVal := EVal.fin x

/-- A key read back as a finite number. -/
def EVal.toRat : EVal → Py ℚ
  | none => .error .runtime
  | some none => .error .runtime
  | some (some x) => .ok x

/-- Capacities and travel times of the edges (src/core/network.py:22-23). -/
structure EdgeData where
  capacity : Nat → ℚ
  travelTime : Nat → ℚ

/-- `d[e] = x` on a list or dict indexed by edge. -/
def setAt {α : Type _} (d : Nat → α) (e : Nat) (x : α) : Nat → α := fun j => if j = e then x else d j

/-- `DepletionQueue` (src/core/dynamic_flow.py:17-25). -/
structure DepQ where
  depletions : Heap EVal Nat
  changeTimes : Heap EVal Nat
  newOutflow : Nat → Option (Rates × ℚ)

namespace DepQ

/-- `DepletionQueue()` (src/core/dynamic_flow.py:22-25). -/
def empty : DepQ := ⟨Heap.empty, Heap.empty, fun _ => none⟩

/-- `self.new_outflow.pop(edge)` (src/core/dynamic_flow.py:39, 51, 65). -/
def popOutflow (d : Nat → Option (Rates × ℚ)) (e : Nat) : Py ((Rates × ℚ) × (Nat → Option (Rates × ℚ))) :=
  match d e with
  | none => .error .key
  | some v => .ok (v, setAt d e none)

/-- `set` (src/core/dynamic_flow.py:27-39). The first assertion holds for every finite time. -/
def set (q : DepQ) (e : Nat) (depl : ℚ) (change : Option (ℚ × (Rates × ℚ))) : Py DepQ := do
  let depletions ← q.depletions.set e (ev depl)
  match change with
  | some (ct, v) => do
    let changeTimes ← q.changeTimes.set e (ev ct)
    pure ⟨depletions, changeTimes, setAt q.newOutflow e (some v)⟩
  | none =>
    if q.changeTimes.has e then do
      let changeTimes ← q.changeTimes.remove e
      let (_, d) ← popOutflow q.newOutflow e
      pure ⟨depletions, changeTimes, d⟩
    else pure ⟨depletions, q.changeTimes, q.newOutflow⟩

/-- `remove` (src/core/dynamic_flow.py:47-51). -/
def remove (q : DepQ) (e : Nat) : Py DepQ := do
  let depletions ← q.depletions.remove e
  if q.changeTimes.has e then do
    let changeTimes ← q.changeTimes.remove e
    let (_, d) ← popOutflow q.newOutflow e
    pure ⟨depletions, changeTimes, d⟩
  else pure ⟨depletions, q.changeTimes, q.newOutflow⟩

/-- `pop_by_depletion` (src/core/dynamic_flow.py:59-67). -/
def popByDepletion (q : DepQ) : Py (Nat × ℚ × Option (ℚ × (Rates × ℚ)) × DepQ) := do
  let k ← q.depletions.minKey
  let depl ← k.toRat
  let (depletions, e) ← q.depletions.pop
  if q.changeTimes.has e then do
    let ct ← q.changeTimes.keyOf e
    let ct ← (match ct with
      | none => (.error .typeErr : Py ℚ)
      | some k => k.toRat)
    let changeTimes ← q.changeTimes.remove e
    let (v, d) ← popOutflow q.newOutflow e
    pure (e, depl, some (ct, v), ⟨depletions, changeTimes, d⟩)
  else pure (e, depl, none, ⟨depletions, q.changeTimes, q.newOutflow⟩)

end DepQ

/-- `DynamicFlow` (src/core/dynamic_flow.py:70-84). -/
structure DFlow where
  phi : ℚ
  inflow : Nat → FRC
  outflow : Nat → FRC
  queues : Nat → PL
  changes : Heap EVal (Nat × ℚ)
  deps : DepQ

namespace DFlow

/-- `DynamicFlow(network)` (src/core/dynamic_flow.py:86-95). -/
def init : Py DFlow := do
  let c ← FRC.empty
  let q ← PL.new [0] [0] 0 0 ⊥ ⊤
  pure { phi := 0, inflow := fun _ => c, outflow := fun _ => c, queues := fun _ => q,
         changes := Heap.empty, deps := DepQ.empty }

/-- `_extend_case_i` (src/core/dynamic_flow.py:108-124). -/
def caseI (net : EdgeData) (s : DFlow) (e : Nat) (curQueue : ℚ) : Py DFlow := do
  let capacity := net.capacity e
  let arrival := s.phi + curQueue / capacity + net.travelTime e
  let out ← (s.outflow e).extend arrival [] 0
  let changes ← s.changes.set (e, arrival) (ev arrival)
  let slope := if curQueue = 0 then 0 else -capacity
  let q ← (s.queues e).extendWithSlope s.phi slope
  if curQueue > 0 then do
    let depl := s.phi + curQueue / capacity
    let v ← q.eval depl
    pyAssert (v < 1000 * eps)
    let deps ← s.deps.set e depl none
    pure { s with outflow := setAt s.outflow e out, changes := changes, queues := setAt s.queues e q, deps := deps }
  else if s.deps.depletions.has e then do
    let deps ← s.deps.remove e
    pure { s with outflow := setAt s.outflow e out, changes := changes, queues := setAt s.queues e q, deps := deps }
  else
    pure { s with outflow := setAt s.outflow e out, changes := changes, queues := setAt s.queues e q }

/-- `_extend_case_ii` (src/core/dynamic_flow.py:125-142). -/
def caseII (net : EdgeData) (s : DFlow) (e : Nat) (newInflow : Rates) (curQueue accIn : ℚ) : Py DFlow := do
  let capacity := net.capacity e
  let arrival := s.phi + curQueue / capacity + net.travelTime e
  let accOut := min capacity accIn
  let factor := accOut / accIn
  let out ← (s.outflow e).extend arrival (newInflow.scale factor) accOut
  let changes ← s.changes.set (e, arrival) (ev arrival)
  let slope := max (accIn - capacity) 0
  let q ← (s.queues e).extendWithSlope s.phi slope
  if s.deps.depletions.has e then do
    let deps ← s.deps.remove e
    pure { s with outflow := setAt s.outflow e out, changes := changes, queues := setAt s.queues e q, deps := deps }
  else
    pure { s with outflow := setAt s.outflow e out, changes := changes, queues := setAt s.queues e q }

/-- `_extend_case_iii` (src/core/dynamic_flow.py:144-165). -/
def caseIII (net : EdgeData) (s : DFlow) (e : Nat) (newInflow : Rates) (curQueue accIn : ℚ) : Py DFlow := do
  let capacity := net.capacity e
  let arrival := s.phi + curQueue / capacity + net.travelTime e
  let factor := capacity / accIn
  let out ← (s.outflow e).extend arrival (newInflow.scale factor) capacity
  let changes ← s.changes.set (e, arrival) (ev arrival)
  let slope := accIn - capacity
  let q ← (s.queues e).extendWithSlope s.phi slope
  let depl := s.phi - curQueue / slope
  let v ← q.eval depl
  pyAssert (v < 1000 * eps)
  let deps ← s.deps.set e depl (some (depl + net.travelTime e, (newInflow, accIn)))
  pure { s with outflow := setAt s.outflow e out, changes := changes, queues := setAt s.queues e q, deps := deps }

/-- One iteration of the loop over `new_inflow` (src/core/dynamic_flow.py:190-202). -/
def setInflow (net : EdgeData) (s : DFlow) (e : Nat) (newInflow : Rates) : Py DFlow := do
  let (cur, c) ← (s.inflow e).getValuesAtTime s.phi
  let s : DFlow := { s with inflow := setAt s.inflow e c }
  if cur.dictEq newInflow then pure s
  else do
    let accIn := newInflow.total
    let v ← (s.queues e).evalFromEnd s.phi
    let curQueue := max v 0
    let c ← (s.inflow e).extend s.phi newInflow accIn
    let s : DFlow := { s with inflow := setAt s.inflow e c }
    if accIn = 0 then caseI net s e curQueue
    else if curQueue = 0 ∨ accIn ≥ net.capacity e - eps then caseII net s e newInflow curQueue accIn
    else caseIII net s e newInflow curQueue accIn

/-- The loop over `new_inflow` (src/core/dynamic_flow.py:190-202). -/
def setInflows (net : EdgeData) : List (Nat × Rates) → DFlow → Py DFlow
  | [], s => .ok s
  | (e, v) :: rest, s => do
    let s ← setInflow net s e v
    setInflows net rest s

/-- One iteration of `_process_depletions` (src/core/dynamic_flow.py:168-176). -/
def processDepletion (s : DFlow) : Py DFlow := do
  let (e, depl, change, deps) ← s.deps.popByDepletion
  let q ← (s.queues e).extendWithSlope depl 0
  let l ← rdLast q.values
  pyAssert (|l| < 1000 * eps)
  let q : PL := { q with values := q.values.dropLast ++ [0] }
  let s : DFlow := { s with deps := deps, queues := setAt s.queues e q }
  match change with
  | none => pure s
  | some (ct, (v, sum)) => do
    let changes ← s.changes.set (e, ct) (ev ct)
    let out ← (s.outflow e).extend ct v sum
    pure { s with changes := changes, outflow := setAt s.outflow e out }

/-- `_process_depletions` (src/core/dynamic_flow.py:167-176). First argument: fuel. -/
def processDepletions : Nat → DFlow → Py DFlow
  | 0, _ => .error .fuel
  | fuel + 1, s => do
    let k ← s.deps.depletions.minKey
    if k ≤ ev s.phi ∧ s.deps.depletions.len > 0 then do
      let s ← processDepletion s
      processDepletions fuel s
    else pure s

/-- The loop collecting `changed_edges` (src/core/dynamic_flow.py:212-217). First argument: fuel. The set
is a list here. -/
def collectChanges : Nat → DFlow → List Nat → Py (DFlow × List Nat)
  | 0, _, _ => .error .fuel
  | fuel + 1, s, acc => do
    let k ← s.changes.minKey
    if k ≤ ev s.phi ∧ s.changes.len > 0 then do
      let (h, p) ← s.changes.pop
      collectChanges fuel { s with changes := h } (p.1 :: acc)
    else pure (s, acc)

/-- `extend` (src/core/dynamic_flow.py:178-217). The cache of loads is in Model/Caches. -/
def extend (net : EdgeData) (s : DFlow) (newInflow : List (Nat × Rates)) (maxTime : ℚ) : Py (DFlow × List Nat) := do
  let s ← setInflows net newInflow s
  let a ← s.deps.changeTimes.minKey
  let b ← s.changes.minKey
  let phi ← (min (min a b) (ev maxTime)).toRat
  let s : DFlow := { s with phi := phi }
  let s ← processDepletions (s.deps.depletions.len + 1) s
  collectChanges (s.changes.len + 1) s []

/-- Reading the current outflow rates of an edge, `flow.outflow[e].get_values_at_time(flow.phi)`
(src/core/flow_builder.py:191-194); it moves the head of the event list. -/
def lookOutflow (s : DFlow) (e : Nat) : Py (Rates × DFlow) := do
  let (v, c) ← (s.outflow e).getValuesAtTime s.phi
  pure (v, { s with outflow := setAt s.outflow e c })

/-- One entry of `get_edge_loads` (src/core/dynamic_flow.py:242-257). The cache is in Model/Caches. -/
def edgeLoad (s : DFlow) (e : Nat) : Py PL := do
  let l ← (s.inflow e).acc.sub (s.outflow e).acc
  pyAssert (l.lo = ((0 : ℚ) : WithBot ℚ))
  let v ← l.eval 0
  pyAssert (|v| < 1 / 10 ^ 10)
  let v0 ← rd l.values 0
  let l : PL := if v0 ≠ 0 then { l with times := 0 :: l.times, values := 0 :: l.values } else l
  pure { l with first := 0, lo := ⊥ }

end DFlow
end Verif
