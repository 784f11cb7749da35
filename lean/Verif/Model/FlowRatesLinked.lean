import Verif.Model.FlowRates

/-! Pointer-level model of the event list of src/core/flow_rates_collection.py: items live in a store,
`next_item`, `_queue_head` and `_queue_tail` are references into it. -/

namespace Verif

/-- A `FlowRatesCollectionItem` in the store (src/core/flow_rates_collection.py:11-20). -/
structure FRNode where
  time : ℚ
  values : Rates
  next : Option Nat

/-- The event list of a collection: the store of all items ever allocated, and the two references
(src/core/flow_rates_collection.py:25-26). -/
structure FRList where
  store : List FRNode
  head : Option Nat
  tail : Option Nat

/-- A collection with the event list at pointer level (src/core/flow_rates_collection.py:23-27). -/
structure FRP where
  funs : Nat → Option RC
  list : FRList
  acc : PL

/-- The dict made by `__getstate__`: the other attributes and the unrolled queue
(src/core/flow_rates_collection.py:53-66). -/
structure FRPickle where
  funs : Nat → Option RC
  acc : PL
  queue : List FRItem

namespace FRList

/-- `_queue_tail.next_item = item; _queue_tail = item` for a new item, or both references set to it
when the list is empty (src/core/flow_rates_collection.py:86-88, 101-102, 79-83). -/
def append (l : FRList) (item : FRItem) : FRList :=
  let n := l.store.length
  match l.tail with
  | none => ⟨l.store ++ [⟨item.time, item.values, none⟩], some n, some n⟩
  | some t =>
    ⟨(l.store.modify t (fun nd => { nd with next := some n })) ++ [⟨item.time, item.values, none⟩], l.head, some n⟩

/-- The loop of `__getstate__` (src/core/flow_rates_collection.py:61-64). First argument: fuel. -/
def unroll (store : List FRNode) : Nat → Option Nat → Py (List FRItem)
  | _, none => .ok []
  | 0, some _ => .error .fuel
  | fuel + 1, some p =>
    match store[p]? with
    | none => .error .attribute
    | some nd => do
      let rest ← unroll store fuel nd.next
      pure (⟨nd.time, nd.values⟩ :: rest)

/-- The loop of `get_values_at_time` (src/core/flow_rates_collection.py:111-115). -/
def advance (store : List FRNode) (time : ℚ) : Nat → Nat → Py Nat
  | 0, _ => .error .fuel
  | fuel + 1, p =>
    match store[p]? with
    | none => .error .attribute
    | some nd =>
      match nd.next with
      | none => .ok p
      | some q =>
        match store[q]? with
        | none => .error .attribute
        | some nq => if nq.time ≤ time then advance store time fuel q else .ok p

end FRList

namespace FRP

/-- `FlowRatesCollection()` (src/core/flow_rates_collection.py:29-36). -/
def empty : Py FRP := do
  let item ← FRItem.new 0 []
  let s ← RC.sum [] (0 : ℚ) ⊤
  let acc ← s.integral
  pure { funs := fun _ => none, list := ⟨[⟨item.time, item.values, none⟩], some 0, some 0⟩, acc := acc }

/-- `extend` (src/core/flow_rates_collection.py:84-103). -/
def extend (c : FRP) (time : ℚ) (values : Rates) (valuesSum : ℚ) : Py FRP := do
  let item ← FRItem.new time values
  match c.list.tail with
  | none => do
    let d ← FRC.freshLoop time values c.funs
    let acc ← c.acc.extendWithSlope time valuesSum
    pure { funs := d, list := c.list.append item, acc := acc }
  | some p =>
    match c.list.store[p]? with
    | none => .error .attribute
    | some tail => do
      pyAssert (tail.time ≤ time + eps)
      let d ← FRC.extendLoop time values c.funs
      let d ← FRC.dropLoop time values tail.values d
      let acc ← c.acc.extendWithSlope time valuesSum
      pure { funs := d, list := c.list.append item, acc := acc }

/-- `get_values_at_time` (src/core/flow_rates_collection.py:105-116). -/
def getValuesAtTime (c : FRP) (time : ℚ) : Py (Rates × FRP) :=
  match c.list.head with
  | none => .ok ([], c)
  | some p =>
    match c.list.store[p]? with
    | none => .error .attribute
    | some nd =>
      if nd.time > time then .error .value
      else do
        let q ← FRList.advance c.list.store time c.list.store.length p
        match c.list.store[q]? with
        | none => .error .attribute
        | some nq => pure (nq.values, { c with list := { c.list with head := some q } })

/-- `__getstate__` (src/core/flow_rates_collection.py:53-66). -/
def getstate (c : FRP) : Py FRPickle := do
  let q ← FRList.unroll c.list.store (c.list.store.length + 1) c.list.head
  pure ⟨c.funs, c.acc, q⟩

/-- The loop of `__setstate__` (src/core/flow_rates_collection.py:77-83). -/
def rebuild : List FRItem → FRList → Py FRList
  | [], l => .ok l
  | i :: is, l => do
    let item ← FRItem.new i.time i.values
    rebuild is (l.append item)

/-- `__setstate__` (src/core/flow_rates_collection.py:68-83). An empty list has both references `None`. -/
def setstate (s : FRPickle) : Py FRP := do
  let l ← rebuild s.queue ⟨[], none, none⟩
  pure ⟨s.funs, l, s.acc⟩

end FRP
end Verif
