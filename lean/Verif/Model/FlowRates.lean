import Verif.Model.RightConstant

/-! Model of src/core/flow_rates_collection.py.

The linked list from `_queue_head` to `_queue_tail` is a list (empty: both pointers `None`); see
Verif/Model/FlowRatesLinked.lean for the pointer structure itself. The dict of step functions is a
partial function; a dict of rates is an association list with distinct keys. -/

namespace Verif

/-- A `Dict[int, float]` of rates by commodity, in iteration order. -/
abbrev Rates := List (Nat × ℚ)

namespace Rates

/-- `d.get(i, 0)`. -/
def get (v : Rates) (i : Nat) : ℚ := (v.lookup i).getD 0

/-- `i in d`. -/
def has (v : Rates) (i : Nat) : Bool := (v.lookup i).isSome

/-- `sum(d.values())` (src/core/dynamic_flow.py:176). -/
def total (v : Rates) : ℚ := (v.map Prod.snd).sum

/-- `d1 == d2` on dicts: same size and every pair of the first is in the second
(src/core/dynamic_flow.py:174). -/
def dictEq (a b : Rates) : Bool := a.length == b.length && a.all (fun p => b.lookup p.1 == some p.2)

/-- `{i: factor * value for i, value in d.items()}` (src/core/dynamic_flow.py:123, 143). -/
def scale (c : ℚ) (v : Rates) : Rates := v.map (fun p => (p.1, c * p.2))

end Rates

/-- `FlowRatesCollectionItem` without its link (src/core/flow_rates_collection.py:11-20). -/
structure FRItem where
  time : ℚ
  values : Rates
  deriving DecidableEq

/-- `FlowRatesCollectionItem(time, values)` with its assertion (src/core/flow_rates_collection.py:16-20). -/
def FRItem.new (time : ℚ) (values : Rates) : Py FRItem := do
  pyAssert (∀ p ∈ values, 0 < p.2)
  pure ⟨time, values⟩

/-- State of a `FlowRatesCollection` (src/core/flow_rates_collection.py:23-27). -/
structure FRC where
  funs : Nat → Option RC
  queue : List FRItem
  acc : PL

namespace FRC

/-- `_new_flow_fn` (src/core/flow_rates_collection.py:118-120). -/
def newFn : Py RC := RC.new [0] [0] (0 : ℚ) ⊤

/-- `FlowRatesCollection()` without initial functions (src/core/flow_rates_collection.py:29-51). -/
def empty : Py FRC := do
  let item ← FRItem.new 0 []
  let s ← RC.sum [] (0 : ℚ) ⊤
  let acc ← s.integral
  pure { funs := fun _ => none, queue := [item], acc := acc }

/-- `times` of the constructor (src/core/flow_rates_collection.py:36-38): all break points, merged in turn. -/
def mergeTimes : List (Nat × RC) → List ℚ → List ℚ
  | [], times => times
  | p :: l, times => mergeTimes l (mergeSorted times p.2.times)

/-- `{i: fun(time) for i, fun in functions_dict.items() if fun(time) > 0.0}` (src/core/flow_rates_collection.py:42-46). -/
def positiveAt (time : ℚ) : List (Nat × RC) → Py Rates
  | [] => .ok []
  | (i, f) :: l => do
    let x ← f.eval time
    let rest ← positiveAt time l
    pure (if x > 0 then (i, x) :: rest else rest)

/-- The loop of the constructor (src/core/flow_rates_collection.py:39-49). -/
def itemsAt (l : List (Nat × RC)) : List ℚ → Py (List FRItem)
  | [] => .ok []
  | t :: ts => do
    let v ← positiveAt t l
    let item ← FRItem.new t v
    let rest ← itemsAt l ts
    pure (item :: rest)

/-- `FlowRatesCollection(functions_dict)` (src/core/flow_rates_collection.py:29-49); the dict has distinct keys. -/
def ofDict (l : List (Nat × RC)) : Py FRC := do
  let item ← FRItem.new 0 []
  let s ← RC.sum (l.map Prod.snd) (0 : ℚ) ⊤
  let acc ← s.integral
  let items ← itemsAt l (mergeTimes l [])
  pure { funs := fun i => l.lookup i, queue := item :: items, acc := acc }

/-- `d[i] = f`. -/
def put (d : Nat → Option RC) (i : Nat) (f : RC) : Nat → Option RC := fun j => if j = i then some f else d j

/-- `self._functions_dict[i]`, after inserting a new function if `i` is missing
(src/core/flow_rates_collection.py:95-97). -/
def entry (d : Nat → Option RC) (i : Nat) : Py RC :=
  match d i with
  | none => newFn
  | some f => .ok f

/-- `for i, value in values.items(): ...` of `extend` (src/core/flow_rates_collection.py:94-97). -/
def extendLoop (time : ℚ) : Rates → (Nat → Option RC) → Py (Nat → Option RC)
  | [], d => .ok d
  | (i, v) :: rest, d => do
    let f ← entry d i
    let f ← f.extend time v
    extendLoop time rest (put d i f)

/-- `for i in self._queue_tail.values: if i not in values: ...extend(time, 0.0)`
(src/core/flow_rates_collection.py:98-100). -/
def dropLoop (time : ℚ) (values : Rates) : Rates → (Nat → Option RC) → Py (Nat → Option RC)
  | [], d => .ok d
  | (i, _) :: rest, d =>
    if values.has i then dropLoop time values rest d
    else
      match d i with
      | none => .error .key
      | some f => do
        let f ← f.extend time 0
        dropLoop time values rest (put d i f)

/-- The first loop when the tail is `None`: always a new function
(src/core/flow_rates_collection.py:89-91). -/
def freshLoop (time : ℚ) : Rates → (Nat → Option RC) → Py (Nat → Option RC)
  | [], d => .ok d
  | (i, v) :: rest, d => do
    let f ← newFn
    let f ← f.extend time v
    freshLoop time rest (put d i f)

/-- `extend` (src/core/flow_rates_collection.py:84-103). -/
def extend (c : FRC) (time : ℚ) (values : Rates) (valuesSum : ℚ) : Py FRC := do
  let item ← FRItem.new time values
  match c.queue.getLast? with
  | none => do
    let d ← freshLoop time values c.funs
    let acc ← c.acc.extendWithSlope time valuesSum
    pure { funs := d, queue := [item], acc := acc }
  | some tail => do
    pyAssert (tail.time ≤ time + eps)
    let d ← extendLoop time values c.funs
    let d ← dropLoop time values tail.values d
    let acc ← c.acc.extendWithSlope time valuesSum
    pure { funs := d, queue := c.queue ++ [item], acc := acc }

/-- The `while` loop of `get_values_at_time` (src/core/flow_rates_collection.py:111-115): moves the
head. -/
def advanceHead (time : ℚ) : List FRItem → List FRItem
  | a :: b :: l => if b.time ≤ time then advanceHead time (b :: l) else a :: b :: l
  | l => l

/-- `get_values_at_time` (src/core/flow_rates_collection.py:105-116). -/
def getValuesAtTime (c : FRC) (time : ℚ) : Py (Rates × FRC) :=
  match c.queue with
  | [] => .ok ([], c)
  | h :: l =>
    if h.time > time then .error .value
    else
      match advanceHead time (h :: l) with
      | [] => .ok ([], c)
      | a :: r => .ok (a.values, { c with queue := a :: r })

/-- `_functions_dict[i]` read as a rate at time `x`, absent commodities having rate 0 (as in
src/core/dynamic_flow.py:207-212). -/
def rateAt (c : FRC) (i : Nat) (x : ℚ) : Py ℚ :=
  match c.funs i with
  | none => .ok 0
  | some f => f.eval x

end FRC
end Verif
