import Verif.Model.Prelude
import Mathlib.Order.BoundedOrder.Basic
import Mathlib.Data.Prod.Lex

/-! Model of src/utilities/queues.py (`PriorityQueue`).

Keys are any linear order with a least and a greatest element (Python: floats with `-inf`, `inf`,
without NaN). Items are any type with decidable equality (Python: hashable). The dict
`_index_dict` is a partial function. -/

namespace Verif

/-- `data[i] = x`: `IndexError` when out of range. -/
def wr {α : Type _} (l : List α) (i : Nat) (x : α) : Py (List α) :=
  if i < l.length then .ok (l.set i x) else .error .index

/-- A heap entry `(key, counter, item)` (src/utilities/queues.py:13). -/
structure Entry (K T : Type _) where
  key : K
  ctr : Int
  item : T
  deriving DecidableEq, Repr

/-- The state of a `PriorityQueue` (src/utilities/queues.py:13-15). -/
structure Heap (K T : Type _) where
  data : List (Entry K T)
  index : T → Option Nat
  ctr : Nat

namespace Heap
variable {K T : Type _} [LinearOrder K] [DecidableEq T]

/-- `d[k] = v` on a dict. -/
def upd (d : T → Option Nat) (x : T) (i : Nat) : T → Option Nat :=
  fun y => if y = x then some i else d y

/-- `d.pop(k)` on a dict: `KeyError` when missing. -/
def dpop (d : T → Option Nat) (x : T) : Py (T → Option Nat) :=
  match d x with
  | none => .error .key
  | some _ => .ok (fun y => if y = x then none else d y)

/-- `d[k]` on a dict: `KeyError` when missing. -/
def dget (d : T → Option Nat) (x : T) : Py Nat :=
  match d x with
  | none => .error .key
  | some i => .ok i

/-- Tuple comparison `a < b` on entries: key, then counter. If both tie Python would go on to compare
the items, which need not be comparable: modelled as a `TypeError`. -/
def entLt (a b : Entry K T) : Py Bool :=
  if a.key < b.key then .ok true
  else if b.key < a.key then .ok false
  else if a.ctr < b.ctr then .ok true
  else if b.ctr < a.ctr then .ok false
  else .error .typeErr

/-- Tuple comparison `a >= b`; equal tuples compare equal without comparing items by order. -/
def entGe (a b : Entry K T) : Py Bool :=
  if a.key < b.key then .ok false
  else if b.key < a.key then .ok true
  else if a.ctr < b.ctr then .ok false
  else if b.ctr < a.ctr then .ok true
  else if a.item = b.item then .ok true
  else .error .typeErr

/-- The loop and final writes of `_siftdown` (src/utilities/queues.py:40-50). First argument: fuel. -/
def siftdownLoop (startpos : Nat) (newitem : Entry K T) :
    Nat → List (Entry K T) → (T → Option Nat) → Nat → Py (List (Entry K T) × (T → Option Nat))
  | 0, _, _, _ => .error .fuel
  | fuel + 1, data, idx, pos =>
    if pos > startpos then do
      let parentpos := (pos - 1) / 2
      let parent ← rd data parentpos
      if ← entLt newitem parent then do
        let data ← wr data pos parent
        siftdownLoop startpos newitem fuel data (upd idx parent.item pos) parentpos
      else do
        let data ← wr data pos newitem
        pure (data, upd idx newitem.item pos)
    else do
      let data ← wr data pos newitem
      pure (data, upd idx newitem.item pos)

/-- `_siftdown` (src/utilities/queues.py:36-50). -/
def siftdown (h : Heap K T) (startpos pos : Nat) : Py (Heap K T) := do
  let newitem ← rd h.data pos
  let (data, idx) ← siftdownLoop startpos newitem (pos + 1) h.data h.index pos
  pure { h with data := data, index := idx }

/-- The `while childpos < endpos` loop of `_siftup` (src/utilities/queues.py:72-82); returns the data,
the dict and the final hole position. -/
def siftupLoop (endpos : Nat) :
    Nat → List (Entry K T) → (T → Option Nat) → Nat → Py (List (Entry K T) × (T → Option Nat) × Nat)
  | 0, _, _, _ => .error .fuel
  | fuel + 1, data, idx, pos =>
    let childpos := 2 * pos + 1
    if childpos < endpos then do
      let rightpos := childpos + 1
      let childpos ← (do
        if rightpos < endpos then do
          let c ← rd data childpos
          let r ← rd data rightpos
          if ← entLt c r then pure childpos else pure rightpos
        else pure childpos : Py Nat)
      let c ← rd data childpos
      let data ← wr data pos c
      siftupLoop endpos fuel data (upd idx c.item pos) childpos
    else .ok (data, idx, pos)

/-- `_siftup` (src/utilities/queues.py:66-87). -/
def siftup (h : Heap K T) (pos : Nat) : Py (Heap K T) := do
  let endpos := h.data.length
  let newitem ← rd h.data pos
  let (data, idx, pos') ← siftupLoop endpos (endpos + 1) h.data h.index pos
  let data ← wr data pos' newitem
  siftdown { h with data := data, index := upd idx newitem.item pos' } pos pos'

/-- The empty queue (src/utilities/queues.py:23-26). -/
def empty : Heap K T := { data := [], index := fun _ => none, ctr := 0 }

/-- `heapq.heapify`: `for i in reversed(range(n//2)): _siftup(x, i)` (CPython library; the moves of
`heapq._siftup` are those of `PriorityQueue._siftup`, whose dict is ignored here). `n` counts down. -/
def heapifyLoop : Nat → Heap K T → Py (Heap K T)
  | 0, h => .ok h
  | n + 1, h => do
    let h ← siftup h n
    heapifyLoop n h

/-- `{item: i for i, (_, _, item) in enumerate(data)}`: later positions overwrite earlier ones. -/
def enumDict : Nat → List (Entry K T) → (T → Option Nat) → (T → Option Nat)
  | _, [], d => d
  | i, e :: l, d => enumDict (i + 1) l (upd d e.item i)

/-- `PriorityQueue(initial)` (src/utilities/queues.py:17-26). -/
def ofList (initial : List (T × K)) : Py (Heap K T) :=
  if initial = [] then .ok empty
  else do
    let data : List (Entry K T) := initial.zipIdx.map (fun p => ⟨p.1.2, (p.2 : Int), p.1.1⟩)
    let h ← heapifyLoop (data.length / 2) { data := data, index := fun _ => none, ctr := data.length }
    pure { h with index := enumDict 0 h.data (fun _ => none) }

/-- `push` (src/utilities/queues.py:28-34). -/
def push (h : Heap K T) (item : T) (key : K) : Py (Heap K T) := do
  pyAssert ((h.index item).isNone = true)
  let data := h.data ++ [⟨key, (h.ctr : Int), item⟩]
  let h' ← siftdown { h with data := data, index := upd h.index item (data.length - 1) } 0 (data.length - 1)
  pure { h' with ctr := h'.ctr + 1 }

/-- `pop` (src/utilities/queues.py:52-64). -/
def pop (h : Heap K T) : Py (Heap K T × T) := do
  let lastelt ← rdLast h.data
  let data := h.data.dropLast
  let idx ← dpop h.index lastelt.item
  if data ≠ [] then do
    let returnitem ← rd data 0
    let idx ← dpop idx returnitem.item
    let data ← wr data 0 lastelt
    let h' ← siftup { h with data := data, index := upd idx lastelt.item 0 } 0
    pure (h', returnitem.item)
  else pure ({ h with data := data, index := idx }, lastelt.item)

/-- `next` (src/utilities/queues.py:89-90). -/
def next (h : Heap K T) : Py T := do
  let e ← rd h.data 0
  pure e.item

/-- `has` / `in` (src/utilities/queues.py:114-118). -/
def has (h : Heap K T) (item : T) : Bool := (h.index item).isSome

/-- `key_of` (src/utilities/queues.py:92-95); `none` is the default. -/
def keyOf (h : Heap K T) (item : T) : Py (Option K) :=
  match h.index item with
  | none => .ok none
  | some i => do
    let e ← rd h.data i
    pure (some e.key)

/-- `decrease_key` (src/utilities/queues.py:97-101). -/
def decreaseKey (h : Heap K T) (item : T) (key : K) : Py (Heap K T) := do
  pyAssert ((h.index item).isSome = true)
  let pos ← dget h.index item
  let old ← rd h.data pos
  let data ← wr h.data pos ⟨key, old.ctr, item⟩
  siftdown { h with data := data } 0 pos

/-- `min_key` (src/utilities/queues.py:103-104). -/
def minKey [OrderTop K] (h : Heap K T) : Py K :=
  if h.data.length = 0 then .ok ⊤
  else do
    let e ← rd h.data 0
    pure e.key

/-- `__len__` (src/utilities/queues.py:111-112). -/
def len (h : Heap K T) : Nat := h.data.length

/-- The order of entries, `(key, counter)` lexicographically. -/
def rank (e : Entry K T) : K ×ₗ Int := toLex (e.key, e.ctr)

/-- `sorted` (src/utilities/queues.py:106-109). `heapq.nsmallest(n, data)` with `n = len(data)` is
`sorted(data)` by library contract; comparisons between distinct entries are decided by
(key, counter). -/
def sortedItems (h : Heap K T) : List T :=
  (h.data.mergeSort (fun a b => decide (rank a ≤ rank b))).map Entry.item

/-- `update` (src/utilities/queues.py:120-127). -/
def update (h : Heap K T) (item : T) (newKey : K) : Py (Heap K T) := do
  pyAssert (h.has item = true)
  let index ← dget h.index item
  let old ← rd h.data index
  if newKey ≤ old.key then decreaseKey h item newKey
  else do
    let data ← wr h.data index ⟨newKey, old.ctr, item⟩
    siftup { h with data := data } index

/-- `set` (src/utilities/queues.py:129-133). -/
def set (h : Heap K T) (item : T) (newKey : K) : Py (Heap K T) :=
  if h.has item then update h item newKey else push h item newKey

/-- The loop of `increase_key` (src/utilities/queues.py:141-156). -/
def increaseLoop (newEntry : Entry K T) :
    Nat → List (Entry K T) → (T → Option Nat) → Nat → Py (List (Entry K T) × (T → Option Nat))
  | 0, _, _, _ => .error .fuel
  | fuel + 1, data, idx, pos =>
    let left := 2 * pos + 1
    let right := 2 * pos + 2
    if left < data.length then do
      let smallest ← (do
        if right < data.length then do
          let r ← rd data right
          let l ← rd data left
          if ← entLt r l then pure right else pure left
        else pure left : Py Nat)
      let s ← rd data smallest
      if ← entGe newEntry s then .ok (data, idx)
      else do
        let data ← wr data pos s
        increaseLoop newEntry fuel data (upd idx s.item pos) smallest
    else .ok (data, idx)

/-- `increase_key` (src/utilities/queues.py:135-156). -/
def increaseKey (h : Heap K T) (item : T) (newKey : K) : Py (Heap K T) := do
  pyAssert (h.has item = true)
  let pos ← dget h.index item
  let old ← rd h.data pos
  let newEntry : Entry K T := ⟨newKey, old.ctr, item⟩
  let ge ← entGe newEntry old
  pyAssert (ge = true)
  let (data, idx) ← increaseLoop newEntry (h.data.length + 1) h.data h.index pos
  pure { h with data := data, index := idx }

/-- `remove` (src/utilities/queues.py:158-164). -/
def remove [OrderBot K] (h : Heap K T) (item : T) : Py (Heap K T) := do
  pyAssert (h.has item = true)
  let pos ← dget h.index item
  let data ← wr h.data pos ⟨⊥, -1, item⟩
  let h ← siftdown { h with data := data } 0 pos
  let top ← rd h.data 0
  pyAssert (top.item = item)
  let (h, _) ← pop h
  pure h

end Heap

/-- The operations of a `PriorityQueue` that change it, for histories (`increase_key` is treated
separately). -/
inductive QOp (K T : Type _)
  | push (x : T) (k : K)
  | set (x : T) (k : K)
  | update (x : T) (k : K)
  | decrease (x : T) (k : K)
  | remove (x : T)
  | pop

/-- One call on the concrete queue; `pop` also returns the item. -/
def Heap.step {K T : Type _} [LinearOrder K] [OrderBot K] [DecidableEq T] (h : Heap K T) :
    QOp K T → Py (Heap K T × Option T)
  | .push x k => do let h ← h.push x k; pure (h, none)
  | .set x k => do let h ← h.set x k; pure (h, none)
  | .update x k => do let h ← h.update x k; pure (h, none)
  | .decrease x k => do let h ← h.decreaseKey x k; pure (h, none)
  | .remove x => do let h ← h.remove x; pure (h, none)
  | .pop => do let (h, x) ← h.pop; pure (h, some x)

/-- A history of calls, collecting the outputs. -/
def Heap.run {K T : Type _} [LinearOrder K] [OrderBot K] [DecidableEq T] (h : Heap K T) :
    List (QOp K T) → Py (Heap K T × List (Option T))
  | [] => .ok (h, [])
  | o :: os => do
    let (h, r) ← h.step o
    let (h, rs) ← Heap.run h os
    pure (h, r :: rs)

end Verif
