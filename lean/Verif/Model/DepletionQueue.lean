import Verif.Model.DynamicFlow

/-! Histories of calls of a `DepletionQueue` (src/core/dynamic_flow.py:17-67). -/

namespace Verif
namespace DepQ

/-- `__contains__` (src/core/dynamic_flow.py:41-42). -/
def has (q : DepQ) (e : Nat) : Bool := q.depletions.has e

/-- `__len__` (src/core/dynamic_flow.py:44-45). -/
def len (q : DepQ) : Nat := q.depletions.len

/-- `min_change_time` (src/core/dynamic_flow.py:53-54). -/
def minChangeTime (q : DepQ) : Py EVal := q.changeTimes.minKey

/-- `min_depletion` (src/core/dynamic_flow.py:56-57). -/
def minDepletion (q : DepQ) : Py EVal := q.depletions.minKey

/-- The calls of the class (src/core/dynamic_flow.py:27-67). -/
inductive Call
  | set (e : Nat) (depl : ℚ) (change : Option (ℚ × (Rates × ℚ)))
  | remove (e : Nat)
  | pop
  | contains (e : Nat)
  | size
  | minDepletion
  | minChangeTime

/-- What the caller sees of a call. -/
inductive Answer
  | nothing
  | raised
  | popped (e : Nat) (depl : ℚ) (change : Option (ℚ × (Rates × ℚ)))
  | yes (b : Bool)
  | number (n : Nat)
  | key (k : EVal)
  deriving DecidableEq

/-- One call (src/core/dynamic_flow.py:27-67): the answer and the queue after it. Simplified: a call that raises leaves the queue as it was. In the code
this holds for `remove` of an edge that is not in the queue and for `pop_by_depletion` of an empty queue, where the first call that changes something raises
before it changes anything (src/utilities/queues.py:59, 159); the theorem says that no other call raises. -/
def call (q : DepQ) : Call → Answer × DepQ
  | .set e depl change => match q.set e depl change with
    | .ok q' => (.nothing, q')
    | .error _ => (.raised, q)
  | .remove e => match q.remove e with
    | .ok q' => (.nothing, q')
    | .error _ => (.raised, q)
  | .pop => match q.popByDepletion with
    | .ok (e, depl, change, q') => (.popped e depl change, q')
    | .error _ => (.raised, q)
  | .contains e => (.yes (q.has e), q)
  | .size => (.number q.len, q)
  | .minDepletion => match q.minDepletion with
    | .ok k => (.key k, q)
    | .error _ => (.raised, q)
  | .minChangeTime => match q.minChangeTime with
    | .ok k => (.key k, q)
    | .error _ => (.raised, q)

/-- A history of calls (src/core/dynamic_flow.py:27-67). -/
def run (q : DepQ) : List Call → List Answer
  | [] => []
  | c :: cs => (q.call c).1 :: run (q.call c).2 cs

end DepQ
end Verif
