import Verif.Model.Combine
import Verif.Model.FlowBuilder

/-! Model of `merge_commodities` (src/visualization/to_json.py:11-36). A collection's dict of functions is given by its items in iteration order. -/

namespace Verif
namespace Merge

/-- `d[i] = f`: in place if the key is there, else at the end (src/visualization/to_json.py:24). -/
def setD (i : Nat) (f : RC) : List (Nat × RC) → List (Nat × RC)
  | [] => [(i, f)]
  | (j, g) :: l => if j = i then (j, f) :: l else (j, g) :: setD i f l

/-- The loop over the items of the old dict (src/visualization/to_json.py:22-28). The second and third branch are those of
`Combine.addSource`: set `new_d[new_comm_id]`, or add to it. -/
def mergeLoop (cs : List Nat) (k : Nat) : List (Nat × RC) → List (Nat × RC) → Py (List (Nat × RC))
  | [], d => .ok d
  | (i, f) :: l, d =>
    if i ∉ cs then mergeLoop cs k l (setD i f d)
    else do
      let d ← Combine.addSource k f d
      mergeLoop cs k l d

/-- `if new_comm_id in new_d: new_d[new_comm_id] = new_d[new_comm_id].simplify()` (src/visualization/to_json.py:29-30). -/
def simplifyAt (k : Nat) (d : List (Nat × RC)) : Py (List (Nat × RC)) :=
  match d.lookup k with
  | none => .ok d
  | some f => do
    let g ← f.simplify
    pure (setD k g d)

/-- `merge_collection` (src/visualization/to_json.py:20-31). -/
def mergeCollection (cs : List Nat) (k : Nat) (items : List (Nat × RC)) : Py FRC := do
  let d ← mergeLoop cs k items []
  let d ← simplifyAt k d
  FRC.ofDict d

/-- The body of `merge_commodities` for a new commodity id (src/visualization/to_json.py:16-36). -/
def mergeInto (flow : DFlow) (m : Nat) (cs : List Nat) (k : Nat) (inItems outItems : Nat → List (Nat × RC)) : Py DFlow := do
  let new ← DFlow.init
  let inflow ← Builder.mapPy (fun e => mergeCollection cs k (inItems e)) (List.range m)
  let outflow ← Builder.mapPy (fun e => mergeCollection cs k (outItems e)) (List.range m)
  pure { new with queues := flow.queues, inflow := fun e => inflow.getD e (new.inflow e), outflow := fun e => outflow.getD e (new.outflow e) }

/-- `merge_commodities(flow, network, commodities)` (src/visualization/to_json.py:11-36) for `m` edges. -/
def mergeCommodities (flow : DFlow) (m : Nat) (cs : List Nat) (inItems outItems : Nat → List (Nat × RC)) : Py DFlow :=
  match cs.min? with
  | none => .ok flow
  | some k => mergeInto flow m cs k inItems outItems

end Merge
end Verif
