import Verif.Model.AvgTravelTime

/-! Model of flows that are written to files and loaded again (src/core/dynamic_flow.py:97-106). A `DynamicFlow` does not save its network; after loading, the attribute `_network` is missing until it
is assigned. Collections are saved and restored as in Model/FlowRatesLinked; here their event list is a list, so restoring it makes its items anew. All other attributes are kept by `pickle`. -/

namespace Verif.SavedFlow
open Verif Builder

/-- A `DynamicFlow` object: its data, its attribute `_network` if there is one, and the attribute `network` that src/ml/generate_queues.py:222, 283 assigns. -/
structure Obj (P : Type) where
  flow : DFlow
  own : Option (Network P)
  extra : Option (Network P)

/-- What is in a file: the state without `_network` (src/core/dynamic_flow.py:97-102). -/
structure File (P : Type) where
  flow : DFlow
  extra : Option (Network P)

variable {P : Type}

/-- `DynamicFlow(network)` (src/core/dynamic_flow.py:86-95). -/
def new (n : Network P) : Py (Obj P) := do
  let s ← DFlow.init
  pure ⟨s, some n, none⟩

/-- `__getstate__` (src/core/dynamic_flow.py:97-102): `del state["_network"]` raises `KeyError` if there is none. -/
def save (o : Obj P) : Py (File P) :=
  match o.own with
  | none => .error .key
  | some _ => .ok ⟨o.flow, o.extra⟩

/-- `FlowRatesCollection.__setstate__` (src/core/flow_rates_collection.py:66-83): new items, with their assertion. -/
def loadRates (c : FRC) : Py FRC := do
  let q ← mapPy (fun i : FRItem => FRItem.new i.time i.values) c.queue
  pure { c with queue := q }

/-- The list of collections of the given edges. -/
def loadAll : List Nat → (Nat → FRC) → Py (Nat → FRC)
  | [], d => .ok d
  | e :: es, d => do
    let c ← loadRates (d e)
    loadAll es (setAt d e c)

/-- `pickle.load` of a flow on `m` edges, with `__setstate__` (src/core/dynamic_flow.py:104-106). -/
def load (m : Nat) (f : File P) : Py (Obj P) := do
  let i ← loadAll (List.range m) f.flow.inflow
  let o ← loadAll (List.range m) f.flow.outflow
  pure ⟨{ f.flow with inflow := i, outflow := o }, none, f.extra⟩

/-- `extend` (src/core/dynamic_flow.py:178-217): the first thing it does is to read `self._network.capacity`. -/
def extend (o : Obj P) (l : List (Nat × Rates)) (T : ℚ) : Py (List Nat × Obj P) :=
  match o.own with
  | none => .error .attribute
  | some n => do
    let (s, changed) ← o.flow.extend n.data l T
    pure (changed, { o with flow := s })

/-- `avg_travel_time` (src/core/dynamic_flow.py:219-240): the first thing it does is to read `self._network.commodities`. -/
def average (o : Obj P) (i : Nat) (horizon : ℚ) : Py ℚ :=
  match o.own with
  | none => .error .attribute
  | some n => AvgTravelTime.avgTravelTime n o.flow i horizon

/-- `flow.outflow[e].get_values_at_time(flow.phi)`. -/
def look (o : Obj P) (e : Nat) : Py (Rates × Obj P) := do
  let (v, s) ← o.flow.lookOutflow e
  pure (v, { o with flow := s })

/-- `flow._network = network` (src/eval/evaluate.py:179, src/ml/build_test_flows.py:93). -/
def reset (o : Obj P) (n : Network P) : Obj P := { o with own := some n }

/-- `flow.network = network` (src/ml/generate_queues.py:222, 283): a new attribute. -/
def annotate (o : Obj P) (n : Network P) : Obj P := { o with extra := some n }

end Verif.SavedFlow
