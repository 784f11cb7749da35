import Verif.Spec.DynamicFlow

/-! When two dicts, two series of calls and two flows are the same for a user. -/

namespace Verif.Spec
open Verif

/-- Equal dicts (`==` in Python): the same keys with the same values, in any order. -/
structure EqualDicts (v w : Rates) : Prop where
  nodup : (v.map Prod.fst).Nodup
  nodup' : (w.map Prod.fst).Nodup
  same : ∀ i, v.lookup i = w.lookup i

/-- Equal dicts of dicts. -/
structure EqualTables (l l' : List (Nat × Rates)) : Prop where
  nodup : (l.map Prod.fst).Nodup
  nodup' : (l'.map Prod.fst).Nodup
  keys : ∀ e, l.lookup e = none ↔ l'.lookup e = none
  vals : ∀ e v w, l.lookup e = some v → l'.lookup e = some w → EqualDicts v w

/-- The same record of an edge: the rates by commodity, the cumulative flows and the queue, as functions with break points and values. -/
structure SameEdge (s t : DFlow) (e : Nat) : Prop where
  inRates : (s.inflow e).funs = (t.inflow e).funs
  inTotal : (s.inflow e).acc = (t.inflow e).acc
  outRates : (s.outflow e).funs = (t.outflow e).funs
  outTotal : (s.outflow e).acc = (t.outflow e).acc
  queue : s.queues e = t.queues e

/-- The same record: the time and the records of all edges. -/
structure SameRecord (s t : DFlow) : Prop where
  phi : s.phi = t.phi
  edge : ∀ e, SameEdge s t e

/-- The same outflow rates are read off edge `e`. -/
def SameReading (s t : DFlow) (e : Nat) : Prop :=
  ∃ v w s' t', s.lookOutflow e = .ok (v, s') ∧ t.lookOutflow e = .ok (w, t') ∧ EqualDicts v w

/-- Two series of calls: the same extensions, with equal dicts, and any readings of outflow rates in between. -/
inductive Alike : List FlowCall → List FlowCall → Prop
  | nil : Alike [] []
  | extend {l l' : List (Nat × Rates)} {cs cs' : List FlowCall} (T : ℚ) : EqualTables l l' → Alike cs cs' → Alike (.extend l T :: cs) (.extend l' T :: cs')
  | left {cs cs' : List FlowCall} (e : Nat) : Alike cs cs' → Alike (.look e :: cs) cs'
  | right {cs cs' : List FlowCall} (e : Nat) : Alike cs cs' → Alike cs (.look e :: cs')

/-- The same rates given to an edge, at the same times. -/
def SameGiven (h h' : List (ℚ × Rates)) : Prop := List.Forall₂ (fun p q => p.1 = q.1 ∧ EqualDicts p.2 q.2) h h'

/-- All dicts of the calls have distinct keys. -/
def KeysOk (cs : List FlowCall) : Prop :=
  ∀ c ∈ cs, ∀ l T, c = .extend l T → (l.map Prod.fst).Nodup ∧ ∀ p ∈ l, (p.2.map Prod.fst).Nodup

end Verif.Spec
