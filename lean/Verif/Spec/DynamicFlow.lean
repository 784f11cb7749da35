import Verif.Model.DynamicFlow
import Verif.Spec.Functions

/-! Valid calls of `DynamicFlow.extend`: which inflows are admissible, and when none of the tolerances of
the code is touched. -/

namespace Verif.Spec
open Verif

/-- The network has positive capacities and non-negative travel times. -/
structure NetOk (net : EdgeData) : Prop where
  cap : ∀ e, 0 < net.capacity e
  tt : ∀ e, 0 ≤ net.travelTime e

/-- A valid dict of rates: distinct commodities, positive values. -/
structure RatesOk (v : Rates) : Prop where
  nodup : (v.map Prod.fst).Nodup
  pos : ∀ p ∈ v, 0 < p.2

/-- The total outflow that an inflow of total rate `a` causes behind a queue of length `q`. -/
def outTotal (cap q a : ℚ) : ℚ := if a = 0 then 0 else if q = 0 then min a cap else cap

/-- The slope of the queue after the inflow changes to total rate `a` while the queue has length `q`. -/
def queueSlope (cap q a : ℚ) : ℚ := if q = 0 then max (a - cap) 0 else a - cap

/-- Setting the rates `v` at time `φ` on an edge with queue `q` touches no tolerance. Before, the inflow
was last changed at `Lin` to `Vin` (total `Rin`), the outflow at `Lout` to `Vout` (total `Rout`), and the
queue at `b` to slope `σ`. -/
structure ClearSet (cap tt φ q : ℚ) (v : Rates) (Lin : ℚ) (Vin : Rates) (Rin Lout : ℚ) (Vout : Rates) (Rout b σ : ℚ) : Prop where
  inTime : Far eps Lin φ
  inSum : Far eps Rin v.total
  inRates : ∀ i, Far eps (Vin.get i) (v.get i)
  outTime : Far eps Lout (φ + q / cap + tt)
  outSum : Far eps Rout (outTotal cap q v.total)
  outRates : ∀ i, Far eps (Vout.get i) (outTotal cap q v.total / v.total * v.get i)
  qTime : Far eps b φ
  qSlope : Far eps σ (queueSlope cap q v.total)
  drain : 0 < q → v.total < cap → eps < cap - v.total ∧ eps < q / (cap - v.total)
  refill : 0 < q → v.total < cap → 0 < v.total →
    Far eps (φ + q / cap + tt) (φ + q / (cap - v.total) + tt) ∧ ∀ i, Far eps (cap / v.total * v.get i) (v.get i)

/-- `ClearSet`, read off the state of the flow. -/
def Clear (net : EdgeData) (s : DFlow) (e : Nat) (v : Rates) : Prop :=
  ∀ (q : ℚ) (lin lout : FRItem) (b : ℚ), (s.queues e).eval s.phi = .ok q →
    (s.inflow e).queue.getLast? = some lin → (s.outflow e).queue.getLast? = some lout →
    (s.queues e).times.getLast? = some b →
    ClearSet (net.capacity e) (net.travelTime e) s.phi q v lin.time lin.values (s.inflow e).acc.last
      lout.time lout.values (s.outflow e).acc.last b (s.queues e).last

/-- A valid call `extend(new_inflow, T)`: `T` is not in the past, the dict has distinct edges and valid rates,
and setting those that differ from the current rates touches no tolerance. -/
structure CallOk (net : EdgeData) (s : DFlow) (l : List (Nat × Rates)) (T : ℚ) : Prop where
  time : s.phi ≤ T
  nodup : (l.map Prod.fst).Nodup
  rates : ∀ p ∈ l, RatesOk p.2
  clear : ∀ p ∈ l, ∀ cur c, (s.inflow p.1).getValuesAtTime s.phi = .ok (cur, c) → cur.dictEq p.2 = false →
    Clear net s p.1 p.2

/-- A call on a flow: `extend`, or reading the current outflow rates of an edge. -/
inductive FlowCall where
  | extend (newInflow : List (Nat × Rates)) (T : ℚ)
  | look (e : Nat)

/-- The state after one call. -/
def stepFlow (net : EdgeData) (s : DFlow) : FlowCall → Py DFlow
  | .extend l T => do
    let (s', _) ← s.extend net l T
    pure s'
  | .look e => do
    let (_, s') ← s.lookOutflow e
    pure s'

/-- Calls in turn. -/
def runFlow (net : EdgeData) : DFlow → List FlowCall → Py DFlow
  | s, [] => .ok s
  | s, c :: calls => do
    let s' ← stepFlow net s c
    runFlow net s' calls

/-- Every call of `extend` is valid in the state it meets. -/
def CallsOk (net : EdgeData) : DFlow → List FlowCall → Prop
  | _, [] => True
  | s, c :: calls => (∀ l T, c = .extend l T → CallOk net s l T) ∧ ∀ s', stepFlow net s c = .ok s' → CallsOk net s' calls

/-- No call of `extend` goes back in time. -/
def TimesOk (net : EdgeData) : DFlow → List FlowCall → Prop
  | _, [] => True
  | s, c :: calls => (∀ l T, c = .extend l T → s.phi ≤ T) ∧ ∀ s', stepFlow net s c = .ok s' → TimesOk net s' calls

/-- The inflow rates given to edge `e`, with the time of the call. -/
def given (net : EdgeData) (e : Nat) : DFlow → List FlowCall → List (ℚ × Rates)
  | _, [] => []
  | s, c :: calls =>
    (match c with
     | .extend l _ => ((l.lookup e).map (fun v => (s.phi, v))).toList
     | .look _ => []) ++
    (match stepFlow net s c with
     | .ok s' => given net e s' calls
     | .error _ => [])

/-- The rate of commodity `i` at time `t`: that of the last entry not later than `t`. -/
def givenRate (h : List (ℚ × Rates)) (i : Nat) (t : ℚ) : ℚ :=
  match (h.filter (fun p => decide (p.1 ≤ t))).getLast? with
  | none => 0
  | some p => p.2.get i

/-- What has been given up to time `t` if the rates are given one after the other from the times on. -/
def givenTotal (h : List (ℚ × Rates)) : ℚ → ℚ :=
  h.foldl (fun F p t => if t ≤ p.1 then F t else F p.1 + p.2.total * (t - p.1)) (fun _ => 0)

end Verif.Spec
