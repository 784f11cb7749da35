import Verif.Proofs.DepQ
import Verif.Spec.DynamicFlow
import Verif.Proofs.Fluid
import Verif.Proofs.FlowRatesRun

/-! What the steps of src/core/dynamic_flow.py do, with the event queues read as maps. -/

namespace Verif
namespace DFlow

/-- The event queues of `s` hold the planned depletions `P` and the outflow changes `C`. -/
structure Rep (net : EdgeData) (s : DFlow) (P : Nat → Pend) (C : Nat × ℚ → Bool) : Prop where
  deps : s.deps.Rep net.travelTime P
  chg : s.changes.Rep (fun p => if C p then some (ev p.2) else none)

/-- Adding a change event. -/
def addC (C : Nat × ℚ → Bool) (p : Nat × ℚ) : Nat × ℚ → Bool := fun x => decide (x = p) || C x

theorem addC_self (C : Nat × ℚ → Bool) (p : Nat × ℚ) : addC C p p = true := by simp [addC]
theorem addC_iff {C : Nat × ℚ → Bool} {p x : Nat × ℚ} : addC C p x = true ↔ x = p ∨ C x = true := by simp [addC]

theorem chg_set {h : Heap EVal (Nat × ℚ)} {C : Nat × ℚ → Bool} (hr : h.Rep (fun p => if C p then some (ev p.2) else none))
    (p : Nat × ℚ) : ∃ h', h.set p (ev p.2) = .ok h' ∧ h'.Rep (fun x => if addC C p x then some (ev x.2) else none) := by
  obtain ⟨h', e, r⟩ := hr.set p (ev p.2)
  refine ⟨h', e, r.congr (fun x => ?_)⟩
  by_cases hx : x = p
  · subst hx; simp [addC]
  · simp [addC, hx]

/-- What a new inflow makes of an edge. -/
structure Plan where
  out : Rates
  outSum : ℚ
  slope : ℚ
  dep : Pend

/-- The three cases of `extend` (src/core/dynamic_flow.py:108-165, 197-202). -/
def plan (cap φ q : ℚ) (v : Rates) : Plan :=
  if v.total = 0 then ⟨[], 0, if q = 0 then 0 else -cap, if q > 0 then some (φ + q / cap, none) else none⟩
  else if q = 0 ∨ v.total ≥ cap - eps then
    ⟨v.scale (min cap v.total / v.total), min cap v.total, max (v.total - cap) 0, none⟩
  else ⟨v.scale (cap / v.total), cap, v.total - cap, some (φ - q / (v.total - cap), some (v, v.total))⟩

/-- The assertion that the queue is almost empty at the planned depletion. -/
def depCheck (q : PL) : Pend → Py Unit
  | none => .ok ()
  | some (D, _) => do
    let w ← q.eval D
    pyAssert (w < 1000 * eps)

theorem setInflow_eq {net : EdgeData} {s : DFlow} {P : Nat → Pend} {C : Nat × ℚ → Bool} (hr : Rep net s P C) {e : Nat} {v cur : Rates}
    {c : FRC} {qv : ℚ} (hcur : (s.inflow e).getValuesAtTime s.phi = .ok (cur, c)) (hq : (s.queues e).evalFromEnd s.phi = .ok qv)
    (hne : cur.dictEq v = false) :
    ∃ ch deps, deps.Rep net.travelTime (DepQ.upd P e (plan (net.capacity e) s.phi (max qv 0) v).dep) ∧
      ch.Rep (fun x => if addC C (e, s.phi + max qv 0 / net.capacity e + net.travelTime e) x then some (ev x.2) else none) ∧
      setInflow net s e v = (do
        let cin ← c.extend s.phi v v.total
        let out ← (s.outflow e).extend (s.phi + max qv 0 / net.capacity e + net.travelTime e)
          (plan (net.capacity e) s.phi (max qv 0) v).out (plan (net.capacity e) s.phi (max qv 0) v).outSum
        let q ← (s.queues e).extendWithSlope s.phi (plan (net.capacity e) s.phi (max qv 0) v).slope
        let _ ← depCheck q (plan (net.capacity e) s.phi (max qv 0) v).dep
        pure { s with inflow := setAt s.inflow e cin, outflow := setAt s.outflow e out, queues := setAt s.queues e q,
                      changes := ch, deps := deps }) := by
  obtain ⟨ch, hch, rch⟩ := chg_set hr.chg (e, s.phi + max qv 0 / net.capacity e + net.travelTime e)
  simp only at hch
  have hq0 : (0 : ℚ) ≤ max qv 0 := le_max_right _ _
  -- what happens to the depletion queue when no depletion is planned
  have hdrop : ∃ deps, deps.Rep net.travelTime (DepQ.upd P e none) ∧
      ∀ k : DepQ → Py DFlow, (if s.deps.depletions.has e then do let d ← s.deps.remove e; k d else k s.deps) = k deps := by
    rw [DepQ.has_rep hr.deps]
    cases hp : P e with
    | none =>
      refine ⟨s.deps, ?_, fun k => by simp⟩
      have : DepQ.upd P e none = P := by
        funext j; unfold DepQ.upd; split
        · rename_i hj; subst hj; exact hp.symm
        · rfl
      rw [this]; exact hr.deps
    | some p =>
      obtain ⟨q', e1, r1⟩ := DepQ.remove_rep hr.deps (e := e) (by rw [hp]; simp)
      exact ⟨q', r1, fun k => by simp [e1]⟩
  have hself : ∀ c' : FRC, setAt (setAt s.inflow e c) e c' = setAt s.inflow e c' := by
    intro c'; funext j; unfold setAt; split <;> rfl
  have hget : setAt s.inflow e c e = c := by simp [setAt]
  generalize hqq : max qv 0 = q at *
  unfold plan
  by_cases ha : v.total = 0
  · rw [if_pos ha]
    simp only
    by_cases hqp : q > 0
    · obtain ⟨deps, ed, rd⟩ := DepQ.set_rep hr.deps e (s.phi + q / net.capacity e) none
      rw [if_pos hqp]
      refine ⟨ch, deps, rd, rch, ?_⟩
      unfold setInflow
      rw [hcur, ok_bind]
      simp only [hne, Bool.false_eq_true, if_false, hget]
      rw [hq, ok_bind]
      simp only [hqq]
      cases e1 : c.extend s.phi v v.total with
      | error er => rfl
      | ok cin =>
        rw [ok_bind, ok_bind, if_pos ha]
        unfold caseI
        simp only [hself]
        cases e2 : (s.outflow e).extend (s.phi + q / net.capacity e + net.travelTime e) [] 0 with
        | error er => rfl
        | ok out =>
          rw [ok_bind, ok_bind, hch, ok_bind]
          cases e3 : (s.queues e).extendWithSlope s.phi (if q = 0 then 0 else -net.capacity e) with
          | error er => rfl
          | ok q' =>
            rw [ok_bind, ok_bind, if_pos hqp]
            simp only [depCheck]
            cases e4 : q'.eval (s.phi + q / net.capacity e) with
            | error er => rfl
            | ok w =>
              rw [ok_bind, ok_bind]
              cases e5 : pyAssert (w < 1000 * eps) with
              | error er => rfl
              | ok u =>
                rw [ok_bind, ok_bind]
                simp only [Option.map_none] at ed
                rw [ed, ok_bind]
    · obtain ⟨deps, rd, hk⟩ := hdrop
      rw [if_neg hqp]
      refine ⟨ch, deps, rd, rch, ?_⟩
      unfold setInflow
      rw [hcur, ok_bind]
      simp only [hne, Bool.false_eq_true, if_false, hget]
      rw [hq, ok_bind]
      simp only [hqq]
      cases e1 : c.extend s.phi v v.total with
      | error er => rfl
      | ok cin =>
        rw [ok_bind, ok_bind, if_pos ha]
        unfold caseI
        simp only [hself]
        cases e2 : (s.outflow e).extend (s.phi + q / net.capacity e + net.travelTime e) [] 0 with
        | error er => rfl
        | ok out =>
          rw [ok_bind, ok_bind, hch, ok_bind]
          cases e3 : (s.queues e).extendWithSlope s.phi (if q = 0 then 0 else -net.capacity e) with
          | error er => rfl
          | ok q' =>
            rw [ok_bind, ok_bind, if_neg hqp]
            exact hk _
  · rw [if_neg ha]
    by_cases hb : q = 0 ∨ v.total ≥ net.capacity e - eps
    · rw [if_pos hb]
      simp only
      obtain ⟨deps, rd, hk⟩ := hdrop
      refine ⟨ch, deps, rd, rch, ?_⟩
      unfold setInflow
      rw [hcur, ok_bind]
      simp only [hne, Bool.false_eq_true, if_false, hget]
      rw [hq, ok_bind]
      simp only [hqq]
      cases e1 : c.extend s.phi v v.total with
      | error er => rfl
      | ok cin =>
        rw [ok_bind, ok_bind, if_neg ha, if_pos hb]
        unfold caseII
        simp only [hself]
        cases e2 : (s.outflow e).extend (s.phi + q / net.capacity e + net.travelTime e)
            (v.scale (min (net.capacity e) v.total / v.total)) (min (net.capacity e) v.total) with
        | error er => rfl
        | ok out =>
          rw [ok_bind, ok_bind, hch, ok_bind]
          cases e3 : (s.queues e).extendWithSlope s.phi (max (v.total - net.capacity e) 0) with
          | error er => rfl
          | ok q' =>
            rw [ok_bind, ok_bind]
            exact hk _
    · rw [if_neg hb]
      simp only
      obtain ⟨deps, ed, rd⟩ := DepQ.set_rep hr.deps e (s.phi - q / (v.total - net.capacity e)) (some (v, v.total))
      refine ⟨ch, deps, rd, rch, ?_⟩
      unfold setInflow
      rw [hcur, ok_bind]
      simp only [hne, Bool.false_eq_true, if_false, hget]
      rw [hq, ok_bind]
      simp only [hqq]
      cases e1 : c.extend s.phi v v.total with
      | error er => rfl
      | ok cin =>
        rw [ok_bind, ok_bind, if_neg ha, if_neg hb]
        unfold caseIII
        simp only [hself]
        cases e2 : (s.outflow e).extend (s.phi + q / net.capacity e + net.travelTime e)
            (v.scale (net.capacity e / v.total)) (net.capacity e) with
        | error er => rfl
        | ok out =>
          rw [ok_bind, ok_bind, hch, ok_bind]
          cases e3 : (s.queues e).extendWithSlope s.phi (v.total - net.capacity e) with
          | error er => rfl
          | ok q' =>
            rw [ok_bind, ok_bind]
            simp only [depCheck]
            cases e4 : q'.eval (s.phi - q / (v.total - net.capacity e)) with
            | error er => rfl
            | ok w =>
              rw [ok_bind, ok_bind]
              cases e5 : pyAssert (w < 1000 * eps) with
              | error er => rfl
              | ok u =>
                rw [ok_bind, ok_bind]
                simp only [Option.map_some] at ed
                rw [ed, ok_bind]

/-- The queue function after a depletion: last value set to 0. -/
def zeroLast (q : PL) : PL := { q with values := q.values.dropLast ++ [0] }

theorem processDepletion_eq {net : EdgeData} {s : DFlow} {P : Nat → Pend} {C : Nat × ℚ → Bool} (hr : Rep net s P C) :
    (s.deps.depletions.len = 0 ∧ ∀ e, P e = none) ∨
    ∃ e D x deps, P e = some (D, x) ∧ s.deps.depletions.len > 0 ∧ s.deps.depletions.minKey = .ok (ev D) ∧
      (∀ j D' x', P j = some (D', x') → D ≤ D') ∧
      DepQ.Rep net.travelTime deps (DepQ.upd P e none) ∧ deps.depletions.len + 1 = s.deps.depletions.len ∧
      (x = none → processDepletion s = (do
        let q ← (s.queues e).extendWithSlope D 0
        let l ← rdLast q.values
        pyAssert (|l| < 1000 * eps)
        pure { s with deps := deps, queues := setAt s.queues e (zeroLast q) })) ∧
      (∀ v a, x = some (v, a) → ∃ ch, ch.Rep (fun x => if addC C (e, D + net.travelTime e) x then some (ev x.2) else none) ∧
        processDepletion s = (do
        let q ← (s.queues e).extendWithSlope D 0
        let l ← rdLast q.values
        pyAssert (|l| < 1000 * eps)
        let out ← (s.outflow e).extend (D + net.travelTime e) v a
        pure { s with deps := deps, queues := setAt s.queues e (zeroLast q), changes := ch, outflow := setAt s.outflow e out })) := by
  rcases DepQ.pop_rep hr.deps with h | ⟨e, D, x, deps, hp, hlen, hmk, hmin, hpop, hrep, hl⟩
  · exact Or.inl h
  · right
    refine ⟨e, D, x, deps, hp, hlen, hmk, hmin, hrep, hl, ?_, ?_⟩
    · intro hx
      subst hx
      unfold processDepletion
      rw [hpop, ok_bind]
      rfl
    · intro v a hx
      subst hx
      obtain ⟨ch, hch, rch⟩ := chg_set hr.chg (e, D + net.travelTime e)
      refine ⟨ch, rch, ?_⟩
      unfold processDepletion
      rw [hpop, ok_bind]
      simp only [Option.map_some]
      cases e1 : (s.queues e).extendWithSlope D 0 with
      | error er => rfl
      | ok q =>
        rw [ok_bind, ok_bind]
        cases e2 : rdLast q.values with
        | error er => rfl
        | ok l =>
          rw [ok_bind, ok_bind]
          cases e3 : pyAssert (|l| < 1000 * eps) with
          | error er => rfl
          | ok u =>
            rw [ok_bind, ok_bind, hch, ok_bind]
            rfl

end DFlow
end Verif
