import Verif.Proofs.TwinRates
import Verif.Proofs.Reads

/-! What `extend` does, edge by edge. -/

namespace Verif
open Spec

namespace DFlow

/-- Everything a flow stores about one edge. -/
structure Loc where
  inflow : FRC
  outflow : FRC
  queue : PL
  pend : Pend
  chg : ℚ → Bool

/-- The part of a flow that belongs to edge `e`. -/
def loc (s : DFlow) (P : Nat → Pend) (C : Nat × ℚ → Bool) (e : Nat) : Loc := ⟨s.inflow e, s.outflow e, s.queues e, P e, fun y => C (e, y)⟩

/-- Setting the inflow of one edge. -/
def Loc.set (cap tt φ : ℚ) (L : Loc) (v : Rates) : Py Loc := do
  let (cur, c) ← L.inflow.getValuesAtTime φ
  if cur.dictEq v then pure { L with inflow := c }
  else do
    let qv ← L.queue.evalFromEnd φ
    let cin ← c.extend φ v v.total
    let out ← L.outflow.extend (φ + max qv 0 / cap + tt) (plan cap φ (max qv 0) v).out (plan cap φ (max qv 0) v).outSum
    let q ← L.queue.extendWithSlope φ (plan cap φ (max qv 0) v).slope
    let _ ← depCheck q (plan cap φ (max qv 0) v).dep
    pure ⟨cin, out, q, (plan cap φ (max qv 0) v).dep, fun y => decide (y = φ + max qv 0 / cap + tt) || L.chg y⟩

/-- The depletion of the queue of one edge. -/
def Loc.drain (tt φ : ℚ) (L : Loc) : Py Loc :=
  match L.pend with
  | none => .ok L
  | some (D, x) =>
    if D ≤ φ then do
      let q ← L.queue.extendWithSlope D 0
      let l ← rdLast q.values
      pyAssert (|l| < 1000 * eps)
      match x with
      | none => pure { L with queue := zeroLast q, pend := none }
      | some (v, a) => do
        let out ← L.outflow.extend (D + tt) v a
        pure { L with queue := zeroLast q, pend := none, outflow := out, chg := fun y => decide (y = D + tt) || L.chg y }
    else .ok L

variable {net : EdgeData}

theorem loc_ext {s t : DFlow} {P P' : Nat → Pend} {C C' : Nat × ℚ → Bool} {e : Nat} (h1 : s.inflow e = t.inflow e) (h2 : s.outflow e = t.outflow e)
    (h3 : s.queues e = t.queues e) (h4 : P e = P' e) (h5 : ∀ y, C (e, y) = C' (e, y)) : loc s P C e = loc t P' C' e := by
  unfold loc
  rw [h1, h2, h3, h4]
  congr 1
  funext y
  exact h5 y

theorem setInflow_loc {s : DFlow} {P : Nat → Pend} {C : Nat × ℚ → Bool} (hr : Rep net s P C) (e : Nat) (v : Rates) :
    (∀ L', (loc s P C e).set (net.capacity e) (net.travelTime e) s.phi v = .ok L' → ∃ s' P' C', setInflow net s e v = .ok s' ∧ Rep net s' P' C' ∧ s'.phi = s.phi ∧
      loc s' P' C' e = L' ∧ ∀ j, j ≠ e → loc s' P' C' j = loc s P C j) ∧
    ∀ s', setInflow net s e v = .ok s' → ∃ L', (loc s P C e).set (net.capacity e) (net.travelTime e) s.phi v = .ok L' := by
  unfold Loc.set
  simp only [loc]
  cases hcur : (s.inflow e).getValuesAtTime s.phi with
  | error er =>
    refine ⟨fun L' h => (by cases h), fun s' h => ?_⟩
    unfold setInflow at h
    rw [hcur] at h; cases h
  | ok r =>
    obtain ⟨cur, c⟩ := r
    simp only [ok_bind]
    by_cases hd : cur.dictEq v = true
    · simp only [if_pos hd]
      refine ⟨fun L' h => ?_, fun _ _ => ⟨_, rfl⟩⟩
      injection h with h
      refine ⟨{ s with inflow := setAt s.inflow e c }, P, C, ?_, ⟨hr.deps, hr.chg⟩, rfl, ?_, ?_⟩
      · unfold setInflow
        rw [hcur, ok_bind]
        simp only [if_pos hd]; rfl
      · simp only [setAt_self]; exact h
      · intro j hj; simp only [setAt_ne _ _ hj]
    · simp only [if_neg hd]
      cases hq : (s.queues e).evalFromEnd s.phi with
      | error er =>
        refine ⟨fun L' h => (by cases h), fun s' h => ?_⟩
        unfold setInflow at h
        rw [hcur, ok_bind] at h
        simp only [if_neg hd, hq] at h
        cases h
      | ok qv =>
        simp only [ok_bind]
        obtain ⟨ch, deps, rd, rc, heq⟩ := setInflow_eq hr hcur hq (v := v) (by simpa using hd)
        rw [heq]
        constructor
        · intro L' h
          obtain ⟨cin, h1, h⟩ := bind_eq_ok.mp h
          obtain ⟨out, h2, h⟩ := bind_eq_ok.mp h
          obtain ⟨q, h3, h⟩ := bind_eq_ok.mp h
          obtain ⟨u, h4, h⟩ := bind_eq_ok.mp h
          injection h with h
          rw [h1, ok_bind, h2, ok_bind, h3, ok_bind, h4, ok_bind]
          refine ⟨_, _, _, rfl, ⟨rd, rc⟩, rfl, ?_, ?_⟩
          · simp only [setAt_self, DepQ.upd_self]
            rw [← h]
            congr 1
            funext y
            unfold addC
            simp
          · intro j hj
            simp only [setAt_ne _ _ hj, DepQ.upd_ne _ _ hj]
            congr 1
            funext y
            unfold addC
            simp [hj]
        · intro s' h
          obtain ⟨cin, h1, h⟩ := bind_eq_ok.mp h
          obtain ⟨out, h2, h⟩ := bind_eq_ok.mp h
          obtain ⟨q, h3, h⟩ := bind_eq_ok.mp h
          obtain ⟨u, h4, h⟩ := bind_eq_ok.mp h
          rw [h1, ok_bind, h2, ok_bind, h3, ok_bind, h4, ok_bind]
          exact ⟨_, rfl⟩

theorem setInflows_loc : ∀ (l : List (Nat × Rates)) {s s' : DFlow} {P : Nat → Pend} {C : Nat × ℚ → Bool}, Rep net s P C → (l.map Prod.fst).Nodup →
    setInflows net l s = .ok s' → ∃ P' C', Rep net s' P' C' ∧ s'.phi = s.phi ∧ ∀ e,
      (l.lookup e = none → loc s' P' C' e = loc s P C e) ∧
      ∀ v, l.lookup e = some v → (loc s P C e).set (net.capacity e) (net.travelTime e) s.phi v = .ok (loc s' P' C' e) := by
  intro l
  induction l with
  | nil =>
    intro s s' P C hr _ h
    injection h with h; subst h
    exact ⟨P, C, hr, rfl, fun e => ⟨fun _ => rfl, fun v h => by cases h⟩⟩
  | cons p l ih =>
    obtain ⟨e, v⟩ := p
    intro s s' P C hr hn h
    rw [List.map_cons, List.nodup_cons] at hn
    unfold setInflows at h
    obtain ⟨s1, h1, h2⟩ := bind_eq_ok.mp h
    obtain ⟨L', hL⟩ := (setInflow_loc hr e v).2 s1 h1
    obtain ⟨s1', P1, C1, a1, a2, a3, a4, a5⟩ := (setInflow_loc hr e v).1 L' hL
    rw [h1] at a1; injection a1 with a1; subst a1
    obtain ⟨P', C', b1, b2, b3⟩ := ih a2 hn.2 h2
    refine ⟨P', C', b1, by rw [b2, a3], fun j => ?_⟩
    obtain ⟨c1, c2⟩ := b3 j
    by_cases hj : j = e
    · subst hj
      have hno : l.lookup j = none := by
        cases hl : l.lookup j with
        | none => rfl
        | some x => exact absurd (List.mem_map.mpr ⟨_, FRC.mem_of_lookup hl, rfl⟩) hn.1
      rw [List.lookup_cons, show (j == j) = true by simp]
      refine ⟨fun h => (by cases h), fun w hw => ?_⟩
      injection hw with hw; subst hw
      rw [hL, c1 hno, a4]
    · rw [List.lookup_cons, show (j == e) = false by simpa using hj]
      rw [a5 j hj, a3] at c2
      rw [a5 j hj] at c1
      exact ⟨c1, c2⟩

theorem setInflows_any : ∀ (l : List (Nat × Rates)) {s : DFlow} {P : Nat → Pend} {C : Nat × ℚ → Bool}, Rep net s P C → (l.map Prod.fst).Nodup →
    (∀ p ∈ l, ∃ L', (loc s P C p.1).set (net.capacity p.1) (net.travelTime p.1) s.phi p.2 = .ok L') → ∃ s', setInflows net l s = .ok s' := by
  intro l
  induction l with
  | nil => intro s P C _ _ _; exact ⟨s, rfl⟩
  | cons p l ih =>
    obtain ⟨e, v⟩ := p
    intro s P C hr hn h
    rw [List.map_cons, List.nodup_cons] at hn
    obtain ⟨L', hL⟩ := h (e, v) (by simp)
    obtain ⟨s1, P1, C1, a1, a2, a3, a4, a5⟩ := (setInflow_loc hr e v).1 L' hL
    unfold setInflows
    rw [a1, ok_bind]
    refine ih a2 hn.2 (fun p hp => ?_)
    have hne : p.1 ≠ e := fun he => hn.1 (List.mem_map.mpr ⟨p, hp, he⟩)
    rw [a5 _ hne, a3]
    exact h p (by simp [hp])

theorem drain_done {tt φ : ℚ} {L : Loc} (h : ∀ D x, L.pend = some (D, x) → φ < D) : L.drain tt φ = .ok L := by
  unfold Loc.drain
  cases hp : L.pend with
  | none => rfl
  | some p =>
    obtain ⟨D, x⟩ := p
    simp only
    rw [if_neg (not_le.mpr (h D x hp))]

theorem processDepletion_loc {s : DFlow} {P : Nat → Pend} {C : Nat × ℚ → Bool} (hr : Rep net s P C) :
    (s.deps.depletions.len = 0 ∧ ∀ e, P e = none) ∨
    ∃ e D x, P e = some (D, x) ∧ s.deps.depletions.len > 0 ∧ s.deps.depletions.minKey = .ok (ev D) ∧ (∀ j D' x', P j = some (D', x') → D ≤ D') ∧
      (D ≤ s.phi → (∀ L', (loc s P C e).drain (net.travelTime e) s.phi = .ok L' → ∃ s' P' C', processDepletion s = .ok s' ∧ Rep net s' P' C' ∧ s'.phi = s.phi ∧
        s'.deps.depletions.len + 1 = s.deps.depletions.len ∧ L'.pend = none ∧
        loc s' P' C' e = L' ∧ ∀ j, j ≠ e → loc s' P' C' j = loc s P C j) ∧
        ∀ s', processDepletion s = .ok s' → ∃ L', (loc s P C e).drain (net.travelTime e) s.phi = .ok L') := by
  rcases processDepletion_eq hr with h | ⟨e, D, x, deps, hp, hlen, hmk, hmin, hrep, hl, hx1, hx2⟩
  · exact Or.inl h
  right
  refine ⟨e, D, x, hp, hlen, hmk, hmin, fun hD => ?_⟩
  unfold Loc.drain
  simp only [loc, hp, if_pos hD]
  cases x with
  | none =>
    rw [hx1 rfl]
    simp only
    constructor
    · intro L' h
      obtain ⟨q, h1, h⟩ := bind_eq_ok.mp h
      obtain ⟨l, h2, h⟩ := bind_eq_ok.mp h
      obtain ⟨u, h3, h⟩ := bind_eq_ok.mp h
      injection h with h
      rw [h1, ok_bind, h2, ok_bind, h3, ok_bind]
      refine ⟨_, _, C, rfl, ⟨hrep, hr.chg⟩, rfl, hl, by rw [← h], ?_, ?_⟩
      · simp only [setAt_self, DepQ.upd_self]; exact h
      · intro j hj; simp only [setAt_ne _ _ hj, DepQ.upd_ne _ _ hj]
    · intro s' h
      obtain ⟨q, h1, h⟩ := bind_eq_ok.mp h
      obtain ⟨l, h2, h⟩ := bind_eq_ok.mp h
      obtain ⟨u, h3, h⟩ := bind_eq_ok.mp h
      rw [h1, ok_bind, h2, ok_bind, h3, ok_bind]
      exact ⟨_, rfl⟩
  | some va =>
    obtain ⟨v, a⟩ := va
    obtain ⟨ch, rc, hx⟩ := hx2 v a rfl
    rw [hx]
    simp only
    constructor
    · intro L' h
      obtain ⟨q, h1, h⟩ := bind_eq_ok.mp h
      obtain ⟨l, h2, h⟩ := bind_eq_ok.mp h
      obtain ⟨u, h3, h⟩ := bind_eq_ok.mp h
      obtain ⟨out, h4, h⟩ := bind_eq_ok.mp h
      injection h with h
      rw [h1, ok_bind, h2, ok_bind, h3, ok_bind, h4, ok_bind]
      refine ⟨_, _, _, rfl, ⟨hrep, rc⟩, rfl, hl, by rw [← h], ?_, ?_⟩
      · simp only [setAt_self, DepQ.upd_self]
        rw [← h]
        congr 1
        funext y
        unfold addC
        simp
      · intro j hj
        simp only [setAt_ne _ _ hj, DepQ.upd_ne _ _ hj]
        congr 1
        funext y
        unfold addC
        simp [hj]
    · intro s' h
      obtain ⟨q, h1, h⟩ := bind_eq_ok.mp h
      obtain ⟨l, h2, h⟩ := bind_eq_ok.mp h
      obtain ⟨u, h3, h⟩ := bind_eq_ok.mp h
      obtain ⟨out, h4, h⟩ := bind_eq_ok.mp h
      rw [h1, ok_bind, h2, ok_bind, h3, ok_bind, h4, ok_bind]
      exact ⟨_, rfl⟩

theorem processDepletions_loc : ∀ (fuel : Nat) {s : DFlow} {P : Nat → Pend} {C : Nat × ℚ → Bool}, Rep net s P C → s.deps.depletions.len < fuel →
    (∀ s', processDepletions fuel s = .ok s' → ∃ P' C', Rep net s' P' C' ∧ s'.phi = s.phi ∧ ∀ e, (loc s P C e).drain (net.travelTime e) s.phi = .ok (loc s' P' C' e)) ∧
    ((∀ e, ∃ L', (loc s P C e).drain (net.travelTime e) s.phi = .ok L') → ∃ s', processDepletions fuel s = .ok s') := by
  intro fuel
  induction fuel with
  | zero => intro s P C _ h; omega
  | succ fuel ih =>
    intro s P C hr hlt
    unfold processDepletions
    rcases processDepletion_loc hr with ⟨h1, h2⟩ | ⟨e, D, x, hp, hlen, hmk, hmin, hrest⟩
    · obtain ⟨hk, hl⟩ := DepQ.minKey_none hr.deps h2
      rw [hk, ok_bind, if_neg (by omega)]
      refine ⟨fun s' h => ?_, fun _ => ⟨s, rfl⟩⟩
      injection h with h; subst h
      exact ⟨P, C, hr, rfl, fun e => drain_done (fun D x hx => by simp only [loc, h2] at hx; cases hx)⟩
    · rw [hmk, ok_bind]
      by_cases hD : D ≤ s.phi
      · rw [if_pos ⟨ev_le.mpr hD, hlen⟩]
        obtain ⟨r1, r2⟩ := hrest hD
        constructor
        · intro s' h
          obtain ⟨s1, e1, e2⟩ := bind_eq_ok.mp h
          obtain ⟨L', hL⟩ := r2 s1 e1
          obtain ⟨s1', P1, C1, a1, a2, a3, a4, a5, a6, a7⟩ := r1 L' hL
          rw [e1] at a1; injection a1 with a1; subst a1
          obtain ⟨P', C', b1, b2, b3⟩ := (ih a2 (by omega)).1 s' e2
          refine ⟨P', C', b1, by rw [b2, a3], fun j => ?_⟩
          have := b3 j
          rw [a3] at this
          by_cases hj : j = e
          · subst hj
            rw [a6, drain_done (fun D x hx => by rw [a5] at hx; cases hx)] at this
            rw [hL, this]
          · rw [a7 j hj] at this; exact this
        · intro h
          obtain ⟨L', hL⟩ := h e
          obtain ⟨s1, P1, C1, a1, a2, a3, a4, a5, a6, a7⟩ := r1 L' hL
          rw [a1, ok_bind]
          refine (ih a2 (by omega)).2 (fun j => ?_)
          rw [a3]
          by_cases hj : j = e
          · subst hj
            rw [a6]
            exact ⟨_, drain_done (fun D x hx => by rw [a5] at hx; cases hx)⟩
          · rw [a7 j hj]; exact h j
      · rw [if_neg (fun hc => hD (ev_le.mp hc.1))]
        have hd : ∀ j, (loc s P C j).drain (net.travelTime j) s.phi = .ok (loc s P C j) :=
          fun j => drain_done (fun D' x' hx => lt_of_lt_of_le (not_le.mp hD) (hmin j D' x' hx))
        refine ⟨fun s' h => ?_, fun _ => ⟨s, rfl⟩⟩
        injection h with h; subst h
        exact ⟨P, C, hr, rfl, hd⟩

end DFlow
end Verif
