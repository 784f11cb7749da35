import Verif.Proofs.DFlowRun

/-! The events that a flow still has to process, and what a call of `extend` does to them. -/

namespace Verif

namespace Heap
variable {K T : Type} [LinearOrder K] [DecidableEq T]

/-- A queue holds finitely many items. -/
theorem Rep.finite {h : Heap K T} {M : T → Option K} (hr : Rep h M) : ∃ l : List T, ∀ x, M x ≠ none → x ∈ l := by
  obtain ⟨q, _, b⟩ := hr
  refine ⟨q.map (fun e => e.1), fun x hx => ?_⟩
  rw [← b x, ← mem_iff_lookup] at hx
  obtain ⟨k, hk⟩ := hx
  exact List.mem_map.mpr ⟨(x, k), hk, rfl⟩

end Heap

namespace DFlow
open Spec (NetOk)
variable {net : EdgeData}

/-- A change of an outflow is planned for time `y`. -/
def Due (tt : Nat → ℚ) (P : Nat → Pend) (C : Nat × ℚ → Bool) (y : ℚ) : Prop :=
  (∃ e, C (e, y) = true) ∨ ∃ e D va, P e = some (D, some va) ∧ y = D + tt e

theorem due_finite {s : DFlow} {P : Nat → Pend} {C : Nat × ℚ → Bool} (hr : Rep net s P C) : ∃ l : List ℚ, ∀ y, Due net.travelTime P C y → y ∈ l := by
  obtain ⟨l1, h1⟩ := hr.chg.finite
  obtain ⟨l2, h2⟩ := hr.deps.dep.finite
  refine ⟨l1.map Prod.snd ++ l2.map (fun e => match P e with | some (D, _) => D + net.travelTime e | none => 0), ?_⟩
  rintro y (⟨e, he⟩ | ⟨e, D, va, he, rfl⟩)
  · exact List.mem_append_left _ (List.mem_map.mpr ⟨(e, y), h1 _ (by simp [he]), rfl⟩)
  · refine List.mem_append_right _ (List.mem_map.mpr ⟨e, h2 e (by simp [DepQ.dmap, he]), ?_⟩)
    rw [he]

/-- The plan of a state is unique. -/
theorem due_unique {s : DFlow} {P P' : Nat → Pend} {C C' : Nat × ℚ → Bool} (hr : Rep net s P C) (hr' : Rep net s P' C') {y : ℚ} (h : Due net.travelTime P C y) :
    Due net.travelTime P' C' y := by
  rcases h with ⟨e, he⟩ | ⟨e, D, va, he, rfl⟩
  · left
    refine ⟨e, ?_⟩
    have a := hr.chg.has (e, y)
    have b := hr'.chg.has (e, y)
    rw [a] at b
    by_contra hc
    simp [he, hc] at b
  · right
    have a := hr.deps.chg.keyOf e
    have b := hr'.deps.chg.keyOf e
    rw [a] at b
    injection b with b
    unfold DepQ.cmap at b
    rw [he] at b
    cases hp : P' e with
    | none => rw [hp] at b; cases b
    | some p =>
      obtain ⟨D', x⟩ := p
      rw [hp] at b
      cases x with
      | none => cases b
      | some va' =>
        have : ev (D + net.travelTime e) = ev (D' + net.travelTime e) := by
          simpa using b
        exact ⟨e, D', va', hp, ev_inj this⟩

theorem setInflow_due (hn : NetOk net) {s s' : DFlow} {P : Nat → Pend} {C : Nat × ℚ → Bool} (hr : Rep net s P C) {e : Nat} {v : Rates} (he : setInflow net s e v = .ok s') :
    s'.phi = s.phi ∧ ∃ P' C', Rep net s' P' C' ∧ ∀ y, Due net.travelTime P' C' y → Due net.travelTime P C y ∨ s.phi + net.travelTime e ≤ y := by
  have he' := he
  unfold setInflow at he
  obtain ⟨⟨cur, c⟩, hcur, he⟩ := bind_eq_ok.mp he
  simp only at he
  by_cases hd : cur.dictEq v = true
  · rw [if_pos hd] at he
    injection he with he
    subst he
    exact ⟨rfl, P, C, ⟨hr.deps, hr.chg⟩, fun y h => .inl h⟩
  · rw [if_neg hd] at he
    obtain ⟨qv, hq, _⟩ := bind_eq_ok.mp he
    obtain ⟨ch, deps, rd, rc, heq⟩ := setInflow_eq hr hcur hq (v := v) (by simpa using hd)
    rw [heq] at he'
    obtain ⟨cin, hcin, he'⟩ := bind_eq_ok.mp he'
    obtain ⟨out, hout, he'⟩ := bind_eq_ok.mp he'
    obtain ⟨q', _, he'⟩ := bind_eq_ok.mp he'
    obtain ⟨_, _, he'⟩ := bind_eq_ok.mp he'
    injection he' with he'
    subst he'
    have hv := (FRC.extend_inv hcin).2.2
    have hq0 : (0 : ℚ) ≤ max qv 0 := le_max_right _ _
    obtain ⟨_, _, b3⟩ := plan_bounds (φ := s.phi) (hn.cap e) hq0 hv
    refine ⟨rfl, _, _, ⟨rd, rc⟩, ?_⟩
    rintro y (⟨j, hj⟩ | ⟨j, D, va, hj, rfl⟩)
    · rcases addC_iff.mp hj with h | h
      · injection h with h1 h2
        right
        have := div_nonneg hq0 (le_of_lt (hn.cap e))
        linarith
      · exact .inl (.inl ⟨j, h⟩)
    · unfold DepQ.upd at hj
      split at hj
      · rename_i hje
        subst hje
        right
        have := (b3 D _ hj).1
        linarith
      · exact .inl (.inr ⟨j, D, va, hj, rfl⟩)

theorem setInflows_due (hn : NetOk net) {τ : ℚ} : ∀ (l : List (Nat × Rates)) {s s' : DFlow} {P : Nat → Pend} {C : Nat × ℚ → Bool}, Rep net s P C → (∀ p ∈ l, τ ≤ net.travelTime p.1) →
    setInflows net l s = .ok s' →
    s'.phi = s.phi ∧ ∃ P' C', Rep net s' P' C' ∧ ∀ y, Due net.travelTime P' C' y → Due net.travelTime P C y ∨ s.phi + τ ≤ y := by
  intro l
  induction l with
  | nil => intro s s' P C h _ he; injection he with he; subst he; exact ⟨rfl, P, C, h, fun y h => .inl h⟩
  | cons p l ih =>
    obtain ⟨e, v⟩ := p
    intro s s' P C h hl he
    unfold setInflows at he
    obtain ⟨s1, h1, h2⟩ := bind_eq_ok.mp he
    obtain ⟨e1, P1, C1, m1, k1⟩ := setInflow_due hn h h1
    obtain ⟨e2, P2, C2, m2, k2⟩ := ih m1 (fun p hp => hl p (by simp [hp])) h2
    refine ⟨by rw [e2, e1], P2, C2, m2, ?_⟩
    intro y hy
    rcases k2 y hy with h | h
    · rcases k1 y h with h | h
      · exact .inl h
      · have := hl (e, v) (by simp)
        right
        simp only at this
        linarith
    · rw [e1] at h; exact .inr h

theorem processDepletions_due : ∀ (fuel : Nat) {s s' : DFlow} {P : Nat → Pend} {C : Nat × ℚ → Bool}, Rep net s P C → processDepletions fuel s = .ok s' →
    s'.phi = s.phi ∧ ∃ P' C', Rep net s' P' C' ∧ ∀ y, Due net.travelTime P' C' y → Due net.travelTime P C y := by
  intro fuel
  induction fuel with
  | zero => intro s s' P C h he; cases he
  | succ fuel ih =>
    intro s s' P C h he
    unfold processDepletions at he
    obtain ⟨k, hk, he⟩ := bind_eq_ok.mp he
    by_cases hle : k ≤ ev s.phi ∧ s.deps.depletions.len > 0
    · rw [if_pos hle] at he
      obtain ⟨s1, e1, e2⟩ := bind_eq_ok.mp he
      rcases processDepletion_eq h with ⟨h1, h2⟩ | ⟨e, D, x, deps, hp, hlen, hmk, hmin, hrep, hl, hx1, hx2⟩
      · omega
      · have hsub : ∀ y, (∃ j D' va, DepQ.upd P e none j = some (D', some va) ∧ y = D' + net.travelTime j) → Due net.travelTime P C y := by
          rintro y ⟨j, D', va, hj, rfl⟩
          unfold DepQ.upd at hj
          split at hj
          · cases hj
          · exact .inr ⟨j, D', va, hj, rfl⟩
        have key : s1.phi = s.phi ∧ ∃ P1 C1, Rep net s1 P1 C1 ∧ ∀ y, Due net.travelTime P1 C1 y → Due net.travelTime P C y := by
          cases x with
          | none =>
            rw [hx1 rfl] at e1
            obtain ⟨q, _, e1⟩ := bind_eq_ok.mp e1
            obtain ⟨l, _, e1⟩ := bind_eq_ok.mp e1
            obtain ⟨_, _, e1⟩ := bind_eq_ok.mp e1
            injection e1 with e1; subst e1
            refine ⟨rfl, _, C, ⟨hrep, h.chg⟩, ?_⟩
            rintro y (hy | hy)
            · exact .inl hy
            · exact hsub y hy
          | some va =>
            obtain ⟨v, a⟩ := va
            obtain ⟨ch, rc, hx⟩ := hx2 v a rfl
            rw [hx] at e1
            obtain ⟨q, _, e1⟩ := bind_eq_ok.mp e1
            obtain ⟨l, _, e1⟩ := bind_eq_ok.mp e1
            obtain ⟨_, _, e1⟩ := bind_eq_ok.mp e1
            obtain ⟨out, ho, e1⟩ := bind_eq_ok.mp e1
            injection e1 with e1; subst e1
            refine ⟨rfl, _, _, ⟨hrep, rc⟩, ?_⟩
            rintro y (⟨j, hj⟩ | hy)
            · rcases addC_iff.mp hj with h' | h'
              · injection h' with h1 h2
                exact .inr ⟨e, D, _, hp, h2⟩
              · exact .inl ⟨j, h'⟩
            · exact hsub y hy
        obtain ⟨p1, P1, C1, m1, k1⟩ := key
        obtain ⟨p2, P2, C2, m2, k2⟩ := ih m1 e2
        exact ⟨by rw [p2, p1], P2, C2, m2, fun y hy => k1 y (k2 y hy)⟩
    · rw [if_neg hle] at he
      injection he with he; subst he
      exact ⟨rfl, P, C, h, fun y hy => hy⟩

/-- A call of `extend` plans nothing earlier than `τ` from now; it stops at the given time, at an event that was planned before, or at least `τ` later. -/
theorem extend_due (hn : NetOk net) {s s' : DFlow} {P : Nat → Pend} {C : Nat × ℚ → Bool} (hr : Rep net s P C) {l : List (Nat × Rates)} {T τ : ℚ} {ch : List Nat} (hτ : ∀ p ∈ l, τ ≤ net.travelTime p.1)
    (he : s.extend net l T = .ok (s', ch)) :
    (∃ P' C', Rep net s' P' C' ∧ ∀ y, Due net.travelTime P' C' y → Due net.travelTime P C y ∨ s.phi + τ ≤ y) ∧
    (s'.phi = T ∨ Due net.travelTime P C s'.phi ∨ s.phi + τ ≤ s'.phi) := by
  unfold DFlow.extend at he
  obtain ⟨s1, h1, he⟩ := bind_eq_ok.mp he
  obtain ⟨p1, P1, C1, m1, k1⟩ := setInflows_due hn l hr hτ h1
  obtain ⟨a, b, φ, ea, eb, eφ, n1, n2, n3, n4⟩ := next_event s1 m1 T
  rw [ea, ok_bind, eb, ok_bind, eφ, ok_bind] at he
  simp only at he
  obtain ⟨s2, h2, he⟩ := bind_eq_ok.mp he
  obtain ⟨p2, P2, C2, m2, k2⟩ := processDepletions_due _ (s := { s1 with phi := φ }) ⟨m1.deps, m1.chg⟩ h2
  simp only at p2
  obtain ⟨h', C', ch', e3, r3, c3, c4⟩ := collect_spec (s2.changes.len + 1) s2 [] C2 m2.chg (by omega)
  rw [e3] at he
  injection he with he
  injection he with he1 he2
  subst he1; subst he2
  refine ⟨⟨P2, C', ⟨m2.deps, r3⟩, ?_⟩, ?_⟩
  · intro y hy
    apply k1
    apply k2
    rcases hy with ⟨e, h⟩ | h
    · exact .inl ⟨e, ((c3 _).mp h).1⟩
    · exact .inr h
  · simp only [p2]
    rcases n4 with h | ⟨p, hp, h⟩ | ⟨e, D, va, hp, h⟩
    · exact .inl h
    · right; exact k1 φ (.inl ⟨p.1, by rw [h]; exact hp⟩)
    · right; exact k1 φ (.inr ⟨e, D, va, hp, h⟩)

end DFlow
end Verif
