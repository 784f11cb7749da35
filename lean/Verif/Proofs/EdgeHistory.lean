import Verif.Proofs.TwinFlow

/-! What a flow stores about an edge is determined by the inflows given to this edge. -/

namespace Verif
open Spec

namespace DFlow
variable {net : EdgeData}

/-- Setting inflows one after the other, with the depletions in between. -/
def Loc.replay (cap tt : ℚ) : Loc → List (ℚ × Rates) → Py Loc
  | L, [] => .ok L
  | L, p :: h => do
    let L ← L.drain tt p.1
    let L ← L.set cap tt p.1 p.2
    Loc.replay cap tt L h

theorem drain_later {tt φ ψ : ℚ} {L L' : Loc} (hle : φ ≤ ψ) (h : L.drain tt φ = .ok L') : L.drain tt ψ = L'.drain tt ψ := by
  have h0 := h
  unfold Loc.drain at h
  cases hp : L.pend with
  | none => rw [hp] at h; injection h with h; subst h; rfl
  | some p =>
    obtain ⟨D, x⟩ := p
    rw [hp] at h
    simp only at h
    by_cases hD : D ≤ φ
    · have hs : L.drain tt ψ = L.drain tt φ := by
        unfold Loc.drain
        rw [hp]
        simp only
        rw [if_pos hD, if_pos (le_trans hD hle)]
      rw [if_pos hD] at h
      obtain ⟨q, _, h⟩ := bind_eq_ok.mp h
      obtain ⟨l, _, h⟩ := bind_eq_ok.mp h
      obtain ⟨u, _, h⟩ := bind_eq_ok.mp h
      have hn : L'.pend = none := by
        cases x with
        | none => injection h with h; subst h; rfl
        | some va =>
          obtain ⟨v, a⟩ := va
          simp only at h
          obtain ⟨out, _, h⟩ := bind_eq_ok.mp h
          injection h with h; subst h; rfl
      rw [hs, h0, drain_done (fun D x hx => by rw [hn] at hx; cases hx)]
    · rw [if_neg hD] at h
      injection h with h; subst h; rfl

/-- `extend`, seen from one edge. -/
theorem extend_loc {s s' : DFlow} {P : Nat → Pend} {C : Nat × ℚ → Bool} (hr : Rep net s P C) {l : List (Nat × Rates)} (hl : (l.map Prod.fst).Nodup) {T : ℚ} {ch : List Nat}
    (he : s.extend net l T = .ok (s', ch)) : ∃ P' C', Rep net s' P' C' ∧ ∀ e, ∃ L1 L2 : Loc,
      (l.lookup e = none → L1 = loc s P C e) ∧ (∀ v, l.lookup e = some v → (loc s P C e).set (net.capacity e) (net.travelTime e) s.phi v = .ok L1) ∧
      L1.drain (net.travelTime e) s'.phi = .ok L2 ∧ (loc s' P' C' e).inflow = L2.inflow ∧ (loc s' P' C' e).outflow = L2.outflow ∧
      (loc s' P' C' e).queue = L2.queue ∧ (loc s' P' C' e).pend = L2.pend := by
  unfold extend at he
  obtain ⟨s1, e1, he⟩ := bind_eq_ok.mp he
  obtain ⟨P1, C1, x1, x2, x3⟩ := setInflows_loc l hr hl e1
  obtain ⟨a, b, φ, n1, n2, n3, _⟩ := next_event s1 x1 T
  rw [n1, ok_bind, n2, ok_bind, n3, ok_bind] at he
  simp only at he
  obtain ⟨s2, e2, he⟩ := bind_eq_ok.mp he
  obtain ⟨u1, _⟩ := processDepletions_loc (net := net) (s1.deps.depletions.len + 1) (s := { s1 with phi := φ }) (P := P1) (C := C1) ⟨x1.deps, x1.chg⟩ (by simp)
  obtain ⟨P2, C2, v1, v2, v3⟩ := u1 s2 e2
  simp only at v2 v3
  obtain ⟨h3, C3, ch3, k1, k2, k3, k4⟩ := collect_spec (s2.changes.len + 1) s2 [] C2 v1.chg (by omega)
  rw [k1] at he
  injection he with he; injection he with he1 he2
  subst he1
  refine ⟨P2, C3, ⟨v1.deps, k2⟩, fun e => ⟨loc s1 P1 C1 e, loc s2 P2 C2 e, (x3 e).1, (x3 e).2, ?_, rfl, rfl, rfl, rfl⟩⟩
  have := v3 e
  rw [← v2] at this
  exact this

theorem twinLoc_refl {φ : ℚ} {L M : Loc} (h : TwinLoc φ L M) : TwinLoc φ L L := by
  have key : ∀ {c d : FRC}, FRC.Twin φ c d → FRC.Twin φ c c := by
    intro c d h
    refine ⟨rfl, rfl, h.headc, h.headc, ?_⟩
    have := h.queue
    have hr : ∀ {q q' : List FRItem}, List.Forall₂ FRC.SameItem q q' → List.Forall₂ FRC.SameItem q q := by
      intro q q' hf
      induction hf with
      | nil => exact .nil
      | cons h1 _ ih => exact .cons ⟨rfl, SameDict.refl h1.2.nodup⟩ ih
    exact hr this
  refine ⟨key h.inflow, key h.outflow, rfl, ?_⟩
  rcases h.pend with ⟨h1, _⟩ | ⟨D, h1, _⟩ | ⟨D, v, w, a, h1, _, h3⟩
  · exact Or.inl ⟨h1, h1⟩
  · exact Or.inr (Or.inl ⟨D, h1, h1⟩)
  · exact Or.inr (Or.inr ⟨D, v, v, a, h1, h1, SameDict.refl h3.nodup⟩)

/-- A run, seen from one edge: any equal history of inflows gives the same. -/
theorem run_replay (hn : NetOk net) {e : Nat} : ∀ (calls : List FlowCall) {s s' : DFlow} {L0 L : Loc} {P : Nat → Pend} {C : Nat × ℚ → Bool} {h : List (ℚ × Rates)},
    (∃ P C, Safe net s P C) → HeadOk s → TimesOk net s calls → (∀ c ∈ calls, ∀ l T, c = .extend l T → (l.map Prod.fst).Nodup) → Rep net s P C →
    L0.drain (net.travelTime e) s.phi = .ok L → TwinLoc s.phi (loc s P C e) L →
    runFlow net s calls = .ok s' → List.Forall₂ (fun p q => p.1 = q.1 ∧ SameDict p.2 q.2) (given net e s calls) h →
    ∃ L1 L2 P' C', L0.replay (net.capacity e) (net.travelTime e) h = .ok L1 ∧ L1.drain (net.travelTime e) s'.phi = .ok L2 ∧ Rep net s' P' C' ∧ TwinLoc s'.phi (loc s' P' C' e) L2 := by
  intro calls
  induction calls with
  | nil =>
    intro s s' L0 L P C h _ _ _ _ hr hd htw he hg
    injection he with he; subst he
    simp only [given] at hg
    cases hg
    exact ⟨L0, L, P, C, rfl, hd, hr, htw⟩
  | cons c calls ih =>
    intro s s' L0 L P C h hs hh ht hk hr hd htw he hg
    unfold runFlow at he
    obtain ⟨s1, e1, e2⟩ := bind_eq_ok.mp he
    have ht2 := ht.2 s1 e1
    have hk2 : ∀ c ∈ calls, ∀ l T, c = .extend l T → (l.map Prod.fst).Nodup := fun c hc => hk c (by simp [hc])
    unfold given at hg
    rw [e1] at hg
    simp only at hg
    cases c with
    | look j =>
      simp only [stepFlow] at e1
      obtain ⟨⟨v, s2⟩, e3, e4⟩ := bind_eq_ok.mp e1
      injection e4 with e4; subst e4
      obtain ⟨v', s2', e3', a1, a2, _, a3, _⟩ := look_ok (net := net) hh j
      rw [e3] at e3'; injection e3' with e3'; injection e3' with x1 x2; subst x1; subst x2
      obtain ⟨Ps, Cs, hs⟩ := hs
      -- the reading moves one head
      have hrd : ∀ e, ∃ c', (s2.outflow e).funs = (s.outflow e).funs ∧ s2.inflow = s.inflow ∧ s2.queues = s.queues ∧ s2.phi = s.phi ∧ s2.changes = s.changes ∧ s2.deps = s.deps ∧
          ((e ≠ j ∧ s2.outflow e = s.outflow e) ∨ (e = j ∧ s2.outflow e = c' ∧ ∃ v, (s.outflow e).getValuesAtTime s.phi = .ok (v, c'))) := by
        intro e
        unfold lookOutflow at e3
        obtain ⟨⟨v0, c'⟩, y1, y2⟩ := bind_eq_ok.mp e3
        injection y2 with y2; injection y2 with y2 y3
        subst y3
        have hf : c'.funs = (s.outflow j).funs := by
          unfold FRC.getValuesAtTime at y1
          split at y1
          · injection y1 with y1; injection y1 with _ y1; rw [← y1]
          · split at y1
            · cases y1
            · split at y1
              · injection y1 with y1; injection y1 with _ y1; rw [← y1]
              · injection y1 with y1; injection y1 with _ y1; rw [← y1]
        by_cases hj : e = j
        · subst hj
          refine ⟨c', ?_, rfl, rfl, rfl, rfl, rfl, Or.inr ⟨rfl, ?_, v0, y1⟩⟩
          · simp only [setAt_self]; exact hf
          · simp only [setAt_self]
        · refine ⟨c', ?_, rfl, rfl, rfl, rfl, rfl, Or.inl ⟨hj, ?_⟩⟩ <;> simp only [setAt_ne _ _ hj]
      obtain ⟨c', _, i2, i3, i4, i5, i6, i7⟩ := hrd e
      have hr2 : Rep net s2 P C := ⟨by rw [i6]; exact hr.deps, by rw [i5]; exact hr.chg⟩
      have htw2 : TwinLoc s2.phi (loc s2 P C e) L := by
        rw [i4]
        refine ⟨by simp only [loc, i2]; exact htw.inflow, ?_, by simp only [loc, i3]; exact htw.queue, htw.pend⟩
        rcases i7 with ⟨_, i7⟩ | ⟨_, i7, v0, i8⟩
        · simp only [loc, i7]; exact htw.outflow
        · obtain ⟨a, b, c1, d1, z1, z2, z3, z4, z5, z6⟩ := htw.outflow.read
          simp only [loc] at z1
          rw [i8] at z1; injection z1 with z1; injection z1 with _ z1
          simp only [loc, i7, z1]; exact z6
      simp only [List.nil_append] at hg
      exact ih ⟨Ps, Cs, a3 Ps Cs hs⟩ a1 ht2 hk2 hr2 (by rw [i4]; exact hd) htw2 e2 hg
    | extend l T =>
      have hT := ht.1 l T rfl
      simp only at hg
      simp only [stepFlow] at e1
      obtain ⟨⟨s2, ch⟩, e3, e4⟩ := bind_eq_ok.mp e1
      injection e4 with e4; subst e4
      obtain ⟨Ps, Cs, hs⟩ := hs
      obtain ⟨hs2, _, hmono, _⟩ := extend_safe hn hs hT e3
      have hh2 := extend_head hn hs hh hT e3
      obtain ⟨P', C', r1, r2⟩ := extend_loc hr (hk _ (by simp) l T rfl) e3
      obtain ⟨L1, L2, q1, q2, q3, q4, q5, q6, q7⟩ := r2 e
      cases hv : l.lookup e with
      | none =>
        rw [hv] at hg
        simp only [Option.map_none, Option.toList_none, List.nil_append] at hg
        have hL1 := q1 hv
        subst hL1
        obtain ⟨M, m1, m2, _⟩ := htw.drain q3
        have m3 := m2.later hmono
        refine ih hs2 hh2 ht2 hk2 r1 (L := M) ?_ ?_ e2 hg
        · rw [drain_later hmono hd]; exact m1
        · exact ⟨by rw [q4]; exact m3.inflow, by rw [q5]; exact m3.outflow, by rw [q6]; exact m3.queue, by rw [q7]; exact m3.pend⟩
      | some v =>
        rw [hv] at hg
        simp only [Option.map_some, Option.toList_some, List.singleton_append] at hg
        cases hg with
        | @cons _ q _ h hp hg =>
        obtain ⟨t, w⟩ := q
        simp only at hp
        obtain ⟨hp1, hp2⟩ := hp
        subst hp1
        obtain ⟨M, m1, m2, _⟩ := htw.set hp2 (q2 v hv)
        obtain ⟨M', m3, m4, _⟩ := m2.drain q3
        have m5 := m4.later hmono
        obtain ⟨A, B, P'', C'', z1, z2, z3, z4⟩ := ih hs2 hh2 ht2 hk2 r1 (L0 := M) (L := M') m3
          ⟨by rw [q4]; exact m5.inflow, by rw [q5]; exact m5.outflow, by rw [q6]; exact m5.queue, by rw [q7]; exact m5.pend⟩ e2 hg
        refine ⟨A, B, P'', C'', ?_, z2, z3, z4⟩
        unfold Loc.replay
        simp only
        rw [hd, ok_bind, m1, ok_bind, z1]

end DFlow
end Verif
