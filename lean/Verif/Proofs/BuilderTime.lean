import Verif.Proofs.BuilderNode

/-! What does not change while the flow builder moves on in time. -/

namespace Verif
open Spec

namespace Builder
variable {P : Type} [DecidableEq P] {n : Network P} {preds : P → Predictor}

/-- The changes of the network inflow that are still to come. -/
abbrev wmap (W : Nat × Nat × ℚ → Bool) : Nat × Nat × ℚ → Option EVal := fun x => if W x then some (ev x.2.2) else none

omit [DecidableEq P] in
theorem popChanges_spec : ∀ (fuel : Nat) (b : Builder P) (W : Nat × Nat × ℚ → Bool), b.changes.Rep (wmap W) → b.changes.len < fuel →
    ∃ h' W' H, popChanges fuel b = .ok { b with changes := h', handle := b.handle ++ H } ∧ h'.Rep (wmap W') ∧
      (∀ x, W' x = true ↔ W x = true ∧ b.flow.phi < x.2.2) ∧ ∀ v, v ∈ H ↔ ∃ x, W x = true ∧ x.2.1 = v ∧ x.2.2 ≤ b.flow.phi := by
  intro fuel
  induction fuel with
  | zero => intro b W _ h; omega
  | succ fuel ih =>
    intro b W hr hlen
    unfold popChanges
    obtain ⟨k, hk, hmin, hex⟩ := hr.minKey
    rw [hk, ok_bind]
    by_cases hle : k ≤ ev b.flow.phi
    · rw [if_pos hle]
      rcases hr.cases with ⟨hd, hnone⟩ | ⟨h1, x, k', hd, hk', hi, hpop, hM, hmin', hr1, hl⟩
      · exfalso
        rcases hex with ⟨x, hx⟩ | ⟨rfl, _⟩
        · rw [hnone] at hx; cases hx
        · exact absurd hle (not_le.mpr (ev_lt_top _))
      · have hWx : W x = true := by
          by_contra hc; simp [wmap, hc] at hM
        have hk'e : k' = ev x.2.2 := by
          simp only [wmap, hWx, if_true, Option.some.injEq] at hM; exact hM.symm
        have hxle : x.2.2 ≤ b.flow.phi := by
          apply ev_le.mp
          rw [← hk'e]
          refine le_trans ?_ hle
          rcases hex with ⟨y, hy⟩ | ⟨rfl, _, hno⟩
          · exact hmin' y k hy
          · exact le_top
        rw [hpop, ok_bind]
        simp only
        obtain ⟨h', W', H, a1, a2, a3, a4⟩ := ih { b with changes := h1, handle := b.handle ++ [x.2.1] } (fun y => W y && !decide (y = x)) (hr1.congr (by
          intro y
          unfold wmap
          by_cases hyx : y = x
          · simp [hyx]
          · simp [hyx])) (by simp only; omega)
        refine ⟨h', W', x.2.1 :: H, ?_, a2, ?_, ?_⟩
        · rw [a1]; simp [List.append_assoc]
        · intro y
          rw [a3 y]
          simp only [Bool.and_eq_true, Bool.not_eq_true', decide_eq_false_iff_not]
          constructor
          · rintro ⟨⟨h1, _⟩, h2⟩; exact ⟨h1, h2⟩
          · rintro ⟨h1, h2⟩
            refine ⟨⟨h1, ?_⟩, h2⟩
            rintro rfl
            exact absurd hxle (not_le.mpr h2)
        · intro v
          rw [List.mem_cons, a4 v]
          simp only [Bool.and_eq_true, Bool.not_eq_true', decide_eq_false_iff_not]
          constructor
          · rintro (rfl | ⟨y, ⟨h1, _⟩, h2, h3⟩)
            · exact ⟨x, hWx, rfl, hxle⟩
            · exact ⟨y, h1, h2, h3⟩
          · rintro ⟨y, h1, h2, h3⟩
            by_cases hyx : y = x
            · left; rw [← h2, hyx]
            · right; exact ⟨y, ⟨h1, hyx⟩, h2, h3⟩
    · rw [if_neg hle]
      have hgt : ∀ x, W x = true → b.flow.phi < x.2.2 := by
        intro x hx
        have := hmin x (ev x.2.2) (by simp [wmap, hx])
        by_contra hc
        exact hle (le_trans this (ev_le.mpr (not_lt.mp hc)))
      refine ⟨b.changes, W, [], ?_, hr, ?_, ?_⟩
      · rw [List.append_nil]; rfl
      · intro x; exact ⟨fun h => ⟨h, hgt x h⟩, fun h => h.1⟩
      · intro v
        constructor
        · intro h; cases h
        · rintro ⟨x, h1, _, h3⟩; exact absurd (hgt x h1) (not_lt.mpr h3)

omit [DecidableEq P] in
theorem inflowOk_wf {f : RC} (h : InflowOk f) : f.WF := by
  refine ⟨h.len, h.ne, h.lt, fun t ht => ⟨?_, ?_⟩⟩
  · rw [h.lo]; exact WithBot.coe_le_coe.mpr (h.pos t ht)
  · rw [h.hi]; exact le_top

omit [DecidableEq P] in
theorem stepValue_fn {f : RC} (h : InflowOk f) {t : ℚ} (ht : 0 ≤ t) : stepValue f t = f.fn t := by
  unfold stepValue
  rw [RC.eval_eq (inflowOk_wf h) (by
    unfold RC.inDom; rw [h.lo, h.hi]; exact ⟨WithBot.coe_le_coe.mpr ht, le_top⟩)]

omit [DecidableEq P] in
/-- The network inflow does not change where there is no break point. -/
theorem networkRate_const (hn : InputOk n) {v i : Nat} {x y : ℚ} (h0 : 0 ≤ x) (hxy : x ≤ y)
    (hno : ∀ z, Break n.commodities (i, v, z) → ¬ (x < z ∧ z ≤ y)) : networkRate n v i y = networkRate n v i x := by
  unfold networkRate
  cases hc : n.commodities[i]? with
  | none => rfl
  | some c =>
    simp only
    cases hl : c.sources.lookup v with
    | none => rfl
    | some f =>
      have hm := FRC.mem_of_lookup hl
      have hf := (hn.source c (List.mem_of_getElem? hc) _ hm).2.2
      simp only
      rw [stepValue_fn hf h0, stepValue_fn hf (le_trans h0 hxy)]
      apply RC.fn_congr
      intro t ht
      refine ⟨fun h => ?_, fun h => le_trans h hxy⟩
      by_contra hcon
      exact hno t ⟨c, f, hc, hm, ht⟩ ⟨not_le.mp hcon, h⟩

omit [DecidableEq P] in
/-- The outflow rates do not change until the edge is reported. -/
theorem outRate_const {s s' : DFlow} {T : ℚ} {l : List (Nat × Rates)} {ch : List Nat} (hn : InputOk n) (h : FlowOk n s) (h' : FlowOk n s')
    (hT : s.phi ≤ T) (he : s.extend n.data l T = .ok (s', ch)) {e i : Nat} {t : ℚ} (ht : s.phi ≤ t) (ht' : t < s'.phi ∨ t = s'.phi ∧ e ∉ ch) :
    FRC.rate (s'.outflow e).funs i t = FRC.rate (s.outflow e).funs i s.phi := by
  obtain ⟨Q, C, hs⟩ := h.safe
  obtain ⟨_, _, _, _, hq, _⟩ := DFlow.extend_safe (netOk hn) hs hT he
  obtain ⟨new, q1, q2⟩ := hq e
  have h0 := h.phi_nonneg
  obtain ⟨_, _, _, _, _, _, g1⟩ := h.edge e
  obtain ⟨_, _, _, _, _, _, g2⟩ := h'.edge e
  obtain ⟨a, a1, a2⟩ := h.head e
  have r1 := g1.gout.reads h0 ⟨a, a1, a2⟩
  have r2 := g2.gout.reads h0 ⟨a, by rw [q1, List.head?_append, a1]; rfl, a2⟩
  rw [← r1.rate i s.phi le_rfl, ← r2.rate i t ht, q1]
  have hlate : ∀ it ∈ (s'.outflow e).queue, (s.phi < it.time ∨ it ∈ new) → ¬ it.time ≤ t := by
    intro it hit hor hle
    obtain ⟨b1, b2⟩ := q2 it hit hor
    rcases ht' with h1 | ⟨h1, h2⟩
    · linarith
    · exact h2 (b2 (by linarith))
  unfold FRC.qRate
  have hf : ((s.outflow e).queue ++ new).filter (fun it => decide (it.time ≤ t)) = (s.outflow e).queue.filter (fun it => decide (it.time ≤ s.phi)) := by
    rw [List.filter_append]
    have h2 : new.filter (fun it => decide (it.time ≤ t)) = [] := by
      rw [List.filter_eq_nil_iff]
      intro it hit
      have := hlate it (by rw [q1]; exact List.mem_append_right _ hit) (Or.inr hit)
      simpa using this
    rw [h2, List.append_nil]
    apply List.filter_congr
    intro it hit
    have := hlate it (by rw [q1]; exact List.mem_append_left _ hit)
    by_cases hc : it.time ≤ s.phi
    · simp [hc, le_trans hc ht]
    · have := this (Or.inl (not_le.mp hc))
      simp [hc, this]
  rw [hf]

omit [DecidableEq P] in
/-- The inflow rates stay as they are after the present time. -/
theorem inRate_after {s : DFlow} (h : FlowOk n s) {e i : Nat} {φ t : ℚ} (hφ : s.phi ≤ φ) (ht : φ ≤ t) :
    FRC.rate (s.inflow e).funs i t = FRC.rate (s.inflow e).funs i φ := by
  obtain ⟨_, _, _, _, _, _, g⟩ := h.edge e
  have hl := g.linle
  rw [(g.gin.funs i).rate_after (x := t) (by linarith), (g.gin.funs i).rate_after (x := φ) (by linarith)]

omit [DecidableEq P] in
theorem looks_flowOk : ∀ (looks : List Nat) {s f : DFlow}, FlowOk n s → runFlow n.data s (looks.map FlowCall.look) = .ok f → FlowOk n f ∧ SameRates s f := by
  intro looks
  induction looks with
  | nil => intro s f h hr; injection hr with hr; subst hr; exact ⟨h, SameRates.refl _⟩
  | cons e looks ih =>
    intro s f h hr
    rw [List.map_cons, runFlow] at hr
    obtain ⟨s1, h1, h2⟩ := bind_eq_ok.mp hr
    obtain ⟨v, s', k1, k2, k3, _⟩ := look_spec h e
    simp only [stepFlow, k1, ok_bind, py_pure] at h1
    injection h1 with h1; subst h1
    obtain ⟨z1, z2⟩ := ih k2 h2
    exact ⟨z1, k3.trans z2⟩

theorem callsOk_looks {D : EdgeData} : ∀ (looks : List Nat) (s : DFlow), CallsOk D s (looks.map FlowCall.look) := by
  intro looks
  induction looks with
  | nil => intro s; trivial
  | cons e looks ih => intro s; exact ⟨fun _ _ h => (by cases h), fun s' _ => ih s'⟩

end Builder
end Verif
