import Verif.Proofs.CachesCompose
import Verif.Proofs.DFlowLoad

/-! What src/core/dynamic_flow.py writes past `extend_with_slope`. -/

namespace Verif.Caching
open Verif Verif.Spec

theorem slope_first {f g : PL} {t s : ℚ} (h : f.extendWithSlope t s = .ok g) : g.first = f.first := by
  unfold PL.extendWithSlope at h
  obtain ⟨tl, _, h⟩ := bind_eq_ok.mp h
  obtain ⟨_, _, h⟩ := bind_eq_ok.mp h
  split at h
  · injection h with h; rw [← h]
  · split at h
    · obtain ⟨_, _, h⟩ := bind_eq_ok.mp h
      injection h with h; rw [← h]
    · injection h with h; rw [← h]

theorem frc_first {c d : FRC} {t x : ℚ} {v : Rates} (h : c.extend t v x = .ok d) : d.acc.first = c.acc.first := by
  unfold FRC.extend at h
  obtain ⟨_, _, h⟩ := bind_eq_ok.mp h
  split at h
  · obtain ⟨_, _, h⟩ := bind_eq_ok.mp h
    obtain ⟨_, k, h⟩ := bind_eq_ok.mp h
    injection h with h; rw [← h]; exact slope_first k
  · obtain ⟨_, _, h⟩ := bind_eq_ok.mp h
    obtain ⟨_, _, h⟩ := bind_eq_ok.mp h
    obtain ⟨_, _, h⟩ := bind_eq_ok.mp h
    obtain ⟨_, k, h⟩ := bind_eq_ok.mp h
    injection h with h; rw [← h]; exact slope_first k

theorem look_first {c d : FRC} {t : ℚ} {v : Rates} (h : c.getValuesAtTime t = .ok (v, d)) : d.acc = c.acc := by
  unfold FRC.getValuesAtTime at h
  split at h
  · injection h with h; injection h with h1 h2; rw [← h2]
  · split at h
    · cases h
    · split at h
      · injection h with h; injection h with h1 h2; rw [← h2]
      · injection h with h; injection h with h1 h2; rw [← h2]

/-- The cumulative flows start with slope 0. -/
def Firsts (s : DFlow) : Prop := ∀ e, (s.inflow e).acc.first = 0 ∧ (s.outflow e).acc.first = 0

theorem Firsts.out {s : DFlow} (h : Firsts s) {e : Nat} {c : FRC} (hc : c.acc.first = 0) : Firsts { s with outflow := setAt s.outflow e c } := by
  intro j
  refine ⟨(h j).1, ?_⟩
  show ((setAt s.outflow e c) j).acc.first = 0
  unfold setAt
  split
  · exact hc
  · exact (h j).2

theorem Firsts.inn {s : DFlow} (h : Firsts s) {e : Nat} {c : FRC} (hc : c.acc.first = 0) : Firsts { s with inflow := setAt s.inflow e c } := by
  intro j
  refine ⟨?_, (h j).2⟩
  show ((setAt s.inflow e c) j).acc.first = 0
  unfold setAt
  split
  · exact hc
  · exact (h j).1

theorem caseI_first {net : EdgeData} {s s' : DFlow} {e : Nat} {q : ℚ} (h : Firsts s) (he : DFlow.caseI net s e q = .ok s') : Firsts s' := by
  unfold DFlow.caseI at he
  obtain ⟨o, k, he⟩ := bind_eq_ok.mp he
  have hf := h.out (e := e) ((frc_first k).trans (h e).2)
  obtain ⟨_, _, he⟩ := bind_eq_ok.mp he
  obtain ⟨_, _, he⟩ := bind_eq_ok.mp he
  split at he
  · obtain ⟨_, _, he⟩ := bind_eq_ok.mp he
    obtain ⟨_, _, he⟩ := bind_eq_ok.mp he
    obtain ⟨_, _, he⟩ := bind_eq_ok.mp he
    injection he with he; subst he; exact hf
  · split at he
    · obtain ⟨_, _, he⟩ := bind_eq_ok.mp he
      injection he with he; subst he; exact hf
    · injection he with he; subst he; exact hf

theorem caseII_first {net : EdgeData} {s s' : DFlow} {e : Nat} {v : Rates} {q a : ℚ} (h : Firsts s) (he : DFlow.caseII net s e v q a = .ok s') : Firsts s' := by
  unfold DFlow.caseII at he
  obtain ⟨o, k, he⟩ := bind_eq_ok.mp he
  have hf := h.out (e := e) ((frc_first k).trans (h e).2)
  obtain ⟨_, _, he⟩ := bind_eq_ok.mp he
  obtain ⟨_, _, he⟩ := bind_eq_ok.mp he
  split at he
  · obtain ⟨_, _, he⟩ := bind_eq_ok.mp he
    injection he with he; subst he; exact hf
  · injection he with he; subst he; exact hf

theorem caseIII_first {net : EdgeData} {s s' : DFlow} {e : Nat} {v : Rates} {q a : ℚ} (h : Firsts s) (he : DFlow.caseIII net s e v q a = .ok s') : Firsts s' := by
  unfold DFlow.caseIII at he
  obtain ⟨o, k, he⟩ := bind_eq_ok.mp he
  have hf := h.out (e := e) ((frc_first k).trans (h e).2)
  obtain ⟨_, _, he⟩ := bind_eq_ok.mp he
  obtain ⟨_, _, he⟩ := bind_eq_ok.mp he
  obtain ⟨_, _, he⟩ := bind_eq_ok.mp he
  obtain ⟨_, _, he⟩ := bind_eq_ok.mp he
  obtain ⟨_, _, he⟩ := bind_eq_ok.mp he
  injection he with he; subst he; exact hf

theorem setInflow_first {net : EdgeData} {s s' : DFlow} {e : Nat} {v : Rates} (h : Firsts s) (he : DFlow.setInflow net s e v = .ok s') : Firsts s' := by
  unfold DFlow.setInflow at he
  obtain ⟨⟨cur, c⟩, k, he⟩ := bind_eq_ok.mp he
  have hc := look_first k
  simp only at he
  have h1 := h.inn (e := e) (c := c) (by rw [hc]; exact (h e).1)
  split at he
  · injection he with he; subst he; exact h1
  · obtain ⟨_, _, he⟩ := bind_eq_ok.mp he
    obtain ⟨d, k2, he⟩ := bind_eq_ok.mp he
    have h2 := h1.inn (e := e) ((frc_first k2).trans (h1 e).1)
    split at he
    · exact caseI_first h2 he
    · split at he
      · exact caseII_first h2 he
      · exact caseIII_first h2 he

theorem setInflows_first {net : EdgeData} : ∀ (l : List (Nat × Rates)) {s s' : DFlow}, Firsts s → DFlow.setInflows net l s = .ok s' → Firsts s'
  | [], _, _, h, he => by injection he with he; subst he; exact h
  | (e, v) :: l, s, s', h, he => by
    unfold DFlow.setInflows at he
    obtain ⟨t, k, he⟩ := bind_eq_ok.mp he
    exact setInflows_first l (setInflow_first h k) he

theorem depletion_first {s s' : DFlow} (h : Firsts s) (he : s.processDepletion = .ok s') : Firsts s' := by
  unfold DFlow.processDepletion at he
  obtain ⟨⟨e, d, ch, deps⟩, _, he⟩ := bind_eq_ok.mp he
  obtain ⟨_, _, he⟩ := bind_eq_ok.mp he
  obtain ⟨_, _, he⟩ := bind_eq_ok.mp he
  obtain ⟨_, _, he⟩ := bind_eq_ok.mp he
  simp only at he
  split at he
  · injection he with he; subst he; exact h
  · obtain ⟨_, _, he⟩ := bind_eq_ok.mp he
    obtain ⟨o, k, he⟩ := bind_eq_ok.mp he
    injection he with he; subst he
    exact h.out (e := e) ((frc_first k).trans (h e).2)

theorem depletions_first : ∀ (n : Nat) {s s' : DFlow}, Firsts s → DFlow.processDepletions n s = .ok s' → Firsts s'
  | 0, _, _, _, he => by cases he
  | n + 1, s, s', h, he => by
    unfold DFlow.processDepletions at he
    obtain ⟨_, _, he⟩ := bind_eq_ok.mp he
    split at he
    · obtain ⟨t, k, he⟩ := bind_eq_ok.mp he
      exact depletions_first n (depletion_first h k) he
    · injection he with he; subst he; exact h

theorem collect_first : ∀ (n : Nat) {s s' : DFlow} {a b : List Nat}, Firsts s → DFlow.collectChanges n s a = .ok (s', b) → Firsts s'
  | 0, _, _, _, _, _, he => by cases he
  | n + 1, s, s', a, b, h, he => by
    unfold DFlow.collectChanges at he
    obtain ⟨_, _, he⟩ := bind_eq_ok.mp he
    split at he
    · obtain ⟨⟨hp, p⟩, k, he⟩ := bind_eq_ok.mp he
      simp only at he
      exact collect_first n (s := { s with changes := hp }) h he
    · injection he with he; injection he with h1 h2; subst h1; exact h

theorem extend_first {net : EdgeData} {s s' : DFlow} {l : List (Nat × Rates)} {T : ℚ} {b : List Nat} (h : Firsts s) (he : s.extend net l T = .ok (s', b)) : Firsts s' := by
  unfold DFlow.extend at he
  obtain ⟨t, k, he⟩ := bind_eq_ok.mp he
  obtain ⟨_, _, he⟩ := bind_eq_ok.mp he
  obtain ⟨_, _, he⟩ := bind_eq_ok.mp he
  obtain ⟨phi, _, he⟩ := bind_eq_ok.mp he
  obtain ⟨u, k2, he⟩ := bind_eq_ok.mp he
  have h1 : Firsts { t with phi := phi } := by
    have := setInflows_first l h k
    exact this
  exact collect_first _ (depletions_first _ h1 k2) he

theorem empty_first {c : FRC} (h : FRC.empty = .ok c) : c.acc.first = 0 := by
  have : FRC.empty.toOption.map (fun c => c.acc.first) = some 0 := by decide +kernel
  rw [h] at this
  injection this

theorem init_first {s : DFlow} (h : DFlow.init = .ok s) : Firsts s := by
  unfold DFlow.init at h
  obtain ⟨c, k, h⟩ := bind_eq_ok.mp h
  obtain ⟨_, _, h⟩ := bind_eq_ok.mp h
  injection h with h; subst h
  exact fun _ => ⟨empty_first k, empty_first k⟩

theorem run_first {net : EdgeData} : ∀ (calls : List FlowCall) {s s' : DFlow}, Firsts s → runFlow net s calls = .ok s' → Firsts s'
  | [], _, _, h, he => by injection he with he; subst he; exact h
  | c :: calls, s, s', h, he => by
    unfold runFlow at he
    obtain ⟨t, k, he⟩ := bind_eq_ok.mp he
    refine run_first calls ?_ he
    unfold stepFlow at k
    split at k
    · obtain ⟨⟨u, b⟩, k1, k2⟩ := bind_eq_ok.mp k
      injection k2 with k2; subst k2
      exact extend_first h k1
    · obtain ⟨⟨u, b⟩, k1, k2⟩ := bind_eq_ok.mp k
      injection k2 with k2; subst k2
      unfold DFlow.lookOutflow at k1
      obtain ⟨⟨v, c⟩, k3, k4⟩ := bind_eq_ok.mp k1
      injection k4 with k4; injection k4 with k5 k6; subst k6
      exact h.out (by rw [look_first k3]; exact (h _).2)

theorem load_start {s : DFlow} {e : Nat} {cap tt φ : ℚ} {p : Pend} {Lin Lout r : ℚ} {Vin Vout : Rates}
    (h : DFlow.EdgeOk cap tt φ (s.inflow e) (s.outflow e) (s.queues e) p Lin Vin Lout Vout r) (hf : Firsts s)
    (hsep : Apart eps ((s.inflow e).acc.times ++ (s.outflow e).acc.times)) :
    ∃ l, (s.inflow e).acc.sub (s.outflow e).acc = .ok l ∧ l.first = 0 ∧ l.values.head? = some 0 := by
  obtain ⟨n, n1, n2, n3, n4, n5, n6, n7, n8⟩ := PL.neg_ok h.gout.acc.wf
  have hlo : max (s.inflow e).acc.lo n.lo = ((0 : ℚ) : WithBot ℚ) := by rw [n4, h.gin.accLo, h.gout.accLo, max_self]
  have hhi : min (s.inflow e).acc.hi n.hi = ⊤ := by rw [n5, h.gin.acc.hi, h.gout.acc.hi, min_self]
  obtain ⟨l, l1, l2, l3, l4, l8, _, l5, l6, l7⟩ := PL.plus_ok h.gin.acc.wf n2 (by rw [hlo, hhi]; rfl) (by
    unfold PL.Sep2
    rw [hlo, hhi, n3]
    intro a ha b hb hab
    have hz : (0 : ℚ) ∈ (s.inflow e).acc.times := h.gin.zero
    have : ∀ x, x ∈ (s.inflow e).acc.times ++ (s.outflow e).acc.times ++ ends ((0 : ℚ) : WithBot ℚ) ⊤ →
        x ∈ (s.inflow e).acc.times ++ (s.outflow e).acc.times := by
      intro x hx
      rcases List.mem_append.mp hx with hx | hx
      · exact hx
      · have : x = 0 := by simpa [ends] using hx
        rw [this]; exact List.mem_append_left _ hz
    exact hsep a (this a ha) b (this b hb) hab)
  rw [hlo] at l3
  rw [hhi] at l4
  have hdom : ∀ t, 0 ≤ t → l.inDom t := by
    intro t ht; unfold PL.inDom; rw [l3, l4]; exact ⟨WithBot.coe_le_coe.mpr ht, le_top⟩
  have hz0 : l.fn 0 = 0 := by
    rw [l5 0 (hdom 0 le_rfl), PL.neg_fn h.gout.acc.wf n1, h.gin.accZero, h.gout.accZero]; ring
  have hz : (0 : ℚ) ∈ l.times := l7 0 (hdom 0 le_rfl) (Or.inl h.gin.zero)
  have hhead : l.times[0]'l2.pos = 0 := by
    have a1 := head_le l2.lt l2.pos hz
    have a2 := (l2.dom _ (List.getElem_mem l2.pos)).1
    rw [l3] at a2
    exact le_antisymm a1 (WithBot.coe_le_coe.mp a2)
  have hvl : 0 < l.values.length := by rw [l2.len]; exact l2.pos
  have hv0 : l.values[0]'hvl = 0 := by
    rw [← PL.fn_time l2 0 l2.pos, hhead, hz0]
  refine ⟨l, ?_, ?_, ?_⟩
  · unfold PL.sub; rw [n1, ok_bind, l1]
  · rw [l8, n6, (hf e).1, (hf e).2]; norm_num
  · rw [List.head?_eq_getElem?, List.getElem?_eq_getElem hvl, hv0]

end Verif.Caching
