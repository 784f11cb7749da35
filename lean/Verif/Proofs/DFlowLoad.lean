import Verif.Proofs.DFlowRun

/-! The load of an edge. -/

namespace Verif
open Spec
namespace DFlow

/-- The load of an edge whose record is exact. -/
theorem edgeLoad_ok {s : DFlow} {e : Nat} {cap tt φ : ℚ} {p : Pend} {Lin Lout r : ℚ} {Vin Vout : Rates}
    (h : EdgeOk cap tt φ (s.inflow e) (s.outflow e) (s.queues e) p Lin Vin Lout Vout r)
    (hsep : Apart eps ((s.inflow e).acc.times ++ (s.outflow e).acc.times)) :
    ∃ g, s.edgeLoad e = .ok g ∧ g.WF ∧ g.lo = ⊥ ∧ g.hi = ⊤ ∧ (∀ t, t ≤ 0 → g.fn t = 0) ∧
      ∀ t, 0 ≤ t → g.fn t = (s.inflow e).acc.fn t - (s.outflow e).acc.fn t := by
  obtain ⟨n, n1, n2, n3, n4, n5, n6, n7, n8⟩ := PL.neg_ok h.gout.acc.wf
  have hlo : max (s.inflow e).acc.lo n.lo = ((0 : ℚ) : WithBot ℚ) := by rw [n4, h.gin.accLo, h.gout.accLo, max_self]
  have hhi : min (s.inflow e).acc.hi n.hi = ⊤ := by rw [n5, h.gin.acc.hi, h.gout.acc.hi, min_self]
  obtain ⟨l, l1, l2, l3, l4, _, _, l5, l6, l7⟩ := PL.plus_ok h.gin.acc.wf n2 (by rw [hlo, hhi]; rfl) (by
    unfold PL.Sep2
    rw [hlo, hhi, n3]
    intro a ha b hb hab
    have hz : (0 : ℚ) ∈ (s.inflow e).acc.times := h.gin.zero
    have : ∀ x, x ∈ (s.inflow e).acc.times ++ (s.outflow e).acc.times ++ ends ((0 : ℚ) : WithBot ℚ) ⊤ →
        x ∈ (s.inflow e).acc.times ++ (s.outflow e).acc.times := by
      intro x hx
      rcases List.mem_append.mp hx with hx | hx
      · exact hx
      · have : x = 0 := by simpa [ends] using hx
        rw [this]; exact List.mem_append_left _ hz
    exact hsep a (this a ha) b (this b hb) hab)
  rw [hlo] at l3
  rw [hhi] at l4
  have hdom : ∀ t, 0 ≤ t → l.inDom t := by
    intro t ht; unfold PL.inDom; rw [l3, l4]; exact ⟨WithBot.coe_le_coe.mpr ht, le_top⟩
  have hfn : ∀ t, 0 ≤ t → l.fn t = (s.inflow e).acc.fn t - (s.outflow e).acc.fn t := by
    intro t ht
    rw [l5 t (hdom t ht), PL.neg_fn h.gout.acc.wf n1]; ring
  have hz0 : l.fn 0 = 0 := by rw [hfn 0 le_rfl, h.gin.accZero, h.gout.accZero]; ring
  have hz : (0 : ℚ) ∈ l.times := l7 0 (hdom 0 le_rfl) (Or.inl h.gin.zero)
  have hhead : l.times[0]'l2.pos = 0 := by
    have a1 := head_le l2.lt l2.pos hz
    have a2 := (l2.dom _ (List.getElem_mem l2.pos)).1
    rw [l3] at a2
    exact le_antisymm a1 (WithBot.coe_le_coe.mp a2)
  have hv0 : l.values[0]'(by rw [l2.len]; exact l2.pos) = 0 := by
    rw [← PL.fn_time l2 0 l2.pos, hhead, hz0]
  have hgw : PL.WF { l with first := 0, lo := ⊥ } := ⟨l2.len, l2.ne, l2.gap, fun t ht => ⟨bot_le, (l2.dom t ht).2⟩⟩
  have hgdom : ∀ t, PL.inDom { l with first := 0, lo := ⊥ } t := by
    intro t; unfold PL.inDom; simp only [l4]; exact ⟨bot_le, le_top⟩
  have hgneg : ∀ t, t ≤ 0 → PL.fn { l with first := 0, lo := ⊥ } t = 0 := by
    intro t ht
    rw [PL.fn_left hgw hgw.pos (by simp only [hhead]; exact ht)]
    simp only [hv0]; ring
  have hgpos : ∀ t, 0 ≤ t → PL.fn { l with first := 0, lo := ⊥ } t = l.fn t := by
    intro t ht
    rcases eq_or_lt_of_le ht with h1 | h1
    · subst h1; rw [hgneg 0 le_rfl, hz0]
    · refine PL.fn_eq_of hgw l.fn (fun x => 0 ≤ x) ?_ ?_ ?_ ?_ t ht
      · intro i hi; exact (PL.fn_time l2 i hi).symm
      · intro i hi
        obtain ⟨m, hm⟩ := PL.fn_affine l2 (a := l.times[i]'(by simp only at hi; omega)) (b := l.times[i + 1]'hi) (by
          intro z hz hc
          obtain ⟨j, hj, rfl⟩ := List.getElem_of_mem hz
          have e1 := List.pairwise_iff_getElem.mp l2.lt
          by_cases c1 : j ≤ i
          · rcases eq_or_lt_of_le c1 with c1 | c1
            · subst c1; exact lt_irrefl _ hc.1
            · exact absurd (e1 j i hj (by simp only at hi; omega) c1) (not_lt.mpr (le_of_lt hc.1))
          · by_cases c2 : j = i + 1
            · subst c2; exact lt_irrefl _ hc.2
            · exact absurd (e1 (i + 1) j hi hj (by omega)) (not_lt.mpr (le_of_lt hc.2)))
        exact ⟨m, hm⟩
      · intro x hx1 hx2
        simp only [hhead] at hx2 ⊢
        have : x = 0 := le_antisymm hx2 hx1
        rw [this]; ring
      · intro x hx1 hx2
        have hle : ∀ z ∈ l.times, z ≤ l.times.getLast l2.ne := fun z hz => le_getLast l2.lt l2.ne hz
        exact PL.fn_right_aff l2 (fun z hz => le_trans (hle z hz) hx2) hle
  refine ⟨{ l with first := 0, lo := ⊥ }, ?_, hgw, rfl, l4, hgneg, fun t ht => by rw [hgpos t ht, hfn t ht]⟩
  unfold DFlow.edgeLoad PL.sub
  rw [n1, ok_bind, l1, ok_bind, pyAssert_true l3, ok_bind, PL.eval_eq l2 (hdom 0 le_rfl), ok_bind, hz0,
    pyAssert_true (by simp), ok_bind, rd_lt _ _ (by rw [l2.len]; exact l2.pos), ok_bind, hv0]
  rfl

end DFlow
end Verif
