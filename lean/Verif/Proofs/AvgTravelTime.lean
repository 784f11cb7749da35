import Verif.Spec.AvgTravelTime
import Verif.Proofs.Area
import Verif.Proofs.Combine
import Verif.Proofs.PLInt

namespace Verif
namespace AvgTravelTime
open Spec

theorem inflow_nonneg {h : RC} (hh : InflowOk h) (x : ℚ) : 0 ≤ h.fn x := by
  unfold RC.fn
  by_cases hi : RC.idx h x < h.values.length
  · rw [List.getD_eq_getElem?_getD, List.getElem?_eq_getElem hi]; exact hh.vals _ (List.getElem_mem hi)
  · rw [List.getD_eq_getElem?_getD, List.getElem?_eq_none (by omega)]; rfl

theorem sumFrom_spec {H : List ℚ} (hH : Apart eps H) : ∀ (fs : List RC) (acc : RC), InflowOk acc → (∀ t ∈ acc.times, t ∈ H) →
    (∀ f ∈ fs, InflowOk f ∧ ∀ t ∈ f.times, t ∈ H) →
    ∃ s, sumFrom acc fs = .ok s ∧ InflowOk s ∧ (∀ t ∈ s.times, t ∈ H) ∧ (∀ t ∈ acc.times, t ∈ s.times) ∧ ∀ x, s.fn x = acc.fn x + (fs.map (fun f => f.fn x)).sum := by
  intro fs
  induction fs with
  | nil => intro acc h1 h2 _; exact ⟨acc, rfl, h1, h2, fun _ h => h, fun x => by simp⟩
  | cons f fs ih =>
    intro acc h1 h2 h3
    obtain ⟨hf, hfH⟩ := h3 f (by simp)
    have hsub : ∀ t ∈ acc.times ++ f.times, t ∈ H := by
      intro t ht
      rcases List.mem_append.mp ht with h | h
      · exact h2 t h
      · exact hfH t h
    obtain ⟨s, s1, s2, s3, s4⟩ := Combine.add_inflow h1 hf (fun a ha b hb => hH a (hsub a ha) b (hsub b hb))
    obtain ⟨r, r1, r2, r3, r4, r5⟩ := ih s s2 (fun t ht => hsub t (List.mem_append.mpr ((s4 t).mp ht))) (fun g hg => h3 g (by simp [hg]))
    refine ⟨r, by unfold sumFrom; rw [s1, ok_bind, r1], r2, r3, fun t ht => r4 t ((s4 t).mpr (.inl ht)), fun x => ?_⟩
    rw [r5, s3, List.map_cons, List.sum_cons]; ring

theorem zero_inflow : InflowOk ⟨[0], [0], ((0 : ℚ) : WithBot ℚ), ⊤⟩ :=
  ⟨rfl, by simp, by simp, by simp, rfl, rfl, by simp⟩

/-- What `accumulate` computes. -/
theorem accumulate_spec {fs : List RC} (hf : ∀ f ∈ fs, InflowOk f) (hH : Apart eps (0 :: (fs.map RC.times).flatten)) :
    ∃ F, accumulate fs = .ok F ∧ F.WF ∧ (∀ x, 0 ≤ x → F.inDom x) ∧ (∀ v ∈ F.values, 0 ≤ v) ∧ StepArea (fun x => (fs.map (fun f => f.fn x)).sum) F.fn ∧
      LinArea F.fn (fun x => F.prim x - F.prim 0) := by
  have hz := zero_inflow
  have hnew : RC.new [0] [0] ((0 : ℚ) : WithBot ℚ) ⊤ = .ok ⟨[0], [0], ((0 : ℚ) : WithBot ℚ), ⊤⟩ := RC.new_ok (Builder.inflowOk_wf hz)
  obtain ⟨s, s1, s2, s3, s4, s5⟩ := sumFrom_spec hH fs _ hz (by simp) (by
    intro f hm
    refine ⟨hf f hm, fun t ht => ?_⟩
    rw [List.mem_cons]; right
    rw [List.mem_flatten]
    exact ⟨f.times, List.mem_map.mpr ⟨f, hm, rfl⟩, ht⟩)
  have wf := Builder.inflowOk_wf s2
  have hgap : s.times.Pairwise (fun a b => a < b - eps) := by
    refine List.Pairwise.imp_of_mem ?_ wf.lt
    intro a b ha hb hab
    have := hH a (s3 a ha) b (s3 b hb) hab
    linarith
  have h0m : (0 : ℚ) ∈ s.times := s4 0 (by simp)
  have h0 : s.times[0]'wf.pos = 0 := by
    apply le_antisymm
    · obtain ⟨j, hj, e⟩ := List.getElem_of_mem h0m
      have : s.times[0]'wf.pos ≤ s.times[j] := by
        rcases Nat.eq_zero_or_pos j with rfl | hp
        · exact le_rfl
        · exact le_of_lt (List.pairwise_iff_getElem.mp wf.lt 0 j wf.pos hj hp)
      rw [e] at this; exact this
    · exact s2.pos _ (List.getElem_mem _)
  obtain ⟨F, f1, f2, f3, f4, f5, f6, f7⟩ := RC.integral_ok wf hgap (by rw [h0, s2.lo]) (by rw [s2.hi]; exact le_top)
  rw [h0] at f6 f7
  have hfn : ∀ x, s.fn x = (fs.map (fun f => f.fn x)).sum := by
    intro x
    rw [s5]
    have : RC.fn ⟨[0], [0], ((0 : ℚ) : WithBot ℚ), ⊤⟩ x = 0 := by simp [RC.fn, RC.idx, RC.cnt]; split <;> simp_all
    rw [this, zero_add]
  have hdom : ∀ x, 0 ≤ x → F.inDom x := by
    intro x hx
    unfold PL.inDom
    rw [f3, f4, s2.lo, s2.hi]
    exact ⟨WithBot.coe_le_coe.mpr hx, le_top⟩
  have hpos : ∀ (k : Nat) (hk : k < s.times.length), 0 ≤ F.fn s.times[k] := by
    intro k
    induction k with
    | zero => intro hk; rw [h0, f6]
    | succ k ih =>
      intro hk
      have h1 := ih (by omega)
      have hlt : s.times[k] < s.times[k + 1] := List.pairwise_iff_getElem.mp wf.lt k (k + 1) (by omega) hk (by omega)
      have := f7 s.times[k] s.times[k + 1] (s2.pos _ (List.getElem_mem _)) hlt.le (by
        intro t ht
        obtain ⟨j, hj, rfl⟩ := List.getElem_of_mem ht
        rintro ⟨h2, h3⟩
        rcases Nat.lt_or_ge k j with h | h
        · rcases Nat.eq_or_lt_of_le (Nat.succ_le_of_lt h) with e | e
          · subst e; exact lt_irrefl _ h3
          · exact lt_asymm h3 (List.pairwise_iff_getElem.mp wf.lt (k + 1) j hk hj e)
        · rcases Nat.eq_or_lt_of_le h with e | e
          · subst e; exact lt_irrefl _ h2
          · exact lt_asymm h2 (List.pairwise_iff_getElem.mp wf.lt j k hj (by omega) e))
      have h2 := mul_nonneg (inflow_nonneg s2 s.times[k]) (sub_nonneg.mpr hlt.le)
      linarith
  refine ⟨F, ?_, f2, hdom, ?_, ⟨f6, s.times, ?_⟩, ?_⟩
  · unfold accumulate; rw [hnew, ok_bind, s1, ok_bind, f1]
  · intro v hv
    obtain ⟨j, hj, rfl⟩ := List.getElem_of_mem hv
    have hj' : j < F.times.length := by rw [← f2.len]; exact hj
    rw [← PL.fn_time f2 j hj']
    have := hpos j (by rw [← f5]; exact hj')
    simpa only [f5] using this
  · intro a b ha hab hno
    simp only
    rw [f7 a b ha hab hno, hfn]
  · refine ⟨by ring, F.times, ?_⟩
    intro a b ha hab hno
    have := PL.prim_affine f2 hab (PL.fn_affine f2 hno)
    simp only
    linarith

end AvgTravelTime
end Verif
