import Verif.Model.PredictedDelay
import Verif.Proofs.RC

/-! `is_positive_during`. -/

namespace Verif
namespace Delay

theorem anyPositive_eq (values : List ℚ) : ∀ rs : List Int, (∀ r ∈ rs, (max 0 r).toNat < values.length) →
    anyPositive values rs = .ok (rs.any (fun r => decide (eps < values.getD (max 0 r).toNat 0))) := by
  intro rs
  induction rs with
  | nil => intro _; rfl
  | cons r rs ih =>
    intro h
    have hr := h r (by simp)
    unfold anyPositive
    rw [rd_lt _ _ hr, ok_bind, ih (fun r hr => h r (by simp [hr]))]
    have e : values.getD (max 0 r).toNat 0 = values[(max 0 r).toNat] := by
      rw [List.getD_eq_getElem?_getD, List.getElem?_eq_getElem hr]; rfl
    rw [List.any_cons, e]
    by_cases hv : values[(max 0 r).toNat] > eps
    · have h2 : eps < values[(max 0 r).toNat] := hv
      rw [if_pos hv, decide_eq_true h2]; rfl
    · have h2 : ¬ eps < values[(max 0 r).toNat] := hv
      rw [if_neg hv, decide_eq_false h2, Bool.false_or]

/-- Some value on `[a, b)` is above `eps`. -/
theorem isPositiveDuring_spec {f : RC} (h : f.WF) {a b : ℚ} (hab : a < b) :
    ∃ r, isPositiveDuring f a b = .ok r ∧ (r = true ↔ ∃ x, a ≤ x ∧ x < b ∧ eps < f.fn x) := by
  unfold isPositiveDuring
  rw [elemLrank_eq h.le h.ne, ok_bind, elemRank_eq h.le h.ne, ok_bind]
  have hc : f.times.countP (fun t => decide (t ≤ a)) = f.cnt a := rfl
  rw [hc]
  have hle : f.times.countP (fun t => decide (t < b)) ≤ f.times.length := List.countP_le_length
  generalize hB : f.times.countP (fun t => decide (t < b)) = B at hle ⊢
  have hltB : ∀ (i : Nat) (hi : i < f.times.length), i < B ↔ f.times[i] < b := fun i hi => by rw [← hB]; exact lt_countP_lt_iff h.le b i hi
  have hAB : ∀ x < b, f.cnt x ≤ B := by
    intro x hx
    rw [← hB]
    refine List.countP_mono_left ?_
    intro t _ ht
    simp only [decide_eq_true_eq] at ht ⊢
    exact lt_of_le_of_lt ht hx
  have hpos := h.pos
  have hlen := h.len
  rw [anyPositive_eq]
  · refine ⟨_, rfl, ?_⟩
    rw [List.any_eq_true]
    constructor
    · rintro ⟨r, hr, hv⟩
      obtain ⟨k, hk, rfl⟩ := List.mem_map.mp hr
      rw [List.mem_range] at hk
      rw [decide_eq_true_eq] at hv
      rcases Nat.eq_zero_or_pos k with h0 | h0
      · refine ⟨a, le_rfl, hab, ?_⟩
        unfold RC.fn RC.idx
        have : (max 0 ((f.cnt a : Int) - 1 + (k : Int))).toNat = f.cnt a - 1 := by omega
        rw [this] at hv; exact hv
      · by_cases hz : f.cnt a = 0
        · -- rank k - 1
          have e' : (max 0 ((f.cnt a : Int) - 1 + (k : Int))).toNat = k - 1 := by omega
          have hi' : k - 1 < f.times.length := by omega
          rw [e'] at hv
          refine ⟨f.times[k - 1], ?_, (hltB _ hi').mp (by omega), ?_⟩
          · by_contra hc
            have := (RC.lt_cnt h a hi').mpr (le_of_lt (not_le.mp hc))
            omega
          · rw [RC.fn_time h hi']
            rw [List.getD_eq_getElem?_getD, List.getElem?_eq_getElem (by omega)] at hv
            exact hv
        · have hi : f.cnt a - 1 + k < f.times.length := by omega
          have e' : (max 0 ((f.cnt a : Int) - 1 + (k : Int))).toNat = f.cnt a - 1 + k := by omega
          rw [e'] at hv
          refine ⟨f.times[f.cnt a - 1 + k], ?_, (hltB _ hi).mp (by omega), ?_⟩
          · by_contra hc
            have := (RC.lt_cnt h a hi).mpr (le_of_lt (not_le.mp hc))
            omega
          · rw [RC.fn_time h hi]
            rw [List.getD_eq_getElem?_getD, List.getElem?_eq_getElem (by omega)] at hv
            exact hv
    · rintro ⟨x, h1, h2, h3⟩
      have m1 := f.cnt_mono h1
      have m2 := hAB x h2
      refine ⟨(f.cnt x : Int) - 1, List.mem_map.mpr ⟨f.cnt x - f.cnt a, List.mem_range.mpr (by omega), by omega⟩, ?_⟩
      rw [decide_eq_true_eq]
      have : (max 0 ((f.cnt x : Int) - 1)).toNat = f.cnt x - 1 := by omega
      rw [this]; exact h3
  · intro r hr
    obtain ⟨k, hk, rfl⟩ := List.mem_map.mp hr
    rw [List.mem_range] at hk
    have := f.cnt_le a
    omega

end Delay
end Verif
