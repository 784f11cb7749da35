import Verif.Proofs.PLPiece

/-! The fluid queue laws, for plain functions: how they survive a change of the inflow rate and the
depletion of a queue. No code is mentioned here. -/

namespace Verif
open PL (ext)

/-- Laws of an edge with capacity `cap` and travel time `tt` for entry times in `dom`: `Fp`, `Fm` are the
cumulative in- and outflow, `q` the queue. -/
structure Laws (cap tt : ℚ) (Fp Fm q : ℚ → ℚ) (dom : ℚ → Prop) : Prop where
  fp_mono : ∀ x y, x ≤ y → Fp x ≤ Fp y
  fm_lip : ∀ x y, x ≤ y → 0 ≤ Fm y - Fm x ∧ Fm y - Fm x ≤ cap * (y - x)
  q_nonneg : ∀ t, dom t → 0 ≤ q t
  bal : ∀ t, dom t → q t = Fp t - Fm (t + tt)
  busy : ∀ t y, dom t → t + tt ≤ y → y ≤ t + tt + q t / cap → Fm y = Fm (t + tt) + cap * (y - (t + tt))
  sk : ∀ t, dom t → ∃ s, 0 ≤ s ∧ s ≤ t ∧ q t = Fp t - Fp s - cap * (t - s)

theorem ext_le {F : ℚ → ℚ} {s m x : ℚ} (h : x ≤ s) : ext F s m x = F x := if_pos h
theorem ext_ge {F : ℚ → ℚ} {s m x : ℚ} (h : s ≤ x) : ext F s m x = F s + m * (x - s) := by
  unfold ext
  split
  · rename_i h2
    have : x = s := le_antisymm h2 h
    subst this; simp
  · rfl

theorem ext_mono {F : ℚ → ℚ} {s m : ℚ} (hF : ∀ x y, x ≤ y → F x ≤ F y) (hm : 0 ≤ m) :
    ∀ x y, x ≤ y → ext F s m x ≤ ext F s m y := by
  intro x y hxy
  rcases le_total y s with h | h
  · rw [ext_le h, ext_le (le_trans hxy h)]; exact hF x y hxy
  · rw [ext_ge h]
    rcases le_total x s with h' | h'
    · rw [ext_le h']
      have := hF x s h'
      have := mul_nonneg hm (sub_nonneg.mpr h)
      linarith
    · rw [ext_ge h']
      have := mul_le_mul_of_nonneg_left (sub_le_sub_right hxy s) hm
      linarith

theorem ext_lip {F : ℚ → ℚ} {s m c : ℚ} (hF : ∀ x y, x ≤ y → 0 ≤ F y - F x ∧ F y - F x ≤ c * (y - x)) (hm : 0 ≤ m)
    (hc : m ≤ c) : ∀ x y, x ≤ y → 0 ≤ ext F s m y - ext F s m x ∧ ext F s m y - ext F s m x ≤ c * (y - x) := by
  intro x y hxy
  rcases le_total y s with h | h
  · rw [ext_le h, ext_le (le_trans hxy h)]; exact hF x y hxy
  · rw [ext_ge h]
    rcases le_total x s with h' | h'
    · rw [ext_le h']
      obtain ⟨a, b⟩ := hF x s h'
      have h1 := mul_nonneg hm (sub_nonneg.mpr h)
      have h2 := mul_le_mul_of_nonneg_right hc (sub_nonneg.mpr h)
      constructor
      · linarith
      · nlinarith
    · rw [ext_ge h']
      have h0 : 0 ≤ y - x := sub_nonneg.mpr hxy
      have h1 := mul_nonneg hm h0
      have h2 := mul_le_mul_of_nonneg_right hc h0
      constructor <;> nlinarith

section
variable {cap tt : ℚ} {Fp Fm q : ℚ → ℚ} {dom : ℚ → Prop}

/-- Exit times do not decrease. -/
theorem Laws.exit_mono (h : Laws cap tt Fp Fm q dom) (hc : 0 < cap) {s t : ℚ} (hs : dom s) (ht : dom t) (hst : s ≤ t) :
    s + tt + q s / cap ≤ t + tt + q t / cap := by
  have h1 := h.bal s hs
  have h2 := h.bal t ht
  have h3 := h.fp_mono s t hst
  have h4 := (h.fm_lip (s + tt) (t + tt) (by linarith)).2
  have : q s - cap * (t - s) ≤ q t := by
    have : cap * (t + tt - (s + tt)) = cap * (t - s) := by ring
    linarith
  have h5 : (q s - cap * (t - s)) / cap ≤ q t / cap := by gcongr
  have h6 : (q s - cap * (t - s)) / cap = q s / cap - (t - s) := by field_simp
  linarith

/-- What has entered by `t` has left by the exit time of `t`. -/
theorem Laws.conserve (h : Laws cap tt Fp Fm q dom) (hc : 0 < cap) {t : ℚ} (ht : dom t) :
    Fm (t + tt + q t / cap) = Fp t := by
  have h0 : 0 ≤ q t / cap := div_nonneg (h.q_nonneg t ht) (le_of_lt hc)
  rw [h.busy t _ ht (by linarith) le_rfl]
  have : cap * (t + tt + q t / cap - (t + tt)) = q t := by field_simp; ring
  rw [this, h.bal t ht]; ring

/-- If the exit time is the same at `s < t`, nothing entered in between. -/
theorem Laws.still (h : Laws cap tt Fp Fm q dom) (hc : 0 < cap) {s t : ℚ} (hs : dom s) (ht : dom t) (_hst : s ≤ t)
    (he : s + tt + q s / cap = t + tt + q t / cap) : Fp t = Fp s := by
  rw [← h.conserve hc hs, ← h.conserve hc ht, he]

/-- A change of the inflow rate to `a` at `φ`: the outflow rate becomes `r` at the exit time of `φ`, the
queue slope `σ`. -/
theorem Laws.set (h : Laws cap tt Fp Fm q dom) (hc : 0 < cap) {dom' : ℚ → Prop} {φ a r σ : ℚ}
    (hφ : dom φ) (hφ0 : 0 ≤ φ) (ha : 0 ≤ a) (hr : 0 ≤ r) (hrc : r ≤ cap)
    (hd : ∀ t, dom' t → 0 ≤ t)
    (hdown : ∀ t, 0 ≤ t → t ≤ φ → dom t)
    (hcase : (r = cap ∧ σ = a - cap ∧ ∀ t, dom' t → φ ≤ t → 0 ≤ q φ + σ * (t - φ)) ∨
      (q φ = 0 ∧ r = a ∧ σ = 0) ∨
      (0 < q φ ∧ a = 0 ∧ r = 0 ∧ σ = -cap ∧ ∀ t, dom' t → t ≤ φ + q φ / cap)) :
    Laws cap tt (ext Fp φ a) (ext Fm (φ + tt + q φ / cap) r) (ext q φ σ) dom' := by
  have hq0 := h.q_nonneg φ hφ
  have hqc : 0 ≤ q φ / cap := div_nonneg hq0 (le_of_lt hc)
  have hqe : cap * (q φ / cap) = q φ := by field_simp
  have hbal := h.bal φ hφ
  have hcons := h.conserve hc hφ
  -- the outflow in the busy period of φ
  have hbusy : ∀ y, φ + tt ≤ y → y ≤ φ + tt + q φ / cap → Fm y = Fm (φ + tt) + cap * (y - (φ + tt)) :=
    fun y h1 h2 => h.busy φ y hφ h1 h2
  refine ⟨ext_mono h.fp_mono ha, ext_lip h.fm_lip hr hrc, ?_, ?_, ?_, ?_⟩
  · intro t ht
    rcases le_total t φ with h1 | h1
    · rw [ext_le h1]; exact h.q_nonneg t (hdown t (hd t ht) h1)
    · rw [ext_ge h1]
      rcases hcase with ⟨_, _, c3⟩ | ⟨c1, _, c3⟩ | ⟨c1, _, _, c4, c5⟩
      · exact c3 t ht h1
      · rw [c1, c3]; simp
      · rw [c4]
        have := c5 t ht
        have : cap * (t - φ) ≤ cap * (q φ / cap) := mul_le_mul_of_nonneg_left (by linarith) (le_of_lt hc)
        rw [hqe] at this; linarith
  · intro t ht
    rcases le_total t φ with h1 | h1
    · have hdt := hdown t (hd t ht) h1
      have hm := h.exit_mono hc hdt hφ h1
      have : 0 ≤ q t / cap := div_nonneg (h.q_nonneg t hdt) (le_of_lt hc)
      rw [ext_le h1, ext_le h1, ext_le (by linarith)]
      exact h.bal t hdt
    · rw [ext_ge h1, ext_ge h1]
      rcases le_total (t + tt) (φ + tt + q φ / cap) with h2 | h2
      · rw [ext_le h2, hbusy _ (by linarith) h2]
        rcases hcase with ⟨_, c2, _⟩ | ⟨c1, c2, c3⟩ | ⟨c1, c2, _, c4, _⟩
        · rw [c2]; linarith
        · rw [c1] at h2; simp at h2
          have : t = φ := le_antisymm h2 h1
          subst this; linarith
        · rw [c4, c2]; linarith
      · rw [ext_ge h2, hcons]
        rcases hcase with ⟨c1, c2, _⟩ | ⟨c1, c2, c3⟩ | ⟨c1, c2, c3, c4, c5⟩
        · rw [c1, c2]
          have : cap * (t + tt - (φ + tt + q φ / cap)) = cap * (t - φ) - q φ := by rw [← hqe]; ring_nf; field_simp
          rw [this]; ring
        · rw [c1, c2, c3]; ring
        · have := c5 t ht
          have : t = φ + q φ / cap := by linarith
          rw [this, c2, c3, c4]
          have : φ + q φ / cap - φ = q φ / cap := by ring
          rw [this]
          linarith
  · intro t y ht h1 h2
    rcases le_total t φ with h3 | h3
    · have hdt := hdown t (hd t ht) h3
      have hm := h.exit_mono hc hdt hφ h3
      rw [ext_le h3] at h2
      rw [ext_le (by linarith), ext_le (by linarith)]
      exact h.busy t y hdt h1 h2
    · rw [ext_ge h3] at h2
      rcases hcase with ⟨c1, c2, c3⟩ | ⟨c1, c2, c3⟩ | ⟨c1, c2, c3, c4, c5⟩
      · -- rate cap throughout
        have key : ∀ z, φ + tt ≤ z → ext Fm (φ + tt + q φ / cap) r z = Fm (φ + tt) + cap * (z - (φ + tt)) := by
          intro z hz
          rcases le_total z (φ + tt + q φ / cap) with h4 | h4
          · rw [ext_le h4, hbusy z hz h4]
          · rw [ext_ge h4, c1, hbusy _ (by linarith) le_rfl]; ring
        rw [key y (by linarith), key (t + tt) (by linarith)]; ring
      · rw [c1, c3] at h2
        simp at h2
        have : y = t + tt := le_antisymm h2 h1
        subst this; simp
      · have h5 := c5 t ht
        have h6 : (q φ + σ * (t - φ)) / cap = q φ / cap - (t - φ) := by rw [c4]; field_simp; ring
        rw [h6] at h2
        rw [ext_le (by linarith), ext_le (by linarith), hbusy y (by linarith) (by linarith),
          hbusy (t + tt) (by linarith) (by linarith)]
        ring
  · intro t ht
    rcases le_total t φ with h1 | h1
    · obtain ⟨s, s0, s1, s2⟩ := h.sk t (hdown t (hd t ht) h1)
      exact ⟨s, s0, s1, by rw [ext_le h1, ext_le h1, ext_le (le_trans s1 h1)]; exact s2⟩
    · have hmain : σ = a - cap → ∃ s, 0 ≤ s ∧ s ≤ t ∧ ext q φ σ t = ext Fp φ a t - ext Fp φ a s - cap * (t - s) := by
        intro e
        obtain ⟨s, s0, s1, s2⟩ := h.sk φ hφ
        refine ⟨s, s0, le_trans s1 h1, ?_⟩
        rw [ext_ge h1, ext_ge h1, ext_le s1, s2, e]; ring
      rcases hcase with ⟨_, c2, _⟩ | ⟨c1, c2, c3⟩ | ⟨c1, c2, c3, c4, c5⟩
      · exact hmain c2
      · refine ⟨t, by linarith, le_rfl, ?_⟩
        rw [ext_ge (F := q) h1, c1, c3]; ring
      · exact hmain (by rw [c4, c2]; ring)

/-- The queue runs empty at `D` while the inflow rate is `a`. -/
theorem Laws.deplete (h : Laws cap tt Fp Fm q dom) (hc : 0 < cap) {D a : ℚ} (hD : dom D) (hD0 : 0 ≤ D) (hq : q D = 0)
    (hdown : ∀ t, 0 ≤ t → t ≤ D → dom t) (haff : ∀ t, D ≤ t → Fp t = Fp D + a * (t - D)) (ha : 0 ≤ a) (hac : a ≤ cap) :
    Laws cap tt Fp (ext Fm (D + tt) a) (ext q D 0) (fun t => 0 ≤ t) := by
  have hbal := h.bal D hD
  rw [hq] at hbal
  have hex : ∀ t, 0 ≤ t → t ≤ D → t + tt + q t / cap ≤ D + tt := by
    intro t h0 h1
    have := h.exit_mono hc (hdown t h0 h1) hD h1
    rw [hq] at this; simpa using this
  refine ⟨h.fp_mono, ext_lip h.fm_lip ha hac, ?_, ?_, ?_, ?_⟩
  · intro t ht
    rcases le_total t D with h1 | h1
    · rw [ext_le h1]; exact h.q_nonneg t (hdown t ht h1)
    · rw [ext_ge h1, hq]; simp
  · intro t ht
    rcases le_total t D with h1 | h1
    · rw [ext_le h1, ext_le (by linarith)]; exact h.bal t (hdown t ht h1)
    · rw [ext_ge h1, ext_ge (by linarith), hq, haff t h1]
      have : t + tt - (D + tt) = t - D := by ring
      rw [this]; linarith
  · intro t y ht h1 h2
    rcases le_total t D with h3 | h3
    · rw [ext_le h3] at h2
      have := hex t ht h3
      rw [ext_le (by linarith), ext_le (by linarith)]
      exact h.busy t y (hdown t ht h3) h1 h2
    · rw [ext_ge h3, hq] at h2
      simp at h2
      have : y = t + tt := le_antisymm h2 h1
      subst this; simp
  · intro t ht
    rcases le_total t D with h1 | h1
    · rw [ext_le h1]; exact h.sk t (hdown t ht h1)
    · refine ⟨t, ht, le_rfl, ?_⟩
      rw [ext_ge h1, hq]; ring

/-- Just after `t` exit times move at some rate `k`, and the inflow rates at `t` are `k` times the outflow rates
at the exit time of `t`. -/
def Mix (cap tt : ℚ) (q : ℚ → ℚ) (inR outR : Nat → ℚ → ℚ) (dom : ℚ → Prop) : Prop :=
  ∀ t, dom t → ∃ k, 0 ≤ k ∧ (∀ i, inR i t = k * outR i (t + tt + q t / cap)) ∧
    ∃ δ, 0 < δ ∧ ∀ u, t ≤ u → u ≤ t + δ → dom u → u + tt + q u / cap = t + tt + q t / cap + k * (u - t)

/-- Rates vanish where the cumulative function does not grow. -/
def Grows (F : ℚ → ℚ) (R : Nat → ℚ → ℚ) : Prop := ∀ s t, 0 ≤ s → s < t → F t = F s → ∀ i, R i s = 0

theorem Mix.set (h : Laws cap tt Fp Fm q dom) (hc : 0 < cap) (htt : 0 ≤ tt) {inR outR inR' outR' : Nat → ℚ → ℚ} (hm : Mix cap tt q inR outR dom)
    (hg : Grows Fp inR) {dom' : ℚ → Prop} {φ σ k : ℚ} {v : Nat → ℚ} (hφ : dom φ) (hφ0 : 0 ≤ φ)
    (hd : ∀ t, dom' t → 0 ≤ t) (hdown : ∀ t, 0 ≤ t → t ≤ φ → dom t)
    (hin : ∀ i x, 0 ≤ x → inR' i x = if x < φ then inR i x else v i)
    (hout : ∀ i x, 0 ≤ x → outR' i x = if x < φ + tt + q φ / cap then outR i x else k * v i)
    (hk : (∀ i, v i = 0) ∨ (1 + σ / cap) * k = 1) (hk0 : 0 ≤ 1 + σ / cap)
    (hσ : ∀ t, dom' t → φ ≤ t → φ + tt + q φ / cap ≤ t + tt + (q φ + σ * (t - φ)) / cap) :
    Mix cap tt (ext q φ σ) inR' outR' dom' := by
  intro t ht
  have ht0 := hd t ht
  by_cases h1 : t < φ
  · have hdt := hdown t ht0 (le_of_lt h1)
    have hex := h.exit_mono hc hdt hφ (le_of_lt h1)
    have hy0 : 0 ≤ t + tt + q t / cap := by
      have := div_nonneg (h.q_nonneg t hdt) (le_of_lt hc); linarith
    rw [ext_le (le_of_lt h1)]
    rcases lt_or_eq_of_le hex with h2 | h2
    · obtain ⟨κ, m0, m1, δ, m2, m3⟩ := hm t hdt
      refine ⟨κ, m0, ?_, min δ (φ - t), lt_min m2 (by linarith), ?_⟩
      · intro i
        rw [hout _ _ hy0, if_pos h2, hin _ _ ht0, if_pos h1]
        exact m1 i
      · intro u u1 u2 _
        have a1 := le_trans u2 (add_le_add_right (min_le_left δ (φ - t)) t)
        have a2 := le_trans u2 (add_le_add_right (min_le_right δ (φ - t)) t)
        have a3 : u ≤ φ := by linarith
        rw [ext_le a3]
        exact m3 u u1 a1 (hdown u (by linarith) a3)
    · have hz := hg t φ ht0 h1 (h.still hc hdt hφ (le_of_lt h1) h2)
      refine ⟨0, le_rfl, ?_, φ - t, by linarith, ?_⟩
      · intro i
        rw [hin _ _ ht0, if_pos h1, hz]; ring
      · intro u u1 u2 _
        have a3 : u ≤ φ := by linarith
        have hdu := hdown u (by linarith) a3
        rw [ext_le a3]
        have b1 := h.exit_mono hc hdt hdu u1
        have b2 := h.exit_mono hc hdu hφ a3
        linarith
  · have h1' := not_lt.mp h1
    have h2 := hσ t ht h1'
    have hy0 : 0 ≤ t + tt + (q φ + σ * (t - φ)) / cap := by
      have := div_nonneg (h.q_nonneg φ hφ) (le_of_lt hc); linarith
    rw [ext_ge h1']
    refine ⟨1 + σ / cap, hk0, ?_, 1, one_pos, ?_⟩
    · intro i
      rw [hout _ _ hy0, if_neg (not_lt.mpr h2), hin _ _ ht0, if_neg h1]
      rcases hk with hk | hk
      · rw [hk]; ring
      · rw [← mul_assoc, hk, one_mul]
    · intro u u1 _ _
      rw [ext_ge (le_trans h1' u1)]
      field_simp; ring

theorem Mix.deplete (h : Laws cap tt Fp Fm q dom) (hc : 0 < cap) (htt : 0 ≤ tt) {inR outR outR' : Nat → ℚ → ℚ} (hm : Mix cap tt q inR outR dom)
    (hg : Grows Fp inR) {D : ℚ} {v : Nat → ℚ} (hD : dom D) (hq : q D = 0) (hdown : ∀ t, 0 ≤ t → t ≤ D → dom t)
    (hin : ∀ i x, D ≤ x → inR i x = v i)
    (hout : ∀ i x, 0 ≤ x → outR' i x = if x < D + tt then outR i x else v i) :
    Mix cap tt (ext q D 0) inR outR' (fun t => 0 ≤ t) := by
  intro t ht0
  by_cases h1 : t < D
  · have hdt := hdown t ht0 (le_of_lt h1)
    have hex := h.exit_mono hc hdt hD (le_of_lt h1)
    have hy0 : 0 ≤ t + tt + q t / cap := by
      have := div_nonneg (h.q_nonneg t hdt) (le_of_lt hc); linarith
    rw [ext_le (le_of_lt h1)]
    rcases lt_or_eq_of_le hex with h2 | h2
    · rw [hq] at h2
      simp at h2
      obtain ⟨κ, m0, m1, δ, m2, m3⟩ := hm t hdt
      refine ⟨κ, m0, ?_, min δ (D - t), lt_min m2 (by linarith), ?_⟩
      · intro i
        rw [hout _ _ hy0, if_pos h2]
        exact m1 i
      · intro u u1 u2 _
        have a1 := le_trans u2 (add_le_add_right (min_le_left δ (D - t)) t)
        have a2 := le_trans u2 (add_le_add_right (min_le_right δ (D - t)) t)
        have a3 : u ≤ D := by linarith
        rw [ext_le a3]
        exact m3 u u1 a1 (hdown u (by linarith) a3)
    · have hz := hg t D ht0 h1 (h.still hc hdt hD (le_of_lt h1) h2)
      refine ⟨0, le_rfl, ?_, D - t, by linarith, ?_⟩
      · intro i
        rw [hz]; ring
      · intro u u1 u2 _
        have a3 : u ≤ D := by linarith
        have hdu := hdown u (by linarith) a3
        rw [ext_le a3]
        have b1 := h.exit_mono hc hdt hdu u1
        have b2 := h.exit_mono hc hdu hD a3
        linarith
  · have h1' := not_lt.mp h1
    rw [ext_ge h1', hq]
    have hy0 : 0 ≤ t + tt := by linarith
    refine ⟨1, zero_le_one, ?_, 1, one_pos, ?_⟩
    · intro i
      simp only [zero_mul, add_zero, zero_div]
      rw [hout _ _ hy0, if_neg (by linarith), hin _ _ h1', one_mul]
    · intro u u1 _ _
      rw [ext_ge (le_trans h1' u1), hq]
      ring

theorem Grows.set {F : ℚ → ℚ} {R R' : Nat → ℚ → ℚ} (h : Grows F R) (hF : ∀ x y, x ≤ y → F x ≤ F y) {φ a : ℚ} {v : Nat → ℚ}
    (ha : 0 ≤ a) (hv : a = 0 → ∀ i, v i = 0) (hR : ∀ i x, 0 ≤ x → R' i x = if x < φ then R i x else v i) :
    Grows (ext F φ a) R' := by
  intro s t hs hst he i
  rw [hR i s hs]
  by_cases h1 : s < φ
  · rw [if_pos h1]
    rw [ext_le (le_of_lt h1)] at he
    rcases le_total t φ with h2 | h2
    · rw [ext_le h2] at he; exact h s t hs hst he i
    · rw [ext_ge h2] at he
      have h3 := hF s φ (le_of_lt h1)
      have h4 := mul_nonneg ha (sub_nonneg.mpr h2)
      exact h s φ hs h1 (by linarith) i
  · rw [if_neg h1]
    have h1' := not_lt.mp h1
    rw [ext_ge h1', ext_ge (by linarith)] at he
    have : a * (t - s) = 0 := by linarith
    rcases mul_eq_zero.mp this with h2 | h2
    · exact hv h2 i
    · exact absurd h2 (by have := sub_pos.mpr hst; linarith)

end
end Verif
