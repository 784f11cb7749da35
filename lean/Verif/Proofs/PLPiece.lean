import Verif.Proofs.PLOps

/-! Pieces, inverse, restriction, extension, integration of piecewise linear functions. -/

set_option linter.unusedSimpArgs false
set_option linter.unusedSectionVars false

namespace Verif
namespace PL

/-- `x` lies in the closure of piece `r` (`-1` is left of all break points). -/
def InPiece (f : PL) (r : Int) (x : ℚ) : Prop :=
  (∀ (i : Nat) (h : i < f.times.length), (i : Int) = r → f.times[i] ≤ x) ∧
  (∀ (i : Nat) (h : i < f.times.length), (i : Int) = r + 1 → x ≤ f.times[i])

theorem getLast_idx {l : List ℚ} (h : l ≠ []) (i : Nat) (hi : i < l.length) (e : i + 1 = l.length) :
    l.getLast h = l[i] := by
  rw [List.getLast_eq_getElem]; congr 1; omega

theorem gradient_ok {f : PL} (h : f.WF) {r : Int} (h1 : -1 ≤ r) (h2 : r < f.times.length) :
    ∃ g, f.gradient r = .ok g := by
  by_cases c1 : r = -1
  · subst c1; exact ⟨_, gradient_first h⟩
  · by_cases c2 : r = (f.times.length : Int) - 1
    · subst c2; exact ⟨_, gradient_last h⟩
    · obtain ⟨i, rfl⟩ := Int.eq_ofNat_of_zero_le (show 0 ≤ r by omega)
      exact ⟨_, gradient_mid h i (by omega)⟩

theorem gradient_range {f : PL} {r : Int} {g : ℚ} (hg : f.gradient r = .ok g) :
    -1 ≤ r ∧ r < f.times.length := by
  unfold gradient at hg
  by_contra hc
  rw [pyAssert_false hc, error_bind] at hg
  exact absurd hg (by simp)

/-- On the closure of a piece the function is affine with the slope `gradient` returns. -/
theorem fn_piece {f : PL} (h : f.WF) {r : Int} {g : ℚ} (hg : f.gradient r = .ok g) {x y : ℚ}
    (hx : f.InPiece r x) (hy : f.InPiece r y) : f.fn x = f.fn y + g * (x - y) := by
  obtain ⟨h1, h2⟩ := gradient_range hg
  by_cases c1 : r = -1
  · subst c1
    rw [gradient_first h] at hg
    injection hg with hg
    have hx0 := hx.2 0 h.pos (by omega)
    have hy0 := hy.2 0 h.pos (by omega)
    rw [fn_left h h.pos hx0, fn_left h h.pos hy0, ← hg]; ring
  · by_cases c2 : r = (f.times.length : Int) - 1
    · subst c2
      rw [gradient_last h] at hg
      injection hg with hg
      have hp := h.pos
      have e := getLast_idx h.ne (f.times.length - 1) (by omega) (by omega)
      have hx0 := hx.1 (f.times.length - 1) (by omega) (by omega)
      have hy0 := hy.1 (f.times.length - 1) (by omega) (by omega)
      rw [fn_right h (by rw [e]; exact hx0), fn_right h (by rw [e]; exact hy0), ← hg]; ring
    · obtain ⟨i, rfl⟩ := Int.eq_ofNat_of_zero_le (show 0 ≤ r by omega)
      have hi : i + 1 < f.times.length := by omega
      rw [gradient_mid h i hi] at hg
      injection hg with hg
      rw [fn_mid h i hi (hx.1 i (by omega) rfl) (hx.2 (i + 1) hi (by omega)),
        fn_mid h i hi (hy.1 i (by omega) rfl) (hy.2 (i + 1) hi (by omega)), ← hg]; ring

theorem inPiece_time_left {f : PL} (h : f.WF) (i : Nat) (hi : i < f.times.length) : f.InPiece i f.times[i] := by
  constructor
  · intro j hj e
    have : j = i := by omega
    subst this; exact le_rfl
  · intro j hj e
    exact getElem_le_of h.lt (by omega) hj

theorem inPiece_time_right {f : PL} (h : f.WF) (i : Nat) (hi : i < f.times.length) :
    f.InPiece ((i : Int) - 1) f.times[i] := by
  constructor
  · intro j hj e
    exact getElem_le_of h.lt (by omega) hi
  · intro j hj e
    have : j = i := by omega
    subst this; exact le_rfl

theorem inPiece_lrank {f : PL} (h : f.WF) (x : ℚ) : f.InPiece ((f.times.countP (· ≤ x) : Int) - 1) x := by
  have key := fun i hi => lt_countP_le_iff h.le x i hi
  constructor
  · intro j hj e; rw [← key j hj]; omega
  · intro j hj e; apply le_of_lt; rw [← not_le, ← key j hj]; omega

theorem inPiece_rank {f : PL} (h : f.WF) (x : ℚ) : f.InPiece ((f.times.countP (· < x) : Int) - 1) x := by
  have key := fun i hi => lt_countP_lt_iff h.le x i hi
  constructor
  · intro j hj e; apply le_of_lt; rw [← key j hj]; omega
  · intro j hj e; rw [← not_lt, ← key j hj]; omega

/-! ### inverse -/

theorem pyDiv_ok {a b : ℚ} (h : b ≠ 0) : pyDiv a b = .ok (a / b) := by simp [pyDiv, h]

/-- `inverse` on a piece left of the last one, or on the last one for an argument on the far side of
the last value. -/
theorem inverse_first {f : PL} (h : f.WF) {x t : ℚ} (he : f.inverse x (-1) = .ok t) :
    f.first ≠ 0 ∧ t ≤ f.times[0]'h.pos ∧ f.fn t = x ∧ t = f.times[0]'h.pos + (x - f.values[0]'(by rw [h.len]; exact h.pos)) / f.first := by
  have hp := h.pos
  have hvl := h.len
  unfold inverse at he
  rw [pyAssert_true (by omega), ok_bind, if_pos rfl, gradient_first h, ok_bind,
    rd_lt _ _ (by omega : 0 < f.values.length), ok_bind] at he
  by_cases hc : (f.first > 0 ∧ x ≤ f.values[0]) ∨ (f.first < 0 ∧ x ≥ f.values[0])
  · rw [pyAssert_true hc, ok_bind, rd_lt _ _ hp, ok_bind] at he
    have hne : f.first ≠ 0 := by rcases hc with h | h <;> [exact ne_of_gt h.1; exact ne_of_lt h.1]
    rw [pyDiv_ok hne, ok_bind, py_pure] at he
    injection he with he
    have hle : t ≤ f.times[0] := by
      rw [← he]
      have : (x - f.values[0]) / f.first ≤ 0 := by
        rcases hc with h | h
        · exact div_nonpos_of_nonpos_of_nonneg (by linarith) (le_of_lt h.1)
        · exact div_nonpos_of_nonneg_of_nonpos (by linarith) (le_of_lt h.1)
      linarith
    refine ⟨hne, hle, ?_, he.symm⟩
    rw [fn_left h hp hle, ← he]
    field_simp
    ring
  · rw [pyAssert_false hc, error_bind] at he
    exact absurd he (by simp)

theorem inverse_last {f : PL} (h : f.WF) {x t : ℚ} (hlen : (f.times.length : Int) - 1 ≠ -1)
    (he : f.inverse x ((f.times.length : Int) - 1) = .ok t) :
    f.last ≠ 0 ∧ t = f.times.getLast h.ne + (x - f.values.getLast h.vne) / f.last := by
  have hp := h.pos
  have hvl := h.len
  unfold inverse at he
  rw [pyAssert_true (by omega), ok_bind, if_neg hlen, if_pos rfl, gradient_last h, ok_bind,
    rd_lt _ _ (by omega : 0 < f.values.length), ok_bind] at he
  by_cases hc : (f.last > 0 ∧ x ≥ f.values[0]) ∨ (f.last < 0 ∧ x ≤ f.values[0])
  · rw [pyAssert_true hc, ok_bind, rdLast_eq _ h.ne, ok_bind, rdLast_eq _ h.vne, ok_bind] at he
    have hne : f.last ≠ 0 := by rcases hc with h | h <;> [exact ne_of_gt h.1; exact ne_of_lt h.1]
    rw [pyDiv_ok hne, ok_bind, py_pure] at he
    injection he with he
    exact ⟨hne, he.symm⟩
  · rw [pyAssert_false hc, error_bind] at he
    exact absurd he (by simp)

theorem inverse_last_ok {f : PL} (h : f.WF) {x : ℚ}
    (hc : (f.last > 0 ∧ x ≥ f.values[0]'(by rw [h.len]; exact h.pos)) ∨ (f.last < 0 ∧ x ≤ f.values[0]'(by rw [h.len]; exact h.pos))) :
    f.inverse x ((f.times.length : Int) - 1) = .ok (f.times.getLast h.ne + (x - f.values.getLast h.vne) / f.last) := by
  have hp := h.pos
  have hvl := h.len
  unfold inverse
  rw [pyAssert_true (by omega), ok_bind, if_neg (by omega), if_pos rfl, gradient_last h, ok_bind,
    rd_lt _ _ (by omega : 0 < f.values.length), ok_bind]
  rw [pyAssert_true hc, ok_bind, rdLast_eq _ h.ne, ok_bind, rdLast_eq _ h.vne, ok_bind]
  have hne : f.last ≠ 0 := by rcases hc with h | h <;> [exact ne_of_gt h.1; exact ne_of_lt h.1]
  rw [pyDiv_ok hne, ok_bind, py_pure]

theorem inverse_first_ok {f : PL} (h : f.WF) {x : ℚ}
    (hc : (f.first > 0 ∧ x ≤ f.values[0]'(by rw [h.len]; exact h.pos)) ∨ (f.first < 0 ∧ x ≥ f.values[0]'(by rw [h.len]; exact h.pos))) :
    f.inverse x (-1) = .ok (f.times[0]'h.pos + (x - f.values[0]'(by rw [h.len]; exact h.pos)) / f.first) := by
  have hp := h.pos
  have hvl := h.len
  unfold inverse
  rw [pyAssert_true (by omega), ok_bind, if_pos rfl, gradient_first h, ok_bind,
    rd_lt _ _ (by omega : 0 < f.values.length), ok_bind]
  rw [pyAssert_true hc, ok_bind, rd_lt _ _ hp, ok_bind]
  have hne : f.first ≠ 0 := by rcases hc with h | h <;> [exact ne_of_gt h.1; exact ne_of_lt h.1]
  rw [pyDiv_ok hne, ok_bind, py_pure]

theorem inverse_mid_eq {f : PL} (h : f.WF) {x : ℚ} (i : Nat) (hi : i + 1 < f.times.length) :
    f.inverse x (i : Int) = (do
      pyAssert (f.values[i]'(by rw [h.len]; omega) < f.values[i + 1]'(by rw [h.len]; omega) ∨
        f.values[i]'(by rw [h.len]; omega) > f.values[i + 1]'(by rw [h.len]; omega))
      pyAssert ((f.values[i]'(by rw [h.len]; omega) ≤ x ∧ x ≤ f.values[i + 1]'(by rw [h.len]; omega)) ∨
        (f.values[i]'(by rw [h.len]; omega) ≥ x ∧ x ≥ f.values[i + 1]'(by rw [h.len]; omega)))
      let l ← pyDiv (x - f.values[i + 1]'(by rw [h.len]; omega)) (f.values[i]'(by rw [h.len]; omega) - f.values[i + 1]'(by rw [h.len]; omega))
      pure (l * f.times[i] + (1 - l) * f.times[i + 1])) := by
  have hp := h.pos
  have hvl := h.len
  unfold inverse
  rw [pyAssert_true (by omega), ok_bind, if_neg (by omega), if_neg (by omega)]
  rw [rdI_lt f.values (i : Int) i rfl (by omega), ok_bind, rdI_lt f.values ((i : Int) + 1) (i + 1) (by omega) (by omega), ok_bind]
  simp only [rdI_lt f.times (i : Int) i rfl (by omega), ok_bind, rdI_lt f.times ((i : Int) + 1) (i + 1) (by omega) (by omega)]

theorem inverse_mid {f : PL} (h : f.WF) {x t : ℚ} (i : Nat) (hi : i + 1 < f.times.length)
    (he : f.inverse x (i : Int) = .ok t) :
    f.times[i] ≤ t ∧ t ≤ f.times[i + 1] ∧ f.fn t = x ∧
      f.values[i]'(by rw [h.len]; omega) ≠ f.values[i + 1]'(by rw [h.len]; omega) := by
  have hvl := h.len
  rw [inverse_mid_eq h i hi] at he
  have hlt := getElem_lt_of h.lt (show i < i + 1 by omega) hi
  by_cases c1 : f.values[i] < f.values[i + 1] ∨ f.values[i] > f.values[i + 1]
  · rw [pyAssert_true c1, ok_bind] at he
    by_cases c2 : (f.values[i] ≤ x ∧ x ≤ f.values[i + 1]) ∨ (f.values[i] ≥ x ∧ x ≥ f.values[i + 1])
    · rw [pyAssert_true c2, ok_bind] at he
      have hne : f.values[i] - f.values[i + 1] ≠ 0 := by
        rcases c1 with c | c <;> [exact ne_of_lt (by linarith); exact ne_of_gt (by linarith)]
      rw [pyDiv_ok hne, ok_bind, py_pure] at he
      injection he with he
      have hl0 : 0 ≤ (x - f.values[i + 1]) / (f.values[i] - f.values[i + 1]) := by
        rcases c1 with c | c
        · rcases c2 with d | d
          · exact div_nonneg_of_nonpos (by linarith) (by linarith)
          · exfalso; linarith
        · rcases c2 with d | d
          · exfalso; linarith
          · exact div_nonneg (by linarith) (by linarith)
      have hl1 : (x - f.values[i + 1]) / (f.values[i] - f.values[i + 1]) ≤ 1 := by
        rcases c1 with c | c
        · rw [div_le_one_of_neg (by linarith)]
          rcases c2 with d | d <;> linarith
        · rw [div_le_one (by linarith)]
          rcases c2 with d | d <;> linarith
      generalize hl : (x - f.values[i + 1]) / (f.values[i] - f.values[i + 1]) = l at *
      have hx : x = l * f.values[i] + (1 - l) * f.values[i + 1] := by
        have : x - f.values[i + 1] = l * (f.values[i] - f.values[i + 1]) := by rw [← hl]; field_simp
        linarith
      have ht1 : f.times[i] ≤ t := by rw [← he]; nlinarith
      have ht2 : t ≤ f.times[i + 1] := by rw [← he]; nlinarith
      refine ⟨ht1, ht2, ?_, ?_⟩
      · rw [fn_mid h i hi ht1 ht2, hx, ← he]
        have : f.times[i + 1] - f.times[i] ≠ 0 := by linarith [sub_pos.mpr hlt]
        field_simp
        ring
      · intro e; rw [e, sub_self] at hne; exact hne rfl
    · rw [pyAssert_false c2, error_bind] at he; exact absurd he (by simp)
  · rw [pyAssert_false c1, error_bind] at he; exact absurd he (by simp)

theorem inverse_mid_ok {f : PL} (h : f.WF) {x : ℚ} (i : Nat) (hi : i + 1 < f.times.length)
    (h0 : f.values[i]'(by rw [h.len]; omega) < f.values[i + 1]'(by rw [h.len]; omega))
    (h1 : f.values[i]'(by rw [h.len]; omega) ≤ x) (h2 : x ≤ f.values[i + 1]'(by rw [h.len]; omega)) :
    ∃ t, f.inverse x (i : Int) = .ok t := by
  rw [inverse_mid_eq h i hi, pyAssert_true (Or.inl h0), ok_bind, pyAssert_true (Or.inl ⟨h1, h2⟩), ok_bind,
    pyDiv_ok (by intro e; linarith), ok_bind]
  exact ⟨_, rfl⟩

/-! ### extend_with_slope -/

theorem extend_wf {f : PL} (h : f.WF) {s m : ℚ} {g : PL} (hhi : (s : WithTop ℚ) ≤ f.hi)
    (he : f.extendWithSlope s m = .ok g) :
    g.WF ∧ g.lo = f.lo ∧ g.hi = f.hi ∧ g.first = f.first := by
  unfold extendWithSlope at he
  rw [rdLast_eq _ h.ne, ok_bind] at he
  by_cases c : s ≥ f.times.getLast h.ne - eps
  · rw [pyAssert_true c, ok_bind] at he
    by_cases c1 : |f.last - m| ≤ eps
    · rw [if_pos c1, py_pure] at he; injection he with he; subst he; exact ⟨h, rfl, rfl, rfl⟩
    · rw [if_neg c1] at he
      by_cases c2 : |s - f.times.getLast h.ne| > eps
      · rw [if_pos c2, rdLast_eq _ h.vne, ok_bind] at he
        simp only [py_pure] at he
        injection he with he; subst he
        have hs : f.times.getLast h.ne < s - eps := by
          rcases lt_abs.mp c2 with h1 | h1 <;> linarith
        refine ⟨⟨?_, ?_, ?_, ?_⟩, rfl, rfl, rfl⟩
        · simp [h.len]
        · simp
        · simp only
          rw [List.pairwise_append]
          refine ⟨h.gap, by simp, ?_⟩
          intro a ha b hb
          rw [List.mem_singleton] at hb; subst hb
          have := le_getLast h.lt h.ne ha
          linarith
        · intro t ht
          simp only [List.mem_append, List.mem_singleton] at ht
          rcases ht with ht | rfl
          · exact h.dom t ht
          · refine ⟨le_trans (h.dom _ (List.getLast_mem h.ne)).1 (WithBot.coe_le_coe.mpr ?_), hhi⟩
            have := eps_pos; linarith
      · rw [if_neg c2, py_pure] at he; injection he with he; subst he
        exact ⟨⟨h.len, h.ne, h.gap, h.dom⟩, rfl, rfl, rfl⟩
  · rw [pyAssert_false c, error_bind] at he; exact absurd he (by simp)

/-- `fn` does not depend on the slope or on break points further right. -/
theorem fn_eq_left {f g : PL} (hf : f.WF) (hg : g.WF) (hfirst : g.first = f.first) {s : ℚ}
    (htimes : g.times = f.times ∨ g.times = f.times ++ [s])
    (hval : ∀ i (hi : i < f.times.length), g.values[i]? = f.values[i]?) {x : ℚ}
    (hx : x ≤ f.times.getLast hf.ne) : g.fn x = f.fn x := by
  have hlenle : f.times.length ≤ g.times.length := by rcases htimes with e | e <;> rw [e] <;> simp
  have hgt : ∀ i (hi : i < f.times.length), g.times[i]'(by omega) = f.times[i] := by
    intro i hi
    rcases htimes with e | e
    · simp [e]
    · simp [e, List.getElem_append_left hi]
  have hgv : ∀ i (hi : i < f.times.length), g.values[i]'(by rw [hg.len]; omega) = f.values[i]'(by rw [hf.len]; omega) := by
    intro i hi
    have := hval i hi
    rw [List.getElem?_eq_getElem (by rw [hg.len]; omega), List.getElem?_eq_getElem (by rw [hf.len]; omega)] at this
    injection this
  have hp := hf.pos
  by_cases h0 : x ≤ f.times[0]
  · rw [fn_left hf hp h0, fn_left hg hg.pos (by rw [hgt 0 hp]; exact h0), hgt 0 hp, hgv 0 hp, hfirst]
  · have key := fun i hi => lt_countP_lt_iff hf.le x i hi
    have hc : f.times.countP (· < x) ≤ f.times.length := List.countP_le_length
    generalize hcc : f.times.countP (· < x) = c at *
    have c0 : c ≠ 0 := by
      have := (key 0 hp).mpr (not_le.mp h0); omega
    have cl : c ≠ f.times.length := by
      intro e
      have : f.times.length - 1 < c := by omega
      rw [key _ (by omega)] at this
      rw [getLast_idx hf.ne (f.times.length - 1) (by omega) (by omega)] at hx
      linarith
    obtain ⟨i, rfl⟩ : ∃ i, c = i + 1 := ⟨c - 1, by omega⟩
    have hi : i + 1 < f.times.length := by omega
    have h1 : f.times[i] < x := by rw [← key i (by omega)]; omega
    have h2 : x ≤ f.times[i + 1] := by rw [← not_lt, ← key (i + 1) hi]; omega
    rw [fn_mid hf i hi (le_of_lt h1) h2,
      fn_mid hg i (by omega) (by rw [hgt i (by omega)]; exact le_of_lt h1) (by rw [hgt (i + 1) hi]; exact h2),
      hgt i (by omega), hgt (i + 1) hi, hgv i (by omega), hgv (i + 1) hi]

/-- The intended function after an extension. -/
def ext (F : ℚ → ℚ) (s m x : ℚ) : ℚ := if x ≤ s then F x else F s + m * (x - s)

theorem extend_fn {f : PL} (h : f.WF) {s m : ℚ} (hhi : (s : WithTop ℚ) ≤ f.hi)
    (hs : s = f.times.getLast h.ne ∨ f.times.getLast h.ne + eps < s)
    (hm : m = f.last ∨ eps < |f.last - m|) :
    ∃ g, f.extendWithSlope s m = .ok g ∧ g.WF ∧ g.lo = f.lo ∧ g.hi = f.hi ∧ g.first = f.first ∧
      (∀ x, g.fn x = ext f.fn s m x) ∧ g.last = m ∧
      (∀ t ∈ g.times, t ∈ f.times ∨ t = s) ∧ (∀ t ∈ f.times, t ∈ g.times) ∧
      (m = f.last → g = f) ∧ (m ≠ f.last → s ∈ g.times) := by
  have heps := eps_pos
  have hle : f.times.getLast h.ne ≤ s := by rcases hs with e | e <;> linarith
  have hge : s ≥ f.times.getLast h.ne - eps := by linarith
  have hF : ∀ x, f.times.getLast h.ne ≤ x → f.fn x = f.fn s + f.last * (x - s) := by
    intro x hx
    exact fn_right_aff h (fun t ht => le_trans (le_getLast h.lt h.ne ht) hx)
      (fun t ht => le_trans (le_getLast h.lt h.ne ht) hle)
  by_cases c1 : |f.last - m| ≤ eps
  · have hm' : m = f.last := by rcases hm with e | e <;> [exact e; (exfalso; linarith)]
    refine ⟨f, ?_, h, rfl, rfl, rfl, ?_, hm'.symm, fun t ht => Or.inl ht, fun t ht => ht, fun _ => rfl, fun e => absurd hm' e⟩
    · unfold extendWithSlope
      rw [rdLast_eq _ h.ne, ok_bind, pyAssert_true hge, ok_bind, if_pos c1]; rfl
    · intro x
      unfold ext
      by_cases hx : x ≤ s
      · rw [if_pos hx]
      · rw [if_neg hx, hm']; exact hF x (by linarith [not_le.mp hx])
  · have hm' : m ≠ f.last := by rintro rfl; simp at c1; linarith
    by_cases c2 : |s - f.times.getLast h.ne| > eps
    · have hs' : f.times.getLast h.ne < s := by
        rcases lt_abs.mp c2 with h1 | h1 <;> linarith
      have he : f.extendWithSlope s m = .ok { f with values := f.values ++ [f.values.getLast h.vne + (s - f.times.getLast h.ne) * f.last], times := f.times ++ [s], last := m } := by
        unfold extendWithSlope
        rw [rdLast_eq _ h.ne, ok_bind, pyAssert_true hge, ok_bind, if_neg c1, if_pos c2, rdLast_eq _ h.vne, ok_bind]
        rfl
      obtain ⟨hw, hlo, hhi', hfi⟩ := extend_wf h hhi he
      refine ⟨_, he, hw, hlo, hhi', hfi, ?_, rfl, ?_, ?_, fun e => absurd e hm', fun _ => by simp⟩
      · intro x
        unfold ext
        have hsv : f.fn s = f.values.getLast h.vne + (s - f.times.getLast h.ne) * f.last := fn_right h hle
        by_cases hx : x ≤ s
        · rw [if_pos hx]
          by_cases hx2 : x ≤ f.times.getLast h.ne
          · refine fn_eq_left h hw hfi (s := s) (Or.inr rfl) ?_ hx2
            intro i hi
            simp only
            rw [List.getElem?_append_left (by rw [h.len]; exact hi)]
          · have hx2' := le_of_lt (not_le.mp hx2)
            have hp := h.pos
            have hvl := h.len
            have e1 := getLast_idx h.ne (f.times.length - 1) (by omega) (by omega)
            have e2 := getLast_idx h.vne (f.times.length - 1) (by omega) (by omega)
            obtain ⟨n, hn⟩ : ∃ n, f.times.length = n + 1 := ⟨f.times.length - 1, by omega⟩
            have hn1 : f.times.length - 1 = n := by omega
            simp only [hn1] at e1 e2
            rw [fn_mid hw n (by simp; omega)]
            · simp only [List.getElem_append_left (show n < f.values.length by omega),
                List.getElem_append_left (show n < f.times.length by omega)]
              have g1 : (f.values ++ [f.values.getLast h.vne + (s - f.times.getLast h.ne) * f.last])[n + 1]'(by simp; omega)
                = f.values.getLast h.vne + (s - f.times.getLast h.ne) * f.last := by
                rw [List.getElem_append_right (by omega)]; simp
              have g2 : (f.times ++ [s])[n + 1]'(by simp; omega) = s := by
                rw [List.getElem_append_right (by omega)]; simp
              rw [g1, g2, fn_right h hx2', ← e1, ← e2]
              have : s - f.times.getLast h.ne ≠ 0 := by linarith [sub_pos.mpr hs']
              field_simp
              ring
            · simp only [List.getElem_append_left (show n < f.times.length by omega)]
              rw [← e1]; exact hx2'
            · have g2 : (f.times ++ [s])[n + 1]'(by simp; omega) = s := by
                rw [List.getElem_append_right (by omega)]; simp
              simp only [g2]; exact hx
        · rw [if_neg hx]
          have hx' := le_of_lt (not_le.mp hx)
          rw [fn_right hw (by simpa using hx'), hsv]
          simp only [List.getLast_append_singleton]
          ring
      · intro t ht; simpa using ht
      · intro t ht; simp [ht]
    · have hs' : s = f.times.getLast h.ne := by
        rcases hs with e | e
        · exact e
        · exfalso; apply c2; rw [abs_of_pos (by linarith)]; linarith
      have he : f.extendWithSlope s m = .ok { f with last := m } := by
        unfold extendWithSlope
        rw [rdLast_eq _ h.ne, ok_bind, pyAssert_true hge, ok_bind, if_neg c1, if_neg c2]; rfl
      obtain ⟨hw, hlo, hhi', hfi⟩ := extend_wf h hhi he
      refine ⟨_, he, hw, hlo, hhi', hfi, ?_, rfl, fun t ht => Or.inl ht, fun t ht => ht, fun e => absurd e hm', ?_⟩
      · intro x
        unfold ext
        by_cases hx : x ≤ s
        · rw [if_pos hx]
          exact fn_eq_left h hw hfi (s := s) (Or.inl rfl) (fun i hi => rfl) (by rw [← hs']; exact hx)
        · rw [if_neg hx]
          have hx' := le_of_lt (not_le.mp hx)
          rw [fn_right hw (by show f.times.getLast h.ne ≤ x; rw [← hs']; exact hx'), fn_right h (x := s) (by rw [hs'])]
          show f.values.getLast h.vne + (x - f.times.getLast h.ne) * m = _
          rw [← hs']; ring
      · intro _
        show s ∈ f.times
        rw [hs']; exact List.getLast_mem _

end PL
end Verif
