import Verif.Proofs.PLMono
import Mathlib.Tactic.LinearCombination

/-! Restriction, integration and simplification of piecewise linear functions. -/

set_option linter.unusedSimpArgs false
set_option linter.unusedSectionVars false

namespace Verif

theorem getD_eq {l : List ℚ} (i : Nat) (h : i < l.length) : l.getD i 0 = l[i] := by
  simp [List.getD, h]

/-- A function that is affine between the points of `S` is affine on an interval inside which no point
of `S` is a kink. -/
theorem affine_glue (H : ℚ → ℚ) (S : List ℚ)
    (hS : ∀ a b, (∀ t ∈ S, ¬ (a < t ∧ t < b)) → ∃ m, ∀ x, a ≤ x → x ≤ b → H x = H a + m * (x - a)) :
    ∀ (n : Nat) (a b : ℚ), S.countP (fun t => decide (a < t ∧ t < b)) ≤ n →
      (∀ t ∈ S, a < t → t < b → ∃ u w m, u < t ∧ t < w ∧ ∀ x, u ≤ x → x ≤ w → H x = H t + m * (x - t)) →
      ∃ m, ∀ x, a ≤ x → x ≤ b → H x = H a + m * (x - a) := by
  intro n
  induction n with
  | zero =>
    intro a b hc _
    apply hS
    intro t ht hab
    have : 0 < S.countP (fun t => decide (a < t ∧ t < b)) :=
      List.countP_pos_iff.mpr ⟨t, ht, by simpa using hab⟩
    omega
  | succ n ih =>
    intro a b hc hk
    by_cases hno : ∀ t ∈ S, ¬ (a < t ∧ t < b)
    · exact hS a b hno
    · push Not at hno
      obtain ⟨t, ht, hat, htb⟩ := hno
      have cnt : ∀ a' b', a ≤ a' → b' ≤ b → ¬ (a' < t ∧ t < b') →
          S.countP (fun t => decide (a' < t ∧ t < b')) ≤ n := by
        intro a' b' h1 h2 h3
        have hlt : S.countP (fun t => decide (a' < t ∧ t < b')) < S.countP (fun t => decide (a < t ∧ t < b)) := by
          clear hc hk ih hS
          induction S with
          | nil => simp at ht
          | cons s S ih =>
            rcases List.mem_cons.mp ht with rfl | ht
            · have hle : S.countP (fun t => decide (a' < t ∧ t < b')) ≤ S.countP (fun t => decide (a < t ∧ t < b)) := by
                apply List.countP_mono_left
                intro x _ hx
                simp only [decide_eq_true_eq] at hx ⊢
                exact ⟨by linarith, by linarith⟩
              rw [List.countP_cons_of_neg (by simpa using h3), List.countP_cons_of_pos (by simp [hat, htb])]
              omega
            · have := ih ht
              rw [List.countP_cons, List.countP_cons]
              by_cases hs : a' < s ∧ s < b'
              · have hs' : a < s ∧ s < b := ⟨by linarith [hs.1], by linarith [hs.2]⟩
                simp only [hs, hs', and_self, decide_true, if_true]
                omega
              · simp only [hs, decide_false, Bool.false_eq_true, if_false]
                omega
        omega
      obtain ⟨m1, hm1⟩ := ih a t (cnt a t le_rfl (le_of_lt htb) (by simp)) (fun s hs h1 h2 => hk s hs h1 (by linarith))
      obtain ⟨m2, hm2⟩ := ih t b (cnt t b (le_of_lt hat) le_rfl (by simp)) (fun s hs h1 h2 => hk s hs (by linarith) h2)
      obtain ⟨u, w, m, hu, hw, hloc⟩ := hk t ht hat htb
      have e1 : m1 = m := by
        have hx : max a u < t := max_lt hat hu
        have h1 := hm1 (max a u) (le_max_left _ _) (le_of_lt hx)
        have h2 := hloc (max a u) (le_max_right _ _) (by linarith)
        have h3 := hm1 t (le_of_lt hat) le_rfl
        have h4 : (m1 - m) * (max a u - t) = 0 := by
          rw [h1] at h2
          linear_combination h2 + h3
        rcases mul_eq_zero.mp h4 with h | h
        · linarith
        · linarith
      have e2 : m2 = m := by
        have hx : t < min b w := lt_min htb hw
        have h1 := hm2 (min b w) (le_of_lt hx) (min_le_left _ _)
        have h2 := hloc (min b w) (by linarith) (min_le_right _ _)
        have h4 : (m2 - m) * (min b w - t) = 0 := by
          rw [h1] at h2
          linear_combination h2
        rcases mul_eq_zero.mp h4 with h | h
        · linarith
        · linarith
      refine ⟨m, ?_⟩
      intro x hax hxb
      by_cases c : x ≤ t
      · rw [hm1 x hax c, e1]
      · have h3 := hm1 t (le_of_lt hat) le_rfl
        rw [hm2 x (by linarith [not_le.mp c]) hxb, e2, h3, e1]; ring

namespace PL

/-! ### restrict -/

theorem restrict_ok {f : PL} (h : f.WF) {a b : ℚ} (ha : f.inDom a) (hb : f.inDom b) (hab : a ≤ b) :
    ∃ g, f.restrict a b = .ok g ∧ g.WF ∧ g.lo = (a : WithBot ℚ) ∧ g.hi = (b : WithTop ℚ) ∧
      ∀ x, a ≤ x → x ≤ b → g.fn x = f.fn x := by
  have hp := h.pos
  have hvl := h.len
  unfold restrict
  rw [pyAssert_true ⟨ha.1, hab, hb.2⟩, ok_bind, elemRank_eq h.le h.ne, ok_bind, elemLrank_eq h.le h.ne]
  simp only [ok_bind]
  have key1 := fun i hi => lt_countP_lt_iff h.le a i hi
  have key2 := fun i hi => lt_countP_le_iff h.le b i hi
  have pa := inPiece_rank h a
  have pb := inPiece_lrank h b
  have hc1 : f.times.countP (· < a) ≤ f.times.length := List.countP_le_length
  have hc2 : f.times.countP (· ≤ b) ≤ f.times.length := List.countP_le_length
  have hc12 : f.times.countP (· < a) ≤ f.times.countP (· ≤ b) := by
    apply List.countP_mono_left
    intro x _ hx
    simp only [decide_eq_true_eq] at hx ⊢
    linarith
  generalize f.times.countP (· < a) = c1 at *
  generalize f.times.countP (· ≤ b) = c2 at *
  have e1 : ((c1 : Int) - 1 + 1 - 1) = (c1 : Int) - 1 := by omega
  have e2 : ((c1 : Int) - 1 + 1) = (c1 : Int) := by omega
  obtain ⟨g1, hg1⟩ := gradient_ok h (r := (c1 : Int) - 1) (by omega) (by omega)
  obtain ⟨g2, hg2⟩ := gradient_ok h (r := (c2 : Int) - 1) (by omega) (by omega)
  rw [e1, hg1, ok_bind, hg2, ok_bind, e2]
  by_cases c : c1 < c2
  · rw [if_pos (by omega)]
    have e3 : ((c2 : Int) - 1 + 1 - (c1 : Int)).toNat = c2 - c1 := by omega
    rw [e3, Int.toNat_natCast]
    have hlenT : ((f.times.drop c1).take (c2 - c1)).length = c2 - c1 := by simp; omega
    have hlenV : ((f.values.drop c1).take (c2 - c1)).length = c2 - c1 := by simp; omega
    have hT : ∀ k, (hk : k < ((f.times.drop c1).take (c2 - c1)).length) →
        ((f.times.drop c1).take (c2 - c1))[k] = f.times[c1 + k]'(by rw [hlenT] at hk; omega) := by
      intro k hk; simp
    have hV : ∀ k, (hk : k < ((f.values.drop c1).take (c2 - c1)).length) →
        ((f.values.drop c1).take (c2 - c1))[k] = f.values[c1 + k]'(by rw [hlenV] at hk; omega) := by
      intro k hk; simp
    have hw : WF ⟨(f.times.drop c1).take (c2 - c1), (f.values.drop c1).take (c2 - c1), g1, g2, a, b⟩ := by
      refine ⟨by rw [hlenT, hlenV], ?_, ?_, ?_⟩
      · intro e; have := congrArg List.length e; rw [hlenT] at this; simp at this; omega
      · exact h.gap.sublist ((List.take_sublist _ _).trans (List.drop_sublist _ _))
      · intro t ht
        obtain ⟨k, hk, rfl⟩ := List.getElem_of_mem ht
        rw [hT k hk]
        rw [hlenT] at hk
        refine ⟨WithBot.coe_le_coe.mpr ?_, WithTop.coe_le_coe.mpr ?_⟩
        · rw [← not_lt, ← key1 _ (by omega)]; omega
        · rw [← key2 _ (by omega)]; omega
    refine ⟨_, new_ok hw, hw, rfl, rfl, ?_⟩
    intro x hax hxb
    refine fn_eq_of hw f.fn (fun x => a ≤ x ∧ x ≤ b) ?_ ?_ ?_ ?_ x ⟨hax, hxb⟩
    · intro i hi
      simp only at hi ⊢
      rw [hT i hi, fn_time h, hV]
    · intro i hi
      simp only at hi ⊢
      rw [hT i (by omega), hT (i + 1) hi]
      have hi' : c1 + i + 1 < f.times.length := by rw [hlenT] at hi; omega
      obtain ⟨m, hm⟩ := fn_affine h (a := f.times[c1 + i]) (b := f.times[c1 + (i + 1)]) (fun t htm => no_between h.lt hi' htm)
      exact ⟨m, hm⟩
    · intro x hx hx0
      simp only at hx0 ⊢
      rw [hT 0 (by omega)] at hx0 ⊢
      simp only [Nat.add_zero] at hx0 ⊢
      refine fn_piece h hg1 ⟨?_, ?_⟩ (inPiece_time_right h c1 (by omega))
      · intro j hj e; exact le_trans (pa.1 j hj e) hx.1
      · intro j hj e
        have : j = c1 := by omega
        subst this; exact hx0
    · intro x hx hxl
      simp only at hxl ⊢
      rw [List.getLast_eq_getElem, hT] at hxl ⊢
      have e4 : c1 + (((f.times.drop c1).take (c2 - c1)).length - 1) = c2 - 1 := by rw [hlenT]; omega
      simp only [e4] at hxl ⊢
      have e5 : ((c2 - 1 : Nat) : Int) = (c2 : Int) - 1 := by omega
      have pl := inPiece_time_left h (c2 - 1) (by omega)
      rw [e5] at pl
      refine fn_piece h hg2 ⟨?_, ?_⟩ pl
      · intro j hj e
        have : j = c2 - 1 := by omega
        subst this; exact hxl
      · intro j hj e; exact le_trans hx.2 (pb.2 j hj e)
  · rw [if_neg (by omega), eval_eq h ha, ok_bind]
    have hw : WF ⟨[a], [f.fn a], g1, g2, a, b⟩ := by
      refine ⟨rfl, by simp, by simp, ?_⟩
      intro t ht
      rw [List.mem_singleton] at ht; subst ht
      exact ⟨le_rfl, WithTop.coe_le_coe.mpr hab⟩
    refine ⟨_, new_ok hw, hw, rfl, rfl, ?_⟩
    intro x hax hxb
    have hcc : c1 = c2 := by omega
    have pxy : ∀ y, a ≤ y → y ≤ b → f.InPiece ((c2 : Int) - 1) y := by
      intro y h1 h2
      refine ⟨?_, fun j hj e => le_trans h2 (pb.2 j hj e)⟩
      intro j hj e
      exact le_trans (pa.1 j hj (by omega)) h1
    refine fn_eq_of hw f.fn (fun x => a ≤ x ∧ x ≤ b) ?_ ?_ ?_ ?_ x ⟨hax, hxb⟩
    · intro i hi
      simp at hi; subst hi; rfl
    · intro i hi
      simp at hi
    · intro x hx hx0
      simp only [List.getElem_cons_zero] at hx0 ⊢
      have : x = a := le_antisymm hx0 hx.1
      rw [this]; ring
    · intro x hx hxl
      exact fn_piece h hg2 (pxy x hx.1 hx.2) (pxy a le_rfl hab)

/-! ### integrate -/

/-- Cumulative area at the break points. -/
def areaAt (f : PL) : Nat → ℚ
  | 0 => 0
  | i + 1 => areaAt f i + (f.fn (f.times.getD (i + 1) 0) + f.fn (f.times.getD i 0)) / 2 *
      (f.times.getD (i + 1) 0 - f.times.getD i 0)

/-- An antiderivative of the function. -/
def prim (f : PL) (x : ℚ) : ℚ :=
  let i := f.times.countP (· ≤ x) - 1
  areaAt f i + (f.fn x + f.fn (f.times.getD i 0)) / 2 * (x - f.times.getD i 0)

theorem prim_piece_time {f : PL} (h : f.WF) {x : ℚ} (i : Nat) (hi : i < f.times.length)
    (h1 : f.times[i] ≤ x) (h2 : ∀ (hj : i + 1 < f.times.length), x ≤ f.times[i + 1]) :
    f.prim x = areaAt f i + (f.fn x + f.fn f.times[i]) / 2 * (x - f.times[i]) := by
  have key := fun j hj => lt_countP_le_iff h.le x j hj
  have hc : f.times.countP (· ≤ x) ≤ f.times.length := List.countP_le_length
  unfold prim
  simp only
  generalize f.times.countP (· ≤ x) = c at *
  have hic : i < c := (key i hi).mpr h1
  by_cases c1 : c = i + 1
  · subst c1
    rw [show i + 1 - 1 = i by omega, getD_eq i hi]
  · have hi1 : i + 1 < f.times.length := by omega
    have hx : x = f.times[i + 1] := le_antisymm (h2 hi1) ((key (i + 1) hi1).mp (by omega))
    have c2 : c = i + 2 := by
      by_contra hcon
      have hi2 : i + 2 < f.times.length := by omega
      have := (key (i + 2) hi2).mp (by omega)
      have := getElem_lt_of h.lt (show i + 1 < i + 2 by omega) hi2
      linarith
    subst c2
    simp only [Nat.add_sub_cancel, show i + 2 - 1 = i + 1 by omega, areaAt, getD_eq _ hi,
      getD_eq _ hi1, ← hx]
    ring

theorem prim_first {f : PL} (h : f.WF) {x : ℚ} (h1 : x ≤ f.times[0]'h.pos) :
    f.prim x = (f.fn x + f.fn (f.times[0]'h.pos)) / 2 * (x - f.times[0]'h.pos) := by
  have hp := h.pos
  rcases lt_or_eq_of_le h1 with hlt | heq
  · have key := fun j hj => lt_countP_le_iff h.le x j hj
    have hc : f.times.countP (· ≤ x) = 0 := by
      by_contra hcon
      have := (key 0 hp).mp (by omega)
      linarith
    unfold prim
    simp only [hc, areaAt, show 0 - 1 = 0 by omega, getD_eq _ hp]
    ring
  · rw [prim_piece_time h 0 hp (by rw [heq]) (fun hj => by rw [heq]; exact le_of_lt (getElem_lt_of h.lt (by omega) hj))]
    simp [areaAt]

theorem prim_time {f : PL} (h : f.WF) (i : Nat) (hi : i < f.times.length) : f.prim f.times[i] = areaAt f i := by
  rw [prim_piece_time h i hi le_rfl (fun hj => le_of_lt (getElem_lt_of h.lt (by omega) hj))]; ring

/-- The trapezoid rule is exact on a piece. -/
theorem prim_piece {f : PL} (h : f.WF) {r : Int} (hr1 : -1 ≤ r) (hr2 : r < f.times.length) {x y : ℚ}
    (hx : f.InPiece r x) (hy : f.InPiece r y) :
    f.prim x - f.prim y = (f.fn x + f.fn y) / 2 * (x - y) := by
  obtain ⟨g, hg⟩ := gradient_ok h hr1 hr2
  have hp := h.pos
  by_cases c1 : r = -1
  · subst c1
    have p0 := inPiece_time_right h 0 hp
    rw [prim_first h (hx.2 0 hp (by omega)), prim_first h (hy.2 0 hp (by omega))]
    have e1 := fn_piece h hg hx p0
    have e2 := fn_piece h hg hy p0
    rw [e1, e2]; ring
  · obtain ⟨i, rfl⟩ := Int.eq_ofNat_of_zero_le (show 0 ≤ r by omega)
    have hi : i < f.times.length := by omega
    rw [prim_piece_time h i hi (hx.1 i hi rfl) (fun hj => hx.2 (i + 1) hj (by omega)),
      prim_piece_time h i hi (hy.1 i hi rfl) (fun hj => hy.2 (i + 1) hj (by omega))]
    have p0 := inPiece_time_left h i hi
    have e1 := fn_piece h hg hx p0
    have e2 := fn_piece h hg hy p0
    rw [e1, e2]; ring

theorem integrateLoop_eq {f : PL} (h : f.WF) (stop : ℚ) :
    ∀ (fuel rnk : Nat) (value : ℚ), rnk < f.times.length → f.times.length < rnk + fuel →
      ∃ r, integrateLoop f stop fuel rnk value = .ok (value + (areaAt f r - areaAt f rnk), r) ∧ rnk ≤ r ∧
        r < f.times.length ∧ (∀ (hj : r + 1 < f.times.length), stop < f.times[r + 1]) ∧
        (rnk < r → ∀ (hj : r < f.times.length), f.times[r] ≤ stop) := by
  intro fuel
  have hvl := h.len
  induction fuel with
  | zero => intro rnk value h1 h2; omega
  | succ fuel ih =>
    intro rnk value h1 h2
    rw [integrateLoop]
    by_cases c : rnk + 1 < f.times.length
    · rw [if_pos c, rd_lt _ _ c, ok_bind]
      by_cases c2 : f.times[rnk + 1] ≤ stop
      · rw [if_pos c2, rd_lt _ _ (by omega), ok_bind, rd_lt _ _ (by omega), ok_bind, rd_lt _ _ h1, ok_bind]
        obtain ⟨r, a1, a2, a3, a4, a5⟩ := ih (rnk + 1) (value + (f.values[rnk + 1] + f.values[rnk]) / 2 * (f.times[rnk + 1] - f.times[rnk])) c (by omega)
        refine ⟨r, ?_, by omega, a3, a4, ?_⟩
        · rw [a1]
          congr 2
          have : areaAt f (rnk + 1) = areaAt f rnk + (f.values[rnk + 1] + f.values[rnk]) / 2 * (f.times[rnk + 1] - f.times[rnk]) := by
            rw [areaAt, getD_eq _ c, getD_eq _ h1, fn_time h, fn_time h]
          linarith
        · intro _ hj
          rcases Nat.lt_or_eq_of_le a2 with hh | hh
          · exact a5 hh hj
          · subst hh; exact c2
      · rw [if_neg c2, py_pure]
        exact ⟨rnk, by simp, le_rfl, h1, fun _ => not_le.mp c2, fun hh => absurd hh (by omega)⟩
    · rw [if_neg c, py_pure]
      exact ⟨rnk, by simp, le_rfl, h1, fun hj => absurd hj c, fun hh => absurd hh (by omega)⟩

theorem integrate_eq {f : PL} (h : f.WF) (hv : ∀ v ∈ f.values, 0 ≤ v) {a b : ℚ} (ha : f.inDom a) (hb : f.inDom b)
    (hab : a < b) : f.integrate a b = .ok (f.prim b - f.prim a) := by
  have hp := h.pos
  have hvl := h.len
  unfold integrate
  rw [pyAssert_true ⟨ha.1, hab, hb.2⟩, ok_bind, pyAssert_true hv, ok_bind, elemLrank_eq h.le h.ne]
  simp only [ok_bind]
  have pa := inPiece_lrank h a
  have key := fun i hi => lt_countP_le_iff h.le a i hi
  have hc : f.times.countP (· ≤ a) ≤ f.times.length := List.countP_le_length
  generalize f.times.countP (· ≤ a) = c at *
  by_cases cl : c = f.times.length
  · rw [if_pos (by omega), eval_eq h ha, ok_bind, eval_eq h hb, ok_bind, py_pure]
    congr 1
    rw [prim_piece h (r := (c : Int) - 1) (by omega) (by omega) ⟨?_, ?_⟩ pa]
    · ring
    · intro j hj e; exact le_trans (pa.1 j hj e) (le_of_lt hab)
    · intro j hj e; omega
  · have e1 : ((c : Int) - 1 + 1) = (c : Int) := by omega
    have hcl : c < f.times.length := by omega
    rw [if_neg (by omega), e1, rdI_lt _ _ c rfl (by omega), ok_bind, eval_eq h ha, ok_bind,
      rdI_lt _ _ c rfl (by omega), ok_bind, Int.toNat_natCast]
    obtain ⟨r, a1, a2, a3, a4, a5⟩ := integrateLoop_eq h b (f.times.length + 1) c
      (0 + (f.values[c] + f.fn a) / 2 * (f.times[c] - a)) hcl (by omega)
    rw [a1, ok_bind]
    simp only
    rw [eval_eq h hb, ok_bind, rd_lt _ _ (by omega), ok_bind, rd_lt _ _ a3, ok_bind, py_pure]
    congr 1
    have s1 : areaAt f c - f.prim a = (f.values[c] + f.fn a) / 2 * (f.times[c] - a) := by
      rw [← prim_time h c hcl, prim_piece h (r := (c : Int) - 1) (by omega) (by omega) (inPiece_time_right h c hcl) pa,
        fn_time h]
    have s2 : f.prim b - areaAt f r = (f.fn b + f.values[r]) / 2 * (b - f.times[r]) := by
      rw [← prim_time h r a3]
      rcases le_or_gt f.times[r] b with hle | hlt
      · rw [prim_piece h (r := (r : Int)) (by omega) (by omega) ⟨?_, ?_⟩ (inPiece_time_left h r a3), fn_time h]
        · intro j hj e
          have : j = r := by omega
          subst this; exact hle
        · intro j hj e
          have : j = r + 1 := by omega
          subst this; exact le_of_lt (a4 hj)
      · have hrc : r = c := by
          by_contra hcon
          have := a5 (by omega) a3
          linarith
        subst hrc
        rw [prim_piece h (r := (r : Int) - 1) (by omega) (by omega) ⟨?_, ?_⟩ (inPiece_time_right h r a3), fn_time h]
        · intro j hj e; exact le_trans (pa.1 j hj e) (le_of_lt hab)
        · intro j hj e
          have : j = r := by omega
          subst this; exact le_of_lt hlt
    linarith

/-- The antiderivative grows by the trapezoid wherever the function is affine. -/
theorem prim_affine {f : PL} (h : f.WF) {a b : ℚ} (hab : a ≤ b)
    (haff : ∃ m, ∀ x, a ≤ x → x ≤ b → f.fn x = f.fn a + m * (x - a)) :
    f.prim b - f.prim a = (f.fn a + f.fn b) / 2 * (b - a) := by
  obtain ⟨m, hm⟩ := haff
  -- induct on the number of break points strictly inside
  have main : ∀ (n : Nat) (y : ℚ), a ≤ y → y ≤ b → f.times.countP (fun t => decide (a < t ∧ t < y)) ≤ n →
      f.prim y - f.prim a = (f.fn a + f.fn y) / 2 * (y - a) := by
    intro n
    induction n with
    | zero =>
      intro y h1 h2 hc
      have hno : ∀ t ∈ f.times, ¬ (a < t ∧ t < y) := by
        intro t ht hh
        have : 0 < f.times.countP (fun t => decide (a < t ∧ t < y)) := List.countP_pos_iff.mpr ⟨t, ht, by simpa using hh⟩
        omega
      have pa := inPiece_lrank h a
      have hcl : f.times.countP (· ≤ a) ≤ f.times.length := List.countP_le_length
      rw [prim_piece h (by omega) (by omega) ⟨?_, ?_⟩ pa]
      · ring
      · intro j hj e; exact le_trans (pa.1 j hj e) h1
      · intro j hj e
        by_contra hcon
        refine hno _ (List.getElem_mem hj) ⟨?_, not_le.mp hcon⟩
        have key := lt_countP_le_iff h.le a j hj
        rw [← not_le, ← key]; omega
    | succ n ih =>
      intro y h1 h2 hc
      by_cases hno : ∀ t ∈ f.times, ¬ (a < t ∧ t < y)
      · refine ih y h1 h2 ?_
        have : f.times.countP (fun t => decide (a < t ∧ t < y)) = 0 := by
          rw [List.countP_eq_zero]; intro t ht; simpa using hno t ht
        omega
      · -- the largest break point below y
        push Not at hno
        obtain ⟨t, ht, hat, hty⟩ := hno
        have py := inPiece_rank h y
        have key := fun i hi => lt_countP_lt_iff h.le y i hi
        have hcl : f.times.countP (· < y) ≤ f.times.length := List.countP_le_length
        generalize hk : f.times.countP (· < y) = k at *
        obtain ⟨i, hi, rfl⟩ := List.getElem_of_mem ht
        have hik : i < k := (key i hi).mpr hty
        have hk1 : k - 1 < f.times.length := by omega
        have hsy : f.times[k - 1] < y := (key _ hk1).mp (by omega)
        have has : a < f.times[k - 1] := lt_of_lt_of_le hat (getElem_le_of h.lt (by omega) hk1)
        have s1 := ih f.times[k - 1] (le_of_lt has) (by linarith) (by
          have hlt : f.times.countP (fun t => decide (a < t ∧ t < f.times[k - 1])) < f.times.countP (fun t => decide (a < t ∧ t < y)) := by
            have hsub : ∀ (l : List ℚ), f.times[k - 1] ∈ l → l.countP (fun t => decide (a < t ∧ t < f.times[k - 1])) < l.countP (fun t => decide (a < t ∧ t < y)) := by
              intro l
              generalize f.times[k - 1] = s at has hsy
              intro hl
              induction l with
              | nil => simp at hl
              | cons z l ihl =>
                have hle : l.countP (fun t => decide (a < t ∧ t < s)) ≤ l.countP (fun t => decide (a < t ∧ t < y)) := by
                  apply List.countP_mono_left
                  intro x _ hx
                  simp only [decide_eq_true_eq] at hx ⊢
                  exact ⟨hx.1, by linarith [hx.2]⟩
                rcases List.mem_cons.mp hl with rfl | hl
                · rw [List.countP_cons_of_neg (by simp), List.countP_cons_of_pos (by simp [has, hsy])]
                  omega
                · have := ihl hl
                  rw [List.countP_cons, List.countP_cons]
                  by_cases hz : a < z ∧ z < s
                  · have hz' : a < z ∧ z < y := ⟨hz.1, by linarith [hz.2]⟩
                    simp only [hz, hz', and_self, decide_true, if_true]
                    omega
                  · simp only [hz, decide_false, Bool.false_eq_true, if_false]
                    omega
            exact hsub f.times (List.getElem_mem hk1)
          omega)
        have e5 : ((k - 1 : Nat) : Int) = (k : Int) - 1 := by omega
        have pl := inPiece_time_left h (k - 1) hk1
        rw [e5] at pl
        have s2 := prim_piece h (by omega) (by omega) py pl
        have v1 := hm f.times[k - 1] (le_of_lt has) (by linarith)
        have v2 := hm y h1 h2
        have : f.prim y - f.prim a = (f.fn y + f.fn f.times[k - 1]) / 2 * (y - f.times[k - 1]) +
            (f.fn a + f.fn f.times[k - 1]) / 2 * (f.times[k - 1] - a) := by linarith
        rw [this, v1, v2]; ring
  exact main _ b hab le_rfl le_rfl

/-! ### simplify -/

theorem simplifyLoop_spec {f : PL} (h : f.WF)
    (hE : ∀ j, j + 1 < f.times.length → ∀ g0 g1, f.gradient (j : Int) = .ok g0 → f.gradient ((j : Int) + 1) = .ok g1 →
      g0 = g1 ∨ 1000 * eps ≤ |g0 - g1|) :
    ∀ (n i : Nat) (ts vs : List ℚ), i + n + 1 = f.times.length →
      ∃ R, simplifyLoop f n i ts vs = .ok (ts ++ R, vs ++ R.map f.fn) ∧ R.Sublist (f.times.drop (i + 1)) ∧
        ∀ j, i ≤ j → (hj : j + 1 < f.times.length) → f.times[j + 1] ∉ R → ∀ g0 g1,
          f.gradient (j : Int) = .ok g0 → f.gradient ((j : Int) + 1) = .ok g1 → g0 = g1 := by
  have hvl := h.len
  intro n
  induction n with
  | zero =>
    intro i ts vs hn
    exact ⟨[], by simp [simplifyLoop], by simp, fun j h1 h2 => by omega⟩
  | succ n ih =>
    intro i ts vs hn
    rw [simplifyLoop]
    obtain ⟨g0, hg0⟩ := gradient_ok h (r := (i : Int)) (by omega) (by omega)
    obtain ⟨g1, hg1⟩ := gradient_ok h (r := (i : Int) + 1) (by omega) (by omega)
    rw [hg0, ok_bind, hg1, ok_bind]
    have hi1 : i + 1 < f.times.length := by omega
    by_cases c : |g0 - g1| ≥ 1000 * eps
    · rw [if_pos c, rd_lt _ _ hi1, ok_bind, rd_lt _ _ (by omega), ok_bind]
      obtain ⟨R, a1, a2, a3⟩ := ih (i + 1) (ts ++ [f.times[i + 1]]) (vs ++ [f.values[i + 1]]) (by omega)
      refine ⟨f.times[i + 1] :: R, ?_, ?_, ?_⟩
      · rw [a1]; simp [fn_time h]
      · rw [List.drop_eq_getElem_cons hi1]; exact a2.cons_cons _
      · intro j h1 hj hn'
        by_cases hji : j = i
        · subst hji; simp at hn'
        · exact a3 j (by omega) hj (fun hh => hn' (by simp [hh]))
    · rw [if_neg c]
      obtain ⟨R, a1, a2, a3⟩ := ih (i + 1) ts vs (by omega)
      refine ⟨R, a1, ?_, ?_⟩
      · rw [List.drop_eq_getElem_cons hi1]; exact a2.cons _
      · intro j h1 hj hn'
        by_cases hji : j = i
        · subst hji
          intro g0' g1' e0 e1
          rw [hg0] at e0; rw [hg1] at e1
          injection e0 with e0; injection e1 with e1
          subst e0; subst e1
          rcases hE j hj g0 g1 hg0 hg1 with e | e
          · exact e
          · exact absurd e c
        · exact a3 j (by omega) hj hn'

theorem simplify_ok {f : PL} (h : f.WF)
    (hE : ∀ j, j + 1 < f.times.length → ∀ g0 g1, f.gradient (j : Int) = .ok g0 → f.gradient ((j : Int) + 1) = .ok g1 →
      g0 = g1 ∨ 1000 * eps ≤ |g0 - g1|) :
    ∃ g, f.simplify = .ok g ∧ g.WF ∧ g.lo = f.lo ∧ g.hi = f.hi ∧ g.first = f.first ∧ g.last = f.last ∧
      g.times.Sublist f.times ∧ g.times.head? = f.times.head? ∧ ∀ x, g.fn x = f.fn x := by
  have hp := h.pos
  have hvl := h.len
  obtain ⟨R, a1, a2, a3⟩ := simplifyLoop_spec h hE (f.times.length - 1) 0 [f.times[0]] [f.values[0]] (by omega)
  have hcons : f.times = f.times[0] :: f.times.drop 1 := by
    have := List.drop_eq_getElem_cons hp
    simpa using this
  have hsub : (f.times[0] :: R).Sublist f.times := by
    have := a2.cons_cons f.times[0]
    simp only [Nat.zero_add] at this
    rw [← hcons] at this
    exact this
  have hw : WF ⟨f.times[0] :: R, f.values[0] :: R.map f.fn, f.first, f.last, f.lo, f.hi⟩ :=
    ⟨by simp, by simp, h.gap.sublist hsub, fun t ht => h.dom t (hsub.subset ht)⟩
  have hv : ∀ i, (hi : i < (f.times[0] :: R).length) → (f.values[0] :: R.map f.fn)[i]'(by simpa using hi) = f.fn (f.times[0] :: R)[i] := by
    intro i hi
    cases i with
    | zero => simp [fn_time h]
    | succ i => simp
  have hkink : ∀ t ∈ f.times, t ∉ f.times[0] :: R → ∃ u w m, u < t ∧ t < w ∧ ∀ x, u ≤ x → x ≤ w → f.fn x = f.fn t + m * (x - t) := by
    intro t ht hnt
    obtain ⟨k, hk, rfl⟩ := List.getElem_of_mem ht
    cases k with
    | zero => simp at hnt
    | succ j =>
      obtain ⟨g0, hg0⟩ := gradient_ok h (r := (j : Int)) (by omega) (by omega)
      obtain ⟨g1, hg1⟩ := gradient_ok h (r := (j : Int) + 1) (by omega) (by omega)
      have hgg := a3 j (by omega) hk (fun hh => hnt (by simp [hh])) g0 g1 hg0 hg1
      subst hgg
      have hl : f.times[j] < f.times[j + 1] := getElem_lt_of h.lt (by omega) hk
      have pr := inPiece_time_right h (j + 1) hk
      have e1 : (((j + 1 : Nat) : Int) - 1) = (j : Int) := by omega
      rw [e1] at pr
      have pl := inPiece_time_left h (j + 1) hk
      have e2 : ((j + 1 : Nat) : Int) = (j : Int) + 1 := by omega
      rw [e2] at pl
      -- a right neighbour
      obtain ⟨w, hw1, hw2⟩ : ∃ w, f.times[j + 1] < w ∧ ∀ (h2 : j + 2 < f.times.length), w ≤ f.times[j + 2] := by
        by_cases c : j + 2 < f.times.length
        · exact ⟨f.times[j + 2], getElem_lt_of h.lt (by omega) c, fun _ => le_rfl⟩
        · exact ⟨f.times[j + 1] + 1, by linarith, fun h2 => absurd h2 c⟩
      refine ⟨f.times[j], w, g0, hl, hw1, ?_⟩
      intro x hx1 hx2
      by_cases c : x ≤ f.times[j + 1]
      · refine fn_piece h hg0 ⟨?_, ?_⟩ pr
        · intro i hi e
          have : i = j := by omega
          subst this; exact hx1
        · intro i hi e
          have : i = j + 1 := by omega
          subst this; exact c
      · refine fn_piece h hg1 ⟨?_, ?_⟩ pl
        · intro i hi e
          have : i = j + 1 := by omega
          subst this; exact le_of_lt (not_le.mp c)
        · intro i hi e
          have : i = j + 2 := by omega
          subst this; exact le_trans hx2 (hw2 hi)
  refine ⟨_, ?_, hw, rfl, rfl, rfl, rfl, hsub, ?_, ?_⟩
  · unfold simplify
    rw [rd_lt _ _ hp, ok_bind, rd_lt _ _ (by omega), ok_bind, a1, ok_bind]
    exact new_ok hw
  · simp only [List.head?_cons]
    rw [List.head?_eq_getElem?, List.getElem?_eq_getElem hp]
  · intro x
    refine fn_eq_of hw f.fn (fun _ => True) hv ?_ ?_ ?_ x trivial
    · intro i hi
      apply affine_glue f.fn f.times (fun a b hno => fn_affine h hno) _ _ _ le_rfl
      intro t ht h1 h2
      exact hkink t ht (fun hh => no_between hw.lt hi hh ⟨h1, h2⟩)
    · intro x _ hx
      exact fn_left_aff h (fun t ht => le_trans hx (head_le h.lt hp ht)) (fun t ht => head_le h.lt hp ht)
    · intro x _ hx
      simp only at hx ⊢
      set a := (f.times[0] :: R).getLast (by simp) with ha
      obtain ⟨m, hm⟩ := affine_glue f.fn f.times (fun a b hno => fn_affine h hno) _ a (max x (f.times.getLast h.ne) + 1) le_rfl (by
        intro t ht h1 h2
        refine hkink t ht (fun hh => ?_)
        have := le_getLast hw.lt (by simp) hh
        simp only at this
        linarith)
      have hmx : x ≤ max x (f.times.getLast h.ne) := le_max_left _ _
      have hml : f.times.getLast h.ne ≤ max x (f.times.getLast h.ne) := le_max_right _ _
      have e1 := hm (max x (f.times.getLast h.ne)) (by linarith) (by linarith)
      have e2 := hm (max x (f.times.getLast h.ne) + 1) (by linarith) le_rfl
      have e3 := fn_right_aff h (x := max x (f.times.getLast h.ne) + 1) (y := max x (f.times.getLast h.ne))
        (fun t ht => le_trans (le_getLast h.lt h.ne ht) (by linarith)) (fun t ht => le_trans (le_getLast h.lt h.ne ht) hml)
      have : m = f.last := by
        rw [e1, e2] at e3
        linarith
      rw [hm x hx (by linarith), this]

end PL
end Verif
