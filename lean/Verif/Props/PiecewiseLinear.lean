import Verif.Spec.Functions
import Verif.Proofs.PLLe

/-! Property theorems C13–C16 and C19–C24 (src/utilities/piecewise_linear.py). -/

namespace Verif.Props
open Verif Verif.Spec

/-- What the constructor accepts: as many values as times, at least one, break points inside the
domain and increasing by more than eps. -/
structure ValidPL (f : PL) : Prop where
  len : f.values.length = f.times.length
  ne : f.times ≠ []
  gap : f.times.Pairwise (fun a b => a < b - eps)
  dom : ∀ t ∈ f.times, f.lo ≤ (t : WithBot ℚ) ∧ (t : WithTop ℚ) ≤ f.hi

theorem ValidPL.wf {f : PL} (h : ValidPL f) : f.WF := ⟨h.len, h.ne, h.gap, h.dom⟩
theorem _root_.Verif.PL.WF.valid {f : PL} (h : f.WF) : ValidPL f := ⟨h.len, h.ne, h.gap, h.dom⟩

/-- C13 (constructor): it returns the object exactly for valid data and raises `AssertionError`
otherwise. -/
theorem C13_new (f : PL) :
    (ValidPL f → PL.new f.times f.values f.first f.last f.lo f.hi = .ok f) ∧
    (¬ ValidPL f → PL.new f.times f.values f.first f.last f.lo f.hi = .error .assertion) := by
  constructor
  · intro h; exact PL.new_ok h.wf
  · intro h
    unfold PL.new
    by_cases h1 : f.values.length = f.times.length ∧ f.times.length ≥ 1
    · rw [pyAssert_true h1, ok_bind]
      by_cases h2 : ∀ t ∈ f.times, f.lo ≤ (t : WithBot ℚ) ∧ (t : WithTop ℚ) ≤ f.hi
      · rw [pyAssert_true h2, ok_bind]
        by_cases h3 : PL.gapped f.times = true
        · exact absurd ⟨h1.1, by rintro e; simp [e] at h1, (PL.gapped_iff _).mp h3, h2⟩ h
        · rw [pyAssert_false h3, error_bind]
      · rw [pyAssert_false h2, error_bind]
    · rw [pyAssert_false h1, error_bind]

/-- C13: a valid object stands for one function `F`, the piecewise linear interpolation; `eval` and
`eval_from_end` return `F t` on the domain and raise outside, `eval_sorted_array` returns `F` at every
entry of any non-decreasing list of points of the domain. -/
theorem C13_evaluators_agree (f : PL) (h : ValidPL f) :
    ∃ F : ℚ → ℚ, Interpolates f.times f.values f.first f.last F ∧
      (∀ t, f.inDom t → f.eval t = .ok (F t) ∧ f.evalFromEnd t = .ok (F t)) ∧
      (∀ t, ¬ f.inDom t → f.eval t = .error .assertion ∧ f.evalFromEnd t = .error .assertion) ∧
      (∀ xs : List ℚ, xs.Pairwise (· ≤ ·) → (∀ x ∈ xs, f.inDom x) → f.evalSortedArray xs = .ok (xs.map F)) := by
  have hw := h.wf
  refine ⟨f.fn, ⟨?_, ?_, ?_, ?_⟩, ?_, ?_, ?_⟩
  · intro i t v ht hv
    obtain ⟨hi, rfl⟩ := List.getElem?_eq_some_iff.mp ht
    obtain ⟨hi', rfl⟩ := List.getElem?_eq_some_iff.mp hv
    exact PL.fn_time hw i hi
  · intro i s t hs ht x h1 h2
    obtain ⟨hi, rfl⟩ := List.getElem?_eq_some_iff.mp hs
    obtain ⟨hi', rfl⟩ := List.getElem?_eq_some_iff.mp ht
    rw [PL.fn_time hw, PL.fn_time hw, PL.fn_mid hw i hi' h1 h2]; ring
  · intro t ht x hx
    rw [List.head?_eq_getElem?, List.getElem?_eq_getElem hw.pos] at ht
    injection ht with ht; subst ht
    exact PL.fn_left_aff hw (fun s hs => le_trans hx (head_le hw.lt hw.pos hs)) (fun s hs => head_le hw.lt hw.pos hs)
  · intro t ht x hx
    rw [List.getLast?_eq_some_getLast hw.ne] at ht
    injection ht with ht; subst ht
    exact PL.fn_right_aff hw (fun s hs => le_trans (le_getLast hw.lt hw.ne hs) hx) (fun s hs => le_getLast hw.lt hw.ne hs)
  · intro t ht; exact ⟨PL.eval_eq hw ht, PL.evalFromEnd_eq hw ht⟩
  · intro t ht
    refine ⟨PL.eval_err ht, ?_⟩
    unfold PL.evalFromEnd
    rw [pyAssert_false ht, error_bind]
  · intro xs hs hd; exact PL.evalSortedArray_eq hw xs hs hd

/-- A concrete valid function: a zigzag on `[0, 10]` with three break points. -/
def zigzag : PL := ⟨[0, 2, 5], [1, 3, 0], 0, 1, (0 : ℚ), (10 : ℚ)⟩

theorem zigzag_valid : ValidPL zigzag :=
  ⟨by decide, by decide, by unfold eps; decide +kernel, by decide +kernel⟩

example : ∃ F : ℚ → ℚ, Interpolates zigzag.times zigzag.values zigzag.first zigzag.last F ∧
    zigzag.eval 3 = .ok (F 3) :=
  let ⟨F, h1, h2, _⟩ := C13_evaluators_agree zigzag zigzag_valid
  ⟨F, h1, (h2 3 (by decide +kernel)).1⟩
example : zigzag.eval 3 = .ok 2 ∧ zigzag.evalFromEnd 7 = .ok 2 ∧ zigzag.evalSortedArray [0, 1, 6] = .ok [1, 2, 1] := by
  decide +kernel

/-- C14 (negation). -/
theorem C14_neg (f : PL) (h : ValidPL f) :
    ∃ g, f.neg = .ok g ∧ ValidPL g ∧ g.lo = f.lo ∧ g.hi = f.hi ∧
      ∀ t, f.inDom t → ∃ a, f.eval t = .ok a ∧ g.eval t = .ok (-a) := by
  obtain ⟨g, h1, hg, _, hlo, hhi, _⟩ := PL.neg_ok h.wf
  refine ⟨g, h1, hg.valid, hlo, hhi, ?_⟩
  intro t ht
  have ht' : g.inDom t := by unfold PL.inDom at *; rw [hlo, hhi]; exact ht
  exact ⟨_, PL.eval_eq h.wf ht, by rw [PL.eval_eq hg ht', PL.neg_fn h.wf h1]⟩

/-- The points that must be apart for an operation on two functions: all break points and the finite
ends of the common domain. -/
def commonPoints (f g : PL) : List ℚ :=
  f.times ++ g.times ++ ((max f.lo g.lo).elim [] (fun a => [a]) ++ (min f.hi g.hi).elim [] (fun b => [b]))

theorem sep2_of {f g : PL} (h : Apart eps (commonPoints f g)) : PL.Sep2 f g := by
  have he : ∀ (lo : WithBot ℚ) (hi : WithTop ℚ), ends lo hi = lo.elim [] (fun a => [a]) ++ hi.elim [] (fun b => [b]) := by
    intro lo hi
    unfold ends
    cases lo <;> cases hi <;> rfl
  unfold PL.Sep2
  rw [he]; exact h

/-- The common domain has more than one point. -/
def DomainsOverlap (f g : PL) : Prop :=
  ∀ a b : ℚ, max f.lo g.lo = (a : WithBot ℚ) → min f.hi g.hi = (b : WithTop ℚ) → a < b

theorem ltEnds_of {f g : PL} (h : DomainsOverlap f g) : PL.ltEnds (max f.lo g.lo) (min f.hi g.hi) = true := by
  cases e1 : max f.lo g.lo with
  | bot => rfl
  | coe a =>
    cases e2 : min f.hi g.hi with
    | top => rfl
    | coe b => exact decide_eq_true (h a b e1 e2)

/-- C14 (addition). -/
theorem C14_plus (f g : PL) (hf : ValidPL f) (hg : ValidPL g) (hd : DomainsOverlap f g)
    (hs : Apart eps (commonPoints f g)) :
    ∃ s, f.plus g = .ok s ∧ ValidPL s ∧ s.lo = max f.lo g.lo ∧ s.hi = min f.hi g.hi ∧
      ∀ t, s.inDom t → ∃ a b, f.eval t = .ok a ∧ g.eval t = .ok b ∧ s.eval t = .ok (a + b) := by
  obtain ⟨s, h1, hw, hlo, hhi, _, _, hfn, _⟩ := PL.plus_ok hf.wf hg.wf (ltEnds_of hd) (sep2_of hs)
  refine ⟨s, h1, hw.valid, hlo, hhi, ?_⟩
  intro t ht
  have hft : f.inDom t := ⟨le_trans (le_max_left _ _) (hlo ▸ ht.1), le_trans (hhi ▸ ht.2) (min_le_left _ _)⟩
  have hgt : g.inDom t := ⟨le_trans (le_max_right _ _) (hlo ▸ ht.1), le_trans (hhi ▸ ht.2) (min_le_right _ _)⟩
  exact ⟨_, _, PL.eval_eq hf.wf hft, PL.eval_eq hg.wf hgt, by rw [PL.eval_eq hw ht, hfn t ht]⟩

/-- C14 (subtraction). -/
theorem C14_sub (f g : PL) (hf : ValidPL f) (hg : ValidPL g) (hd : DomainsOverlap f g)
    (hs : Apart eps (commonPoints f g)) :
    ∃ s, f.sub g = .ok s ∧ ValidPL s ∧ s.lo = max f.lo g.lo ∧ s.hi = min f.hi g.hi ∧
      ∀ t, s.inDom t → ∃ a b, f.eval t = .ok a ∧ g.eval t = .ok b ∧ s.eval t = .ok (a - b) := by
  obtain ⟨n, h1, hn, ht, hlo, hhi, _⟩ := PL.neg_ok hg.wf
  obtain ⟨s, p1, p2, p3, p4, p5⟩ := C14_plus f n hf hn.valid (by unfold DomainsOverlap; rw [hlo, hhi]; exact hd)
    (by unfold commonPoints; rw [hlo, hhi, ht]; exact hs)
  refine ⟨s, by unfold PL.sub; rw [h1, ok_bind]; exact p1, p2, by rw [p3, hlo], by rw [p4, hhi], ?_⟩
  intro t ht'
  obtain ⟨a, b, e1, e2, e3⟩ := p5 t ht'
  have hgt : g.inDom t := ⟨le_trans (le_max_right f.lo _) (hlo ▸ p3 ▸ ht'.1), le_trans (hhi ▸ p4 ▸ ht'.2) (min_le_right f.hi _)⟩
  have hnt : n.inDom t := by unfold PL.inDom; rw [hlo, hhi]; exact hgt
  refine ⟨a, g.fn t, e1, PL.eval_eq hg.wf hgt, ?_⟩
  rw [PL.eval_eq hn hnt, PL.neg_fn hg.wf h1] at e2
  injection e2 with e2
  rw [e3, ← e2]; congr 1; ring

/-- C14, outside the hypothesis: disjoint domains are rejected. -/
theorem C14_plus_disjoint (f g : PL) (a b : ℚ) (h1 : max f.lo g.lo = (a : WithBot ℚ))
    (h2 : min f.hi g.hi = (b : WithTop ℚ)) (h : b ≤ a) : f.plus g = .error .assertion := by
  unfold PL.plus
  simp only
  rw [pyAssert_false, error_bind]
  rw [h1, h2]
  intro hc
  exact absurd (of_decide_eq_true hc) (not_lt.mpr h)

/-- A ramp with unbounded domain, used with `zigzag`: break points 1, 2, 20 (20 is cut off). -/
def ramp : PL := ⟨[1, 2, 20], [0, 1, 1], 0, 0, ⊥, ⊤⟩

example : ValidPL ramp ∧ DomainsOverlap zigzag ramp ∧ Apart eps (commonPoints zigzag ramp) := by
  refine ⟨⟨by decide, by decide, by unfold eps; decide +kernel, by decide +kernel⟩, ?_, ?_⟩
  · intro a b ha hb
    have h1 : max zigzag.lo ramp.lo = ((0 : ℚ) : WithBot ℚ) := by decide +kernel
    have h2 : min zigzag.hi ramp.hi = ((10 : ℚ) : WithTop ℚ) := by decide +kernel
    rw [h1] at ha; rw [h2] at hb
    rw [← WithBot.coe_inj.mp ha, ← WithTop.coe_inj.mp hb]; decide +kernel
  · have e : commonPoints zigzag ramp = [0, 2, 5, 1, 2, 20, 0, 10] := by decide +kernel
    rw [e]; unfold Apart eps; decide +kernel
example : (zigzag.plus ramp).toOption.map PL.times = some [0, 1, 2, 5, 10] := by decide +kernel

/-- `t` lies in the closure of piece `i` of `f` (piece -1 is left of all break points, piece `len - 1`
right of them). -/
def InPiece (f : PL) (i : Int) (t : ℚ) : Prop :=
  (∀ (k : Nat) (s : ℚ), f.times[k]? = some s → (k : Int) = i → s ≤ t) ∧
  (∀ (k : Nat) (s : ℚ), f.times[k]? = some s → (k : Int) = i + 1 → t ≤ s)

/-- C15 (partial): a time returned by `inverse` lies in the closure of the piece and is mapped to `x`,
for every piece but the last, and for the last piece when `x` is beyond the last value in the
direction of the last slope. Missing: on the last piece the code compares `x` with the first instead
of the last value, so other `x` are accepted, see `C15_inverse_last_wrong`. -/
theorem C15_inverse_partial (f : PL) (h : ValidPL f) (x t : ℚ) (i : Int) (he : f.inverse x i = .ok t)
    (hlast : i = (f.times.length : Int) - 1 → ∀ v, f.values.getLast? = some v → 0 ≤ (x - v) * f.last) :
    InPiece f i t ∧ (f.inDom t → f.eval t = .ok x) := by
  have hw := h.wf
  have hvl := hw.len
  have hp := hw.pos
  have hr : -1 ≤ i ∧ i < f.times.length := by
    by_contra hc
    unfold PL.inverse at he
    rw [pyAssert_false hc, error_bind] at he
    exact absurd he (by simp)
  have conv : ∀ j : Int, f.InPiece j t → InPiece f j t := by
    intro j hj
    constructor
    · intro k s hs e
      obtain ⟨hk, rfl⟩ := List.getElem?_eq_some_iff.mp hs
      exact hj.1 k hk e
    · intro k s hs e
      obtain ⟨hk, rfl⟩ := List.getElem?_eq_some_iff.mp hs
      exact hj.2 k hk e
  by_cases c1 : i = -1
  · subst c1
    obtain ⟨_, hle, hv, _⟩ := PL.inverse_first hw he
    refine ⟨conv _ ⟨fun k hk e => by omega, fun k hk e => ?_⟩, fun hd => by rw [PL.eval_eq hw hd, hv]⟩
    have : k = 0 := by omega
    subst this; exact hle
  · by_cases c2 : i = (f.times.length : Int) - 1
    · have hl := hlast c2 _ (List.getLast?_eq_some_getLast hw.vne)
      subst c2
      obtain ⟨hne, ht⟩ := PL.inverse_last hw c1 he
      have hge : f.times.getLast hw.ne ≤ t := by
        rw [ht]
        have : 0 ≤ (x - f.values.getLast hw.vne) / f.last := by
          have hsq : 0 < f.last * f.last := mul_self_pos.mpr hne
          have : (x - f.values.getLast hw.vne) / f.last = (x - f.values.getLast hw.vne) * f.last / (f.last * f.last) := by
            field_simp
          rw [this]; exact div_nonneg hl (le_of_lt hsq)
        linarith
      refine ⟨conv _ ⟨fun k hk e => ?_, fun k hk e => by omega⟩, fun hd => ?_⟩
      · rw [PL.getLast_idx hw.ne k hk (by omega)] at hge; exact hge
      · rw [PL.eval_eq hw hd, PL.fn_right hw hge, ht]; congr 1; field_simp; ring
    · obtain ⟨n, rfl⟩ := Int.eq_ofNat_of_zero_le (show 0 ≤ i by omega)
      have hn : n + 1 < f.times.length := by omega
      obtain ⟨h1, h2, hv, _⟩ := PL.inverse_mid hw n hn he
      refine ⟨conv _ ⟨fun k hk e => ?_, fun k hk e => ?_⟩, fun hd => by rw [PL.eval_eq hw hd, hv]⟩
      · have : k = n := by omega
        subst this; exact h1
      · have : k = n + 1 := by omega
        subst this; exact h2

/-- C15, success: strictly inside the value range of a strictly increasing inner piece `inverse`
returns. -/
theorem C15_inverse_returns (f : PL) (h : ValidPL f) (x : ℚ) (i : Nat) (v w : ℚ)
    (hv : f.values[i]? = some v) (hw : f.values[i + 1]? = some w) (h1 : v < w) (h2 : v ≤ x) (h3 : x ≤ w) :
    ∃ t, f.inverse x i = .ok t := by
  obtain ⟨hi, rfl⟩ := List.getElem?_eq_some_iff.mp hv
  obtain ⟨hi', rfl⟩ := List.getElem?_eq_some_iff.mp hw
  exact PL.inverse_mid_ok h.wf i (by rw [← h.len]; exact hi') h1 h2 h3

/-- C15 is false on the last piece: with break points (0,0), (1,4), (2,5) and last slope 1 the call
`inverse(1, 2)` returns -2, outside the piece, where the function is not 1. -/
theorem C15_inverse_last_wrong : ∃ f : PL, ValidPL f ∧ f.inverse 1 2 = .ok (-2) ∧ ¬ InPiece f 2 (-2) ∧
    f.inDom (-2) ∧ f.eval (-2) ≠ .ok 1 := by
  refine ⟨⟨[0, 1, 2], [0, 4, 5], 0, 1, ⊥, ⊤⟩, ⟨by decide, by decide, by unfold eps; decide +kernel, by decide +kernel⟩,
    by decide +kernel, ?_, by decide +kernel, by decide +kernel⟩
  intro h
  have := h.1 2 2 rfl rfl
  exact absurd this (by decide +kernel)

example : zigzag.inverse 2 0 = .ok 1 ∧ zigzag.inverse 2 1 = .ok 3 ∧ zigzag.inverse 2 2 = .ok 7 := by
  decide +kernel

/-- Non-decreasing on its domain, in terms of returned values. -/
def NonDecreasing (f : PL) : Prop :=
  ∀ x y a b, x ≤ y → f.eval x = .ok a → f.eval y = .ok b → a ≤ b

theorem NonDecreasing.monoOn {f : PL} (h : ValidPL f) (hm : NonDecreasing f) : f.MonoOn := by
  intro x y hx hy hxy
  exact hm x y _ _ hxy (PL.eval_eq h.wf hx) (PL.eval_eq h.wf hy)

/-- C16, `min_t_above` (partial): if some point of the domain has a value at least `b` and the bound
is above the first value or the first slope is positive, the call returns the least point of the domain
with a value at least `b`. Missing: a bound not above the first value with first slope 0, where the
code raises, see `C16_min_t_above_flat`. -/
theorem C16_min_t_above_partial (f : PL) (h : ValidPL f) (hm : NonDecreasing f) (b : ℚ)
    (hex : ∃ t v, f.eval t = .ok v ∧ b ≤ v)
    (hfl : (∀ v, f.values.head? = some v → v < b) ∨ 0 < f.first) :
    ∃ r, f.minTAbove b = .ok r ∧ (∃ v, f.eval r = .ok v ∧ b ≤ v) ∧
      ∀ t v, f.eval t = .ok v → b ≤ v → r ≤ t := by
  have hw := h.wf
  have hd : ∀ t v, f.eval t = .ok v → f.inDom t ∧ v = f.fn t := by
    intro t v he
    by_cases hc : f.inDom t
    · rw [PL.eval_eq hw hc] at he; injection he with he; exact ⟨hc, he.symm⟩
    · rw [PL.eval_err hc] at he; exact absurd he (by simp)
  obtain ⟨r, h1, h2, h3, h4⟩ := PL.minTAbove_spec hw (hm.monoOn h) (b := b)
    (by obtain ⟨t, v, e, hb⟩ := hex
        obtain ⟨hc, rfl⟩ := hd t v e
        exact ⟨t, hc, hb⟩)
    (by rcases hfl with hh | hh
        · left; apply hh; rw [List.head?_eq_getElem?, List.getElem?_eq_getElem]
        · right; exact hh)
  refine ⟨r, h1, ⟨_, PL.eval_eq hw h2, h3⟩, ?_⟩
  intro t v e hb
  obtain ⟨hc, rfl⟩ := hd t v e
  exact h4 t hc hb

/-- C16: a bound above all values is rejected. -/
theorem C16_min_t_above_rejects (f : PL) (h : ValidPL f) (hm : NonDecreasing f) (b d v : ℚ)
    (hd : f.hi = (d : WithTop ℚ)) (he : f.eval d = .ok v) (hb : v < b) : f.minTAbove b = .error .assertion := by
  have hw := h.wf
  unfold PL.minTAbove
  rw [pyAssert_true ((PL.isMonotone_iff f).mpr ((hm.monoOn h).values hw)), ok_bind]
  have hin : f.inDom d := by
    by_contra hc; rw [PL.eval_err hc] at he; exact absurd he (by simp)
  rw [PL.evalHi_coe hw hd hin, ok_bind, pyAssert_false, error_bind]
  rw [PL.fin_le]
  rw [PL.eval_eq hw hin] at he; injection he with he
  rw [he]; exact not_le.mpr hb

/-- C16 is false for flat starts: with a first slope of 0 every bound not above the first value makes
`min_t_above` raise, although the least point exists when the domain is bounded below. -/
theorem C16_min_t_above_flat : ∃ (f : PL) (r : ℚ), ValidPL f ∧ NonDecreasing f ∧ f.minTAbove 1 = .error .assertion ∧
    f.eval r = .ok 1 ∧ ∀ t v, f.eval t = .ok v → 1 ≤ v → r ≤ t := by
  have hv : ValidPL ⟨[0, 2], [1, 3], 0, 1, (0 : ℚ), ⊤⟩ :=
    ⟨by decide, by decide, by unfold eps; decide +kernel, by decide +kernel⟩
  have hdom : ∀ t v, PL.eval ⟨[0, 2], [1, 3], 0, 1, (0 : ℚ), ⊤⟩ t = .ok v →
      0 ≤ t ∧ v = PL.fn ⟨[0, 2], [1, 3], 0, 1, (0 : ℚ), ⊤⟩ t := by
    intro t v he
    by_cases hc : PL.inDom ⟨[0, 2], [1, 3], 0, 1, (0 : ℚ), ⊤⟩ t
    · rw [PL.eval_eq hv.wf hc] at he; injection he with he
      exact ⟨WithBot.coe_le_coe.mp hc.1, he.symm⟩
    · rw [PL.eval_err hc] at he; exact absurd he (by simp)
  refine ⟨⟨[0, 2], [1, 3], 0, 1, (0 : ℚ), ⊤⟩, 0, hv, ?_, by decide +kernel, by decide +kernel, ?_⟩
  · intro x y a b hxy ha hb
    obtain ⟨_, rfl⟩ := hdom _ _ ha
    obtain ⟨_, rfl⟩ := hdom _ _ hb
    exact PL.fn_mono hv.wf (by decide +kernel) (by decide) (by decide) hxy
  · intro t v he _
    exact (hdom t v he).1

/-- C16, `max_t_below`: if some point of the domain has a value at most `b`, the call returns the
greatest such point (infinity if there is none because the domain is unbounded). -/
theorem C16_max_t_below (f : PL) (h : ValidPL f) (hm : NonDecreasing f) (b : ℚ) (dflt : Option ℚ)
    (hex : ∃ t v, f.eval t = .ok v ∧ v ≤ b) :
    ∃ r : WithTop ℚ, f.maxTBelow b dflt = .ok (some r) ∧
      (∀ q : ℚ, r = (q : WithTop ℚ) → ∃ v, f.eval q = .ok v ∧ v ≤ b) ∧ (r = ⊤ → f.hi = ⊤) ∧
      ∀ t v, f.eval t = .ok v → (v ≤ b ↔ (t : WithTop ℚ) ≤ r) := by
  have hw := h.wf
  have hd : ∀ t v, f.eval t = .ok v → f.inDom t ∧ v = f.fn t := by
    intro t v he
    by_cases hc : f.inDom t
    · rw [PL.eval_eq hw hc] at he; injection he with he; exact ⟨hc, he.symm⟩
    · rw [PL.eval_err hc] at he; exact absurd he (by simp)
  obtain ⟨r, h1, h2, h3, h4⟩ := PL.maxTBelow_spec hw (hm.monoOn h) (b := b) dflt
    (by obtain ⟨t, v, e, hb⟩ := hex
        obtain ⟨hc, rfl⟩ := hd t v e
        exact ⟨t, hc, hb⟩)
  refine ⟨r, h1, ?_, h3, ?_⟩
  · intro q e
    obtain ⟨a, b'⟩ := h2 q e
    exact ⟨_, PL.eval_eq hw a, b'⟩
  · intro t v e
    obtain ⟨hc, rfl⟩ := hd t v e
    exact h4 t hc

/-- C16: when every value exceeds the bound by more than eps, the given default is returned, and
without a default the call raises. -/
theorem C16_max_t_below_default (f : PL) (h : ValidPL f) (hm : NonDecreasing f) (b d v : ℚ)
    (hd : f.lo = (d : WithBot ℚ)) (he : f.eval d = .ok v) (hb : b + eps < v) :
    (∀ q : ℚ, f.maxTBelow b (some q) = .ok (some (q : WithTop ℚ))) ∧ f.maxTBelow b none = .error .assertion := by
  have hw := h.wf
  have heps := eps_pos
  have hin : f.inDom d := by
    by_contra hc; rw [PL.eval_err hc] at he; exact absurd he (by simp)
  rw [PL.eval_eq hw hin] at he; injection he with he
  have hmono := pyAssert_true ((PL.isMonotone_iff f).mpr ((hm.monoOn h).values hw))
  constructor
  · intro q
    unfold PL.maxTBelow
    rw [hmono, ok_bind, PL.evalLo_coe hw hd hin, ok_bind, pyAssert_true (show (some q).isSome = true ∨ _ from Or.inl rfl), ok_bind, if_pos]
    · rfl
    · rw [he]; exact PL.fin_lt.mpr hb
  · unfold PL.maxTBelow
    rw [hmono, ok_bind, PL.evalLo_coe hw hd hin, ok_bind, pyAssert_false, error_bind]
    rw [PL.fin_le, he]
    simp
    linarith

/-- A non-decreasing function with a flat part. -/
def stairs : PL := ⟨[0, 2, 5], [0, 4, 4], 1, 2, ⊥, ⊤⟩

theorem stairs_ok : ValidPL stairs ∧ NonDecreasing stairs := by
  have hv : ValidPL stairs := ⟨by decide, by decide, by unfold eps; decide +kernel, by decide +kernel⟩
  refine ⟨hv, ?_⟩
  intro x y a b hxy ha hb
  rw [PL.eval_eq hv.wf ⟨bot_le, le_top⟩] at ha hb
  injection ha with ha; injection hb with hb
  rw [← ha, ← hb]
  exact PL.fn_mono hv.wf (by decide +kernel) (by decide) (by decide) hxy

example : stairs.minTAbove 4 = .ok 2 ∧ stairs.maxTBelow 4 none = .ok (some ((5 : ℚ) : WithTop ℚ)) ∧
    0 < stairs.first ∧ stairs.eval 3 = .ok 4 := by decide +kernel

/-- C19: `restrict` to `(a, b)` inside the domain keeps the function there. -/
theorem C19_restrict (f : PL) (h : ValidPL f) (a b : ℚ) (ha : f.inDom a) (hb : f.inDom b) (hab : a ≤ b) :
    ∃ g, f.restrict a b = .ok g ∧ ValidPL g ∧ g.lo = (a : WithBot ℚ) ∧ g.hi = (b : WithTop ℚ) ∧
      ∀ t, a ≤ t → t ≤ b → ∃ v, f.eval t = .ok v ∧ g.eval t = .ok v := by
  obtain ⟨g, h1, hw, hlo, hhi, hfn⟩ := PL.restrict_ok h.wf ha hb hab
  refine ⟨g, h1, hw.valid, hlo, hhi, ?_⟩
  intro t h1 h2
  refine ⟨_, PL.eval_eq h.wf (PL.inDom_between ha hb h1 h2), ?_⟩
  rw [PL.eval_eq hw ⟨by rw [hlo]; exact WithBot.coe_le_coe.mpr h1, by rw [hhi]; exact WithTop.coe_le_coe.mpr h2⟩,
    hfn t h1 h2]

example : zigzag.inDom 1 ∧ zigzag.inDom 3 ∧ (zigzag.restrict 1 3).toOption.map PL.times = some [2] := by
  decide +kernel

/-- C20: for a non-negative function `integrate` returns on every proper subinterval of the domain; it
is additive over adjacent intervals and equals the trapezoid wherever there is no break point strictly
inside. Together these determine it: it is the area under the function. -/
theorem C20_integrate (f : PL) (h : ValidPL f) (hv : ∀ v ∈ f.values, 0 ≤ v) :
    (∀ a b, f.inDom a → f.inDom b → a < b → ∃ I, f.integrate a b = .ok I) ∧
    (∀ a b c I J K, f.inDom a → f.inDom c → a < b → b < c → f.integrate a b = .ok I → f.integrate b c = .ok J →
      f.integrate a c = .ok K → K = I + J) ∧
    (∀ a b I u v, a < b → (∀ t ∈ f.times, ¬ (a < t ∧ t < b)) → f.integrate a b = .ok I → f.eval a = .ok u →
      f.eval b = .ok v → I = (u + v) / 2 * (b - a)) := by
  have hw := h.wf
  refine ⟨?_, ?_, ?_⟩
  · intro a b ha hb hab; exact ⟨_, PL.integrate_eq hw hv ha hb hab⟩
  · intro a b c I J K ha hc hab hbc e1 e2 e3
    have hb := PL.inDom_between ha hc (le_of_lt hab) (le_of_lt hbc)
    rw [PL.integrate_eq hw hv ha hb hab] at e1
    rw [PL.integrate_eq hw hv hb hc hbc] at e2
    rw [PL.integrate_eq hw hv ha hc (lt_trans hab hbc)] at e3
    injection e1 with e1; injection e2 with e2; injection e3 with e3
    rw [← e1, ← e2, ← e3]; ring
  · intro a b I u v hab hno e1 e2 e3
    have dom : ∀ t w, f.eval t = .ok w → f.inDom t ∧ w = f.fn t := by
      intro t w he
      by_cases hc : f.inDom t
      · rw [PL.eval_eq hw hc] at he; injection he with he; exact ⟨hc, he.symm⟩
      · rw [PL.eval_err hc] at he; exact absurd he (by simp)
    obtain ⟨ha, rfl⟩ := dom a u e2
    obtain ⟨hb, rfl⟩ := dom b v e3
    rw [PL.integrate_eq hw hv ha hb hab] at e1
    injection e1 with e1
    rw [← e1]
    exact PL.prim_affine hw (le_of_lt hab) (PL.fn_affine hw hno)

example : (∀ v ∈ zigzag.values, 0 ≤ v) ∧ zigzag.integrate 1 6 = .ok (5 / 2 + 9 / 2 + 1 / 2) := by decide +kernel

/-- C21: after `extend_with_slope(s, m)`, with `s` the last break point or more than eps later and `m`
the last slope or more than eps different, the function is unchanged up to `s` and continues from there
with slope `m`. -/
theorem C21_extend_with_slope (f : PL) (h : ValidPL f) (s m l : ℚ) (hl : f.times.getLast? = some l)
    (hs : s = l ∨ l + eps < s) (hm : m = f.last ∨ eps < |f.last - m|) (hd : f.inDom s) :
    ∃ g, f.extendWithSlope s m = .ok g ∧ ValidPL g ∧ g.lo = f.lo ∧ g.hi = f.hi ∧
      (∀ t, f.inDom t → t ≤ s → ∃ v, f.eval t = .ok v ∧ g.eval t = .ok v) ∧
      (∀ t, f.inDom t → s ≤ t → ∃ v, f.eval s = .ok v ∧ g.eval t = .ok (v + m * (t - s))) := by
  have hw := h.wf
  rw [List.getLast?_eq_some_getLast hw.ne] at hl
  injection hl with hl; subst hl
  obtain ⟨g, h1, hg, hlo, hhi, _, hfn, _⟩ := PL.extend_fn hw hd.2 hs hm
  have hdg : ∀ t, f.inDom t → g.inDom t := by
    intro t ht; unfold PL.inDom; rw [hlo, hhi]; exact ht
  refine ⟨g, h1, hg.valid, hlo, hhi, ?_, ?_⟩
  · intro t ht hts
    refine ⟨_, PL.eval_eq hw ht, ?_⟩
    rw [PL.eval_eq hg (hdg t ht), hfn t, PL.ext, if_pos hts]
  · intro t ht hts
    refine ⟨_, PL.eval_eq hw hd, ?_⟩
    rw [PL.eval_eq hg (hdg t ht), hfn t, PL.ext]
    by_cases hc : t ≤ s
    · have : t = s := le_antisymm hc hts
      rw [if_pos hc, this]; congr 1; ring
    · rw [if_neg hc]

/-- C21, unconditional part: whenever `extend_with_slope` returns, the object stays valid and its
domain and first slope are unchanged; it raises exactly when the time is more than eps before the last
break point. -/
theorem C21_extend_stays_valid (f : PL) (h : ValidPL f) (s m l : ℚ) (hl : f.times.getLast? = some l)
    (hd : (s : WithTop ℚ) ≤ f.hi) :
    (s < l - eps → f.extendWithSlope s m = .error .assertion) ∧
    (l - eps ≤ s → ∃ g, f.extendWithSlope s m = .ok g ∧ ValidPL g ∧ g.lo = f.lo ∧ g.hi = f.hi ∧ g.first = f.first) := by
  have hw := h.wf
  rw [List.getLast?_eq_some_getLast hw.ne] at hl
  injection hl with hl; subst hl
  constructor
  · intro hs
    unfold PL.extendWithSlope
    rw [rdLast_eq _ hw.ne, ok_bind, pyAssert_false (not_le.mpr hs), error_bind]
  · intro hs
    have : ∃ g, f.extendWithSlope s m = .ok g := by
      unfold PL.extendWithSlope
      rw [rdLast_eq _ hw.ne, ok_bind, pyAssert_true hs, ok_bind, rdLast_eq _ hw.vne]
      split_ifs <;> exact ⟨_, rfl⟩
    obtain ⟨g, hg⟩ := this
    obtain ⟨a, b, c, d⟩ := PL.extend_wf hw hd hg
    exact ⟨g, hg, a.valid, b, c, d⟩

example : stairs.times.getLast? = some 5 ∧ (5 : ℚ) + eps < 7 ∧ eps < |stairs.last - (-1)| ∧
    (stairs.extendWithSlope 7 (-1)).toOption.map PL.values = some [0, 4, 4, 8] := by
  unfold eps; decide +kernel

/-- C22 (PiecewiseLinear): if neighbouring slopes are equal or differ by at least 1000 eps, `simplify`
returns the same function with a sublist of the break points that keeps the first one, and the same
outer slopes and domain. -/
theorem C22_simplify (f : PL) (h : ValidPL f)
    (hE : ∀ (j : Nat) (g0 g1 : ℚ), j + 1 < f.times.length → f.gradient j = .ok g0 → f.gradient (j + 1) = .ok g1 →
      g0 = g1 ∨ 1000 * eps ≤ |g0 - g1|) :
    ∃ g, f.simplify = .ok g ∧ ValidPL g ∧ g.lo = f.lo ∧ g.hi = f.hi ∧ g.first = f.first ∧ g.last = f.last ∧
      g.times.Sublist f.times ∧ g.times.head? = f.times.head? ∧ ∀ t, g.eval t = f.eval t := by
  obtain ⟨g, h1, hg, hlo, hhi, h2, h3, h4, h5, hfn⟩ := PL.simplify_ok h.wf (fun j hj g0 g1 e0 e1 => hE j g0 g1 hj e0 e1)
  refine ⟨g, h1, hg.valid, hlo, hhi, h2, h3, h4, h5, ?_⟩
  intro t
  by_cases hc : f.inDom t
  · have hc' : g.inDom t := by unfold PL.inDom; rw [hlo, hhi]; exact hc
    rw [PL.eval_eq h.wf hc, PL.eval_eq hg hc', hfn]
  · have hc' : ¬ g.inDom t := by unfold PL.inDom; rw [hlo, hhi]; exact hc
    rw [PL.eval_err hc, PL.eval_err hc']

example : (PL.simplify ⟨[0, 1, 2, 3], [0, 1, 2, 5], 1, 3, ⊥, ⊤⟩).toOption.map PL.times = some [0, 2] := by
  decide +kernel

/-- C23: `ensure_monotone` without the assertion always returns; with it, it returns if no later value
is more than eps below an earlier one. The result has the same break points and domain, is non-decreasing,
and its value at a break point is the least upper bound of the input values up to there (so it is never
below the input at a break point). -/
theorem C23_ensure_monotone (f : PL) (h : ValidPL f) (am : Bool)
    (ham : am = true → ∀ (i j : Nat) (a b : ℚ), i < j → f.values[i]? = some a → f.values[j]? = some b → a ≤ b + eps) :
    ∃ g, f.ensureMonotone am = .ok g ∧ ValidPL g ∧ g.times = f.times ∧ g.lo = f.lo ∧ g.hi = f.hi ∧ NonDecreasing g ∧
      (∀ (i : Nat) (w c : ℚ), g.values[i]? = some w → (w ≤ c ↔ ∀ (j : Nat) (v : ℚ), j ≤ i → f.values[j]? = some v → v ≤ c)) ∧
      (NonDecreasing f → 0 ≤ f.first → 0 ≤ f.last → g = f) := by
  have hw := h.wf
  obtain ⟨g, h1, hg, ht, hlo, hhi, hfi, hla, hs, hlub, heq⟩ := PL.ensureMonotone_ok hw am (by
    intro ha i j hij hj
    exact ham ha i j _ _ hij (List.getElem?_eq_getElem _) (List.getElem?_eq_getElem hj))
  refine ⟨g, h1, hg.valid, ht, hlo, hhi, ?_, ?_, ?_⟩
  · intro x y a b hxy ha hb
    have dom : ∀ t w, g.eval t = .ok w → w = g.fn t := by
      intro t w he
      by_cases hc : g.inDom t
      · rw [PL.eval_eq hg hc] at he; injection he with he; exact he.symm
      · rw [PL.eval_err hc] at he; exact absurd he (by simp)
    rw [dom x a ha, dom y b hb]
    exact PL.fn_mono hg hs (by rw [hfi]; exact le_max_left _ _) (by rw [hla]; exact le_max_left _ _) hxy
  · intro i w c hwi
    obtain ⟨hi, rfl⟩ := List.getElem?_eq_some_iff.mp hwi
    have hi' : i < f.values.length := by rw [hw.len, ← ht, ← hg.len]; exact hi
    rw [hlub i c hi' hi]
    constructor
    · intro hh j v hj hv
      obtain ⟨_, rfl⟩ := List.getElem?_eq_some_iff.mp hv
      exact hh j hj
    · intro hh j hj
      exact hh j _ hj (List.getElem?_eq_getElem _)
  · intro hm h0 h0'
    have hv := heq ((hm.monoOn h).values hw)
    obtain ⟨ts, vs, a, b, lo, hi⟩ := f
    obtain ⟨ts', vs', a', b', lo', hi'⟩ := g
    simp only at ht hlo hhi hfi hla hv h0 h0'
    subst ht hlo hhi hv
    simp [hfi, hla, h0, h0']

example : (PL.ensureMonotone zigzag false).toOption.map PL.values = some [1, 3, 3] ∧
    (PL.ensureMonotone zigzag true) = .error .assertion := by decide +kernel

/-- C24, soundness (partial): if `f.smaller_equals(g)` is true then `f` is defined wherever `g` is and,
on a bounded domain, exceeds it by at most the tolerance 1000 eps; on an unbounded domain the excess is
at most the tolerance times one plus the time passed since the last break point of both. Missing on
unbounded domains: a bound independent of time, which is false (`C24_smaller_equals_unbounded`). -/
theorem C24_smaller_equals_sound_partial (f g : PL) (hf : ValidPL f) (hg : ValidPL g)
    (he : f.smallerEquals g = .ok true) (t b : ℚ) (hb : g.eval t = .ok b) :
    ∃ a, f.eval t = .ok a ∧
      (∀ d : ℚ, g.hi = (d : WithTop ℚ) → a ≤ b + 1000 * eps) ∧
      (∀ l : ℚ, (∀ s ∈ f.times ++ g.times, s ≤ l) → l ∈ f.times ++ g.times →
        a ≤ b + 1000 * eps * (1 + max 0 (t - l))) := by
  obtain ⟨h1, h2, h3, h4⟩ := PL.smallerEquals_sound hf.wf hg.wf he
  have hp : PL.precision = 1000 * eps := by unfold PL.precision; ring
  have hgt : g.inDom t ∧ b = g.fn t := by
    by_cases hc : g.inDom t
    · rw [PL.eval_eq hg.wf hc] at hb; injection hb with hb; exact ⟨hc, hb.symm⟩
    · rw [PL.eval_err hc] at hb; exact absurd hb (by simp)
  obtain ⟨hgt, rfl⟩ := hgt
  have hft : f.inDom t := ⟨by rw [h2]; exact hgt.1, le_trans hgt.2 h1⟩
  refine ⟨_, PL.eval_eq hf.wf hft, ?_, ?_⟩
  · intro d hd
    have := h3 d hd t hgt
    rw [hp] at this; exact this
  · intro l hl hlm
    have hml : max (f.times.getLast hf.wf.ne) (g.times.getLast hg.wf.ne) = l := by
      apply le_antisymm
      · exact max_le (hl _ (by simp)) (hl _ (by simp))
      · rcases List.mem_append.mp hlm with hh | hh
        · exact le_trans (le_getLast hf.wf.lt hf.wf.ne hh) (le_max_left _ _)
        · exact le_trans (le_getLast hg.wf.lt hg.wf.ne hh) (le_max_right _ _)
    have hnn : 0 ≤ 1000 * eps * max 0 (t - l) :=
      mul_nonneg (by have := eps_pos; linarith) (le_max_left _ _)
    cases hh : g.hi with
    | coe d =>
      have := h3 d hh t hgt
      rw [hp] at this; linarith
    | top =>
      have := (h4 hh).2 t hgt
      rw [hp, hml] at this; linarith

/-- C24, completeness: for functions starting at the common left end of their domains, with the domain
of `g` contained in that of `f` and more than one point, `f <= g` everywhere makes the answer true. -/
theorem C24_smaller_equals_complete (f g : PL) (hf : ValidPL f) (hg : ValidPL g) (s : ℚ)
    (h1 : f.times.head? = some s) (h2 : g.times.head? = some s) (h3 : f.lo = (s : WithBot ℚ)) (h4 : g.lo = (s : WithBot ℚ))
    (hhi : g.hi ≤ f.hi) (hlt : (s : WithTop ℚ) < g.hi)
    (hle : ∀ t b, g.eval t = .ok b → ∃ a, f.eval t = .ok a ∧ a ≤ b) : f.smallerEquals g = .ok true := by
  have e1 : f.times[0]'hf.wf.pos = s := by
    rw [List.head?_eq_getElem?, List.getElem?_eq_getElem hf.wf.pos] at h1; injection h1
  have e2 : g.times[0]'hg.wf.pos = s := by
    rw [List.head?_eq_getElem?, List.getElem?_eq_getElem hg.wf.pos] at h2; injection h2
  refine PL.smallerEquals_complete hf.wf hg.wf (by rw [e1]; exact h3) (by rw [e2]; exact h4) (h3.trans h4.symm) hhi
    (by rw [e2]; exact hlt) ?_
  intro t ht
  obtain ⟨a, ha, hab⟩ := hle t _ (PL.eval_eq hg.wf ht)
  have hft : f.inDom t := ⟨by rw [h3, ← h4]; exact ht.1, le_trans ht.2 hhi⟩
  rw [PL.eval_eq hf.wf hft] at ha
  injection ha with ha
  rw [ha]; exact hab

/-- C24 is false as stated on unbounded domains: a slope that is too large by less than the tolerance
is accepted and the functions drift apart without bound. -/
theorem C24_smaller_equals_unbounded : ∃ f g : PL, ValidPL f ∧ ValidPL g ∧ f.smallerEquals g = .ok true ∧
    ∀ D : ℚ, ∃ t a b, f.eval t = .ok a ∧ g.eval t = .ok b ∧ b + D < a := by
  have hf : ValidPL ⟨[0], [0], 0, 500 * eps, (0 : ℚ), ⊤⟩ :=
    ⟨by decide, by decide, by simp, by decide +kernel⟩
  have hg : ValidPL ⟨[0], [0], 0, 0, (0 : ℚ), ⊤⟩ :=
    ⟨by decide, by decide, by simp, by decide +kernel⟩
  refine ⟨_, _, hf, hg, by unfold eps; decide +kernel, ?_⟩
  intro D
  have heps := eps_pos
  have ht : 0 ≤ (|D| + 1) / (500 * eps) :=
    div_nonneg (by have := abs_nonneg D; linarith) (by linarith)
  refine ⟨(|D| + 1) / (500 * eps), _, _, PL.eval_eq hf.wf ⟨WithBot.coe_le_coe.mpr ht, le_top⟩,
    PL.eval_eq hg.wf ⟨WithBot.coe_le_coe.mpr ht, le_top⟩, ?_⟩
  rw [PL.fn_right hf.wf (by simpa using ht), PL.fn_right hg.wf (by simpa using ht)]
  simp only [List.getLast_singleton]
  have h1 : (|D| + 1) / (500 * eps) * (500 * eps) = |D| + 1 := by field_simp
  have h2 := le_abs_self D
  linarith

example : (PL.smallerEquals ⟨[0, 2], [0, 1], 0, 1, (0 : ℚ), (10 : ℚ)⟩ ⟨[0, 3], [1, 2], 0, 2, (0 : ℚ), (8 : ℚ)⟩) = .ok true := by
  decide +kernel

end Verif.Props
