import Verif.Proofs.PLOuterMin
import Verif.Props.PiecewiseLinear

/-! C18: `minimum` and `outer_minimum` of `PiecewiseLinear`. -/

namespace Verif
namespace Props

/-- `t` lies in both domains. -/
def Common (f g : PL) (t : ℚ) : Prop := f.inDom t ∧ g.inDom t

/-- A point where the minimum may bend: a break point, or a point where the functions agree and differ right behind. -/
def MinBend (f g : PL) (s : ℚ) : Prop :=
  Common f g s ∧ (s ∈ f.times ∨ s ∈ g.times ∨ (f.eval s = g.eval s ∧ ∃ r, s < r ∧ Common f g r ∧ ∀ x, s < x → x ≤ r → f.eval x ≠ g.eval x))

/-- Nothing is decided by less than the machine precision: values at break points, slopes and bends are equal or more than eps apart. -/
structure NoNearMiss (f g : PL) : Prop where
  values : ∀ t x y, t ∈ f.times ∨ t ∈ g.times → f.eval t = .ok x → g.eval t = .ok y → x = y ∨ eps < |x - y|
  slopes : ∀ i j m n, f.gradient i = .ok m → g.gradient j = .ok n → m = n ∨ eps < |m - n|
  bends : ∀ s t, MinBend f g s → MinBend f g t → s < t → s + eps < t

/-- At `z`, `c` is smaller than `o`, and this does not change behind `z` by a smaller slope of `o`, unless `c` has a break point there and the functions do not meet within eps. -/
def Leads (c o : PL) (z : ℚ) : Prop :=
  ∃ x y, c.eval z = .ok x ∧ o.eval z = .ok y ∧ x < y ∧
    (c.last ≤ o.last ∨ (z ∈ c.times ∧ ∀ t v, z < t → c.eval t = .ok v → o.eval t = .ok v → z + eps < t))

/-- Behind the last break point either the slopes agree or one function leads. -/
def TailSettled (f g : PL) : Prop :=
  ∀ z, (z ∈ f.times ∨ z ∈ g.times) → (∀ t, t ∈ f.times ∨ t ∈ g.times → t ≤ z) → f.last = g.last ∨ Leads f g z ∨ Leads g f z

theorem eval_fn {f : PL} (hf : f.WF) {t v : ℚ} (h : f.eval t = .ok v) : f.inDom t ∧ v = f.fn t := by
  by_cases hc : f.inDom t
  · rw [PL.eval_eq hf hc] at h; injection h with h; exact ⟨hc, h.symm⟩
  · rw [PL.eval_err hc] at h; cases h

theorem common_iff {f g : PL} {a : ℚ} (hlo : max f.lo g.lo = (a : WithBot ℚ)) (x : ℚ) : Common f g x ↔ a ≤ x ∧ (x : WithTop ℚ) ≤ min f.hi g.hi := by
  have h : a ≤ x ↔ f.lo ≤ (x : WithBot ℚ) ∧ g.lo ≤ (x : WithBot ℚ) := by rw [← max_le_iff, hlo, WithBot.coe_le_coe]
  unfold Common PL.inDom
  rw [le_min_iff, h]
  tauto

theorem pair_of {f g : PL} (hf : ValidPL f) (hg : ValidPL g) {a : ℚ} (hlo : max f.lo g.lo = (a : WithBot ℚ)) (hge : ∀ t, t ∈ f.times ∨ t ∈ g.times → a ≤ t) (hn : NoNearMiss f g) :
    PL.Pair f g a (min f.hi g.hi) := by
  have hco := fun x => common_iff hlo x
  have hbend : ∀ s, PL.Bend f g a (min f.hi g.hi) s → MinBend f g s := by
    intro s hs
    have hc := (hco s).mpr ⟨hs.1, hs.2.1⟩
    refine ⟨hc, ?_⟩
    rcases hs.2.2 with h | h | ⟨h, r, r1, r2, r3⟩
    · exact Or.inl h
    · exact Or.inr (Or.inl h)
    · refine Or.inr (Or.inr ⟨by rw [PL.eval_eq hf.wf hc.1, PL.eval_eq hg.wf hc.2, h], r, r1, (hco r).mpr ⟨le_trans hs.1 r1.le, r2⟩, fun x x1 x2 e => ?_⟩)
      have hx := (hco x).mpr ⟨le_trans hs.1 x1.le, PL.top_le x2 r2⟩
      rw [PL.eval_eq hf.wf hx.1, PL.eval_eq hg.wf hx.2] at e
      injection e with e
      exact r3 x x1 x2 e
  refine ⟨hf.wf, hg.wf, fun x h1 h2 => (hco x).mpr ⟨h1, h2⟩, fun t ht => hge t (Or.inl ht), fun t ht => hge t (Or.inr ht), ?_, hn.slopes, ?_⟩
  · intro t ht hh
    have hc := (hco t).mpr ⟨hge t ht, hh⟩
    exact hn.values t _ _ ht (PL.eval_eq hf.wf hc.1) (PL.eval_eq hg.wf hc.2)
  · intro s t hs ht
    exact hn.bends s t (hbend s hs) (hbend t ht)

theorem leads_wins {c o : PL} (hc : ValidPL c) (ho : ValidPL o) {hi : WithTop ℚ} (hdom : ∀ x, (∃ z, c.inDom z ∧ o.inDom z ∧ z ≤ x) → (x : WithTop ℚ) ≤ hi → c.inDom x ∧ o.inDom x) {z : ℚ}
    (h : Leads c o z) : PL.Wins c o hi z := by
  obtain ⟨x, y, h1, h2, h3, h4⟩ := h
  obtain ⟨d1, rfl⟩ := eval_fn hc.wf h1
  obtain ⟨d2, rfl⟩ := eval_fn ho.wf h2
  refine ⟨h3, h4.imp id fun ⟨h5, h6⟩ => ⟨h5, fun t ht1 ht2 ht3 => ?_⟩⟩
  obtain ⟨d3, d4⟩ := hdom t ⟨z, d1, d2, ht1.le⟩ ht2
  exact h6 t _ ht1 (PL.eval_eq hc.wf d3) (by rw [ht3]; exact PL.eval_eq ho.wf d4)

/-- C18, `minimum`: for functions whose break points all lie in the common domain, one of them at its start, without near misses and with a settled tail, the result has the common
domain and is the smaller of the two values everywhere on it. These conditions are needed, see `C18_tail_wrong`, `C18_tie_wrong`, `C18_cut_slope`, `C18_early_break` and
`C18_no_break`. -/
theorem C18_minimum_partial (f g : PL) (hf : ValidPL f) (hg : ValidPL g) (a : ℚ) (hlo : max f.lo g.lo = (a : WithBot ℚ)) (hlt : (a : WithTop ℚ) < min f.hi g.hi)
    (hstart : a ∈ f.times ∨ a ∈ g.times) (hbreaks : ∀ t, t ∈ f.times ∨ t ∈ g.times → Common f g t) (hnear : NoNearMiss f g) (htail : TailSettled f g) :
    ∃ m, f.minimum g = .ok m ∧ ValidPL m ∧ m.lo = max f.lo g.lo ∧ m.hi = min f.hi g.hi ∧
      ∀ t, Common f g t → ∃ x y, f.eval t = .ok x ∧ g.eval t = .ok y ∧ m.eval t = .ok (min x y) := by
  have hco := fun x => common_iff hlo x
  have hpair := pair_of hf hg hlo (fun t ht => ((hco t).mp (hbreaks t ht)).1) hnear
  have hdom : ∀ x, (∃ z, f.inDom z ∧ g.inDom z ∧ z ≤ x) → (x : WithTop ℚ) ≤ min f.hi g.hi → f.inDom x ∧ g.inDom x := by
    rintro x ⟨z, z1, z2, z3⟩ h2
    exact (hco x).mpr ⟨le_trans ((hco z).mp ⟨z1, z2⟩).1 z3, h2⟩
  obtain ⟨m, h1, h2, h3, h4, h5⟩ := PL.minimum_ok hpair hlo rfl hlt hstart (fun t ht => ((hco t).mp (hbreaks t (Or.inl ht))).2) (fun t ht => ((hco t).mp (hbreaks t (Or.inr ht))).2) (by
    intro z hz
    rcases htail z hz.1 (fun t ht => ht.elim (hz.2.1 t) (hz.2.2 t)) with e | e | e
    · exact Or.inl e
    · exact Or.inr (Or.inl (leads_wins hf hg hdom e))
    · exact Or.inr (Or.inr (leads_wins hg hf (fun x ⟨z, z1, z2, z3⟩ h => (hdom x ⟨z, z2, z1, z3⟩ h).symm) e)))
  refine ⟨m, h1, h2.valid, by rw [h3, hlo], h4, fun t ht => ⟨_, _, PL.eval_eq hf.wf ht.1, PL.eval_eq hg.wf ht.2, ?_⟩⟩
  have hab := (hco t).mp ht
  rw [PL.eval_eq h2 ⟨by rw [h3]; exact WithBot.coe_le_coe.mpr hab.1, by rw [h4]; exact hab.2⟩, h5 t hab.1 hab.2]

/-- C18, `outer_minimum` on equal domains is `minimum`. -/
theorem C18_outer_same (f g : PL) (hlo : f.lo = g.lo) (hhi : f.hi = g.hi) : f.outerMinimum g = f.minimum g := PL.outer_same hlo hhi

/-- The domains start more than eps apart. -/
def StartsDiffer (f g : PL) : Prop :=
  (∃ a b : ℚ, f.lo = (a : WithBot ℚ) ∧ g.lo = (b : WithBot ℚ) ∧ eps < |a - b|) ∨ (∃ b : ℚ, f.lo = ⊥ ∧ g.lo = (b : WithBot ℚ)) ∨ ∃ a : ℚ, f.lo = (a : WithBot ℚ) ∧ g.lo = ⊥

/-- C18 is false for `outer_minimum` of functions that start at different times: the call never returns a function. Either a break point before the common domain makes `minimum` raise or
there is none, and then `left_extend` raises. -/
theorem C18_outer_left (f g : PL) (hf : ValidPL f) (hg : ValidPL g) (h : StartsDiffer f g) : ∀ m, f.outerMinimum g ≠ .ok m := by
  refine PL.outer_left_err hf.wf hg.wf ?_
  rcases h with ⟨a, b, e1, e2, h⟩ | ⟨b, e1, e2⟩ | ⟨a, e1, e2⟩
  · rw [e1, e2]
    rcases le_total a b with hab | hab
    · left
      rw [abs_sub_comm, abs_of_nonneg (sub_nonneg.mpr hab)] at h
      exact decide_eq_true (show b > a + eps by linarith)
    · right
      rw [abs_of_nonneg (sub_nonneg.mpr hab)] at h
      exact decide_eq_true (show a > b + eps by linarith)
  · rw [e1, e2]; left; rfl
  · rw [e1, e2]; right; rfl

/-- C18: a break point before the common domain makes `minimum` raise. -/
theorem C18_early_break (f g : PL) (hf : ValidPL f) (hg : ValidPL g) (a t : ℚ) (hlo : max f.lo g.lo = (a : WithBot ℚ)) (ht : t ∈ f.times ∨ t ∈ g.times) (hta : t < a) :
    ∀ m, f.minimum g ≠ .ok m := PL.minimum_early hf.wf hg.wf hlo ht hta

/-- `F` goes on behind the end `b` of `S` and is below `S` from the last break point up to `b` to `b`. -/
structure Outlasts (F S : PL) (a b : ℚ) : Prop where
  flo : F.lo = (a : WithBot ℚ)
  slo : S.lo = (a : WithBot ℚ)
  shi : S.hi = (b : WithTop ℚ)
  fhi : ∀ d : ℚ, F.hi = (d : WithTop ℚ) → b + eps < d
  lt : a < b
  start : a ∈ F.times
  next : ∀ t ∈ F.times, b < t → b + eps < t
  below : ∀ z, (z ∈ F.times ∨ z ∈ S.times) → z ≤ b → (∀ t, t ∈ F.times ∨ t ∈ S.times → t ≤ b → t ≤ z) →
    (∀ t x y, z ≤ t → F.eval t = .ok x → S.eval t = .ok y → x < y) ∧
    (z ∈ F.times ∨ ∀ m, F.gradient ((F.times.countP (· ≤ b) : Int) - 1) = .ok m → m ≤ S.last)

/-- C18, `outer_minimum` of functions that start together, where one of them goes on behind the end `b` of the other: the smaller value up to `b`, and the value of the longer one behind
it. -/
theorem C18_outer_right_partial (F S f g : PL) (hF : ValidPL F) (hS : ValidPL S) (a b : ℚ) (h : Outlasts F S a b) (hnear : NoNearMiss F S) (hfg : (f = F ∧ g = S) ∨ (f = S ∧ g = F)) :
    ∃ m, f.outerMinimum g = .ok m ∧ ValidPL m ∧ m.lo = F.lo ∧ m.hi = F.hi ∧
      (∀ t, S.inDom t → ∃ x y, F.eval t = .ok x ∧ S.eval t = .ok y ∧ m.eval t = .ok (min x y)) ∧
      ∀ t, F.inDom t → ¬ S.inDom t → ∃ x, F.eval t = .ok x ∧ m.eval t = .ok x := by
  have hlo : max F.lo S.lo = (a : WithBot ℚ) := by rw [h.flo, h.slo, max_self]
  have hbF : (b : WithTop ℚ) ≤ F.hi := by
    cases e : F.hi with
    | top => exact le_top
    | coe d => exact WithTop.coe_le_coe.mpr (by linarith [h.fhi d e, eps_pos])
  have hhi : min F.hi S.hi = (b : WithTop ℚ) := by rw [h.shi, min_eq_right hbF]
  have hge : ∀ t, t ∈ F.times ∨ t ∈ S.times → a ≤ t := by
    rintro t (ht | ht)
    · have := (hF.dom t ht).1
      rw [h.flo] at this; exact WithBot.coe_le_coe.mp this
    · have := (hS.dom t ht).1
      rw [h.slo] at this; exact WithBot.coe_le_coe.mp this
  have hp := pair_of hF hS hlo hge hnear
  rw [hhi] at hp
  have hin : ∀ x : ℚ, a ≤ x → x ≤ b → F.inDom x ∧ S.inDom x := fun x h1 h2 => hp.dom x h1 (WithTop.coe_le_coe.mpr h2)
  have hlong : PL.Long F S a b := by
    refine ⟨hp, h.lt, Or.inl h.start, ⟨a, h.start, h.lt.le⟩, ?_, h.flo, h.slo, h.shi, ?_, h.next⟩
    · intro z hz
      obtain ⟨b1, b2⟩ := h.below z hz.1 hz.2.1 hz.2.2
      refine ⟨fun x h1 h2 => ?_, b2⟩
      have hx := hin x (le_trans (hge z hz.1) h1) h2
      exact b1 x _ _ h1 (PL.eval_eq hF.wf hx.1) (PL.eval_eq hS.wf hx.2)
    · cases e : F.hi with
      | top => rfl
      | coe d => exact decide_eq_true (by linarith [h.fhi d e])
  obtain ⟨m, m1, m2, m3, m4, m5, m6⟩ := PL.outer_long hlong hfg
  refine ⟨m, m1, m2.valid, by rw [m3, h.flo], m4, ?_, ?_⟩
  · intro t ht
    have h1 : a ≤ t := by have := ht.1; rw [h.slo] at this; exact WithBot.coe_le_coe.mp this
    have h2 : t ≤ b := by have := ht.2; rw [h.shi] at this; exact WithTop.coe_le_coe.mp this
    have hx := hin t h1 h2
    refine ⟨_, _, PL.eval_eq hF.wf hx.1, PL.eval_eq hS.wf hx.2, ?_⟩
    rw [PL.eval_eq m2 ⟨by rw [m3]; exact WithBot.coe_le_coe.mpr h1, by rw [m4]; exact hx.1.2⟩, m5 t h1 h2]
  · intro t ht hns
    have h1 : a ≤ t := by have := ht.1; rw [h.flo] at this; exact WithBot.coe_le_coe.mp this
    have h2 : b < t := by
      by_contra hcon
      exact hns (hin t h1 (not_lt.mp hcon)).2
    refine ⟨_, PL.eval_eq hF.wf ht, ?_⟩
    rw [PL.eval_eq m2 ⟨by rw [m3]; exact WithBot.coe_le_coe.mpr h1, by rw [m4]; exact ht.2⟩, m6 t h2 ht.2]

/-! ### A case with crossings between and behind the break points -/

/-- Up to 4 at time 2, down to 0 at time 6, then up. -/
def wave : PL := ⟨[0, 2, 6], [0, 4, 0], 1, 3, (0 : ℚ), ⊤⟩
/-- 3 until time 5, then down. -/
def ledge : PL := ⟨[0, 5], [3, 3], 0, -1, (0 : ℚ), ⊤⟩

theorem wave_valid : ValidPL wave ∧ ValidPL ledge :=
  ⟨⟨by decide, by decide, by unfold eps; decide +kernel, by decide +kernel⟩, ⟨by decide, by decide, by unfold eps; decide +kernel, by decide +kernel⟩⟩

theorem wave_common (t : ℚ) : Common wave ledge t ↔ 0 ≤ t := by
  rw [common_iff (a := 0) (by decide +kernel)]
  exact and_iff_left le_top

theorem wave_meet {s : ℚ} (h0 : 0 ≤ s) (h : wave.fn s = ledge.fn s) : s ∈ [(3 / 2 : ℚ), 3, 13 / 2] := by
  have w1 := wave_valid.1.wf
  have w2 := wave_valid.2.wf
  have g1 : s ≤ 5 → ledge.fn s = 3 := by
    intro h5
    rw [PL.fn_mid w2 0 (by decide) h0 h5]
    simp [ledge]
  have g2 : 5 ≤ s → ledge.fn s = 3 - (s - 5) := by
    intro h5
    rw [PL.fn_right w2 h5]
    simp [ledge]; ring
  have f2 : 2 ≤ s → s ≤ 6 → wave.fn s = 6 - s := by
    intro h1 h2
    rw [PL.fn_mid w1 1 (by decide) h1 h2]
    simp [wave]; ring
  simp only [List.mem_cons, List.not_mem_nil, or_false]
  rcases le_total s 2 with h1 | h1
  · have f1 : wave.fn s = 2 * s := by
      rw [PL.fn_mid w1 0 (by decide) h0 h1]
      simp [wave]; ring
    rw [f1, g1 (by linarith)] at h
    left; linarith
  rcases le_total s 6 with h2 | h2
  · rw [f2 h1 h2] at h
    rcases le_total s 5 with h3 | h3
    · rw [g1 h3] at h
      right; left; linarith
    · rw [g2 h3] at h
      linarith
  · have f3 : wave.fn s = 3 * (s - 6) := by
      rw [PL.fn_right w1 h2]
      simp [wave]; ring
    rw [f3, g2 (by linarith)] at h
    right; right; linarith

theorem wave_near : NoNearMiss wave ledge := by
  have w1 := wave_valid.1.wf
  have w2 := wave_valid.2.wf
  refine ⟨?_, ?_, ?_⟩
  · intro t x y ht h1 h2
    have key : ∀ t ∈ [(0 : ℚ), 2, 6, 5], ∀ x ∈ (wave.eval t).toOption, ∀ y ∈ (ledge.eval t).toOption, x = y ∨ eps < |x - y| := by unfold eps; decide +kernel
    refine key t ?_ x (by rw [h1]; rfl) y (by rw [h2]; rfl)
    rcases ht with ht | ht
    · have : t ∈ [(0 : ℚ), 2, 6] := ht
      simp only [List.mem_cons, List.not_mem_nil, or_false] at this ⊢; tauto
    · have : t ∈ [(0 : ℚ), 5] := ht
      simp only [List.mem_cons, List.not_mem_nil, or_false] at this ⊢; tauto
  · intro i j m n h1 h2
    have key : ∀ i ∈ [(-1 : Int), 0, 1, 2], ∀ j ∈ [(-1 : Int), 0, 1], ∀ m ∈ (wave.gradient i).toOption, ∀ n ∈ (ledge.gradient j).toOption, m = n ∨ eps < |m - n| := by unfold eps; decide +kernel
    have r1 := PL.gradient_range h1
    have r2 := PL.gradient_range h2
    have l1 : wave.times.length = 3 := rfl
    have l2 : ledge.times.length = 2 := rfl
    refine key i ?_ j ?_ m (by rw [h1]; rfl) n (by rw [h2]; rfl)
    · simp only [List.mem_cons, List.not_mem_nil, or_false]; omega
    · simp only [List.mem_cons, List.not_mem_nil, or_false]; omega
  · have key : ∀ s, MinBend wave ledge s → s ∈ [(0 : ℚ), 3 / 2, 2, 3, 5, 6, 13 / 2] := by
      rintro s ⟨hc, h | h | ⟨h, _⟩⟩
      · have : s ∈ [(0 : ℚ), 2, 6] := h
        simp only [List.mem_cons, List.not_mem_nil, or_false] at this ⊢; tauto
      · have : s ∈ [(0 : ℚ), 5] := h
        simp only [List.mem_cons, List.not_mem_nil, or_false] at this ⊢; tauto
      · rw [PL.eval_eq w1 hc.1, PL.eval_eq w2 hc.2] at h
        injection h with h
        have := wave_meet ((wave_common s).mp hc) h
        simp only [List.mem_cons, List.not_mem_nil, or_false] at this ⊢; tauto
    have all : ∀ s ∈ [(0 : ℚ), 3 / 2, 2, 3, 5, 6, 13 / 2], ∀ t ∈ [(0 : ℚ), 3 / 2, 2, 3, 5, 6, 13 / 2], s < t → s + eps < t := by unfold eps; decide +kernel
    exact fun s t hs ht hst => all s (key s hs) t (key t ht) hst

theorem wave_tail : TailSettled wave ledge := by
  intro z hz hlast
  have h6 : (6 : ℚ) ≤ z := hlast 6 (Or.inl (by decide))
  have hz6 : z = 6 := by
    rcases hz with hz | hz
    · have : z ∈ [(0 : ℚ), 2, 6] := hz
      simp only [List.mem_cons, List.not_mem_nil, or_false] at this
      rcases this with rfl | rfl | rfl
      · norm_num at h6
      · norm_num at h6
      · rfl
    · have : z ∈ [(0 : ℚ), 5] := hz
      simp only [List.mem_cons, List.not_mem_nil, or_false] at this
      rcases this with rfl | rfl <;> norm_num at h6
  subst hz6
  right; left
  refine ⟨0, 2, by decide +kernel, by decide +kernel, by norm_num, Or.inr ⟨by decide, fun t v h1 h2 h3 => ?_⟩⟩
  obtain ⟨_, e1⟩ := eval_fn wave_valid.1.wf h2
  obtain ⟨_, e2⟩ := eval_fn wave_valid.2.wf h3
  have := wave_meet (by linarith) (e1.symm.trans e2)
  simp only [List.mem_cons, List.not_mem_nil, or_false] at this
  unfold eps
  rcases this with rfl | rfl | rfl
  · norm_num at h1
  · norm_num at h1
  · norm_num

-- the theorem applies to them, in this order or swapped, and this is the result
example := C18_minimum_partial wave ledge wave_valid.1 wave_valid.2 0 (by decide +kernel) (by decide +kernel) (Or.inl (by decide))
  (fun t ht => (wave_common t).mpr (by
    have key : ∀ t ∈ [(0 : ℚ), 2, 6, 5], 0 ≤ t := by decide +kernel
    refine key t ?_
    rcases ht with ht | ht
    · have : t ∈ [(0 : ℚ), 2, 6] := ht
      simp only [List.mem_cons, List.not_mem_nil, or_false] at this ⊢; tauto
    · have : t ∈ [(0 : ℚ), 5] := ht
      simp only [List.mem_cons, List.not_mem_nil, or_false] at this ⊢; tauto)) wave_near wave_tail
example : wave.minimum ledge = .ok ⟨[0, 3 / 2, 3, 6, 13 / 2], [0, 3, 3, 0, 3 / 2], 1, -1, (0 : ℚ), ⊤⟩ ∧
    ledge.minimum wave = .ok ⟨[0, 3 / 2, 3, 6, 13 / 2], [0, 3, 3, 0, 3 / 2], 1, -1, (0 : ℚ), ⊤⟩ := by decide +kernel
example : StartsDiffer wave ⟨[1], [0], 0, 0, (1 : ℚ), ⊤⟩ := Or.inl ⟨0, 1, rfl, rfl, by unfold eps; norm_num⟩

/-- `ledge` until time 6 only. -/
def shortLedge : PL := ⟨[0, 5], [3, 3], 0, -1, (0 : ℚ), (6 : ℚ)⟩

theorem short_valid : ValidPL shortLedge := ⟨by decide, by decide, by unfold eps; decide +kernel, by decide +kernel⟩

theorem short_eval {t v : ℚ} (h : shortLedge.eval t = .ok v) : 0 ≤ t ∧ t ≤ 6 ∧ ledge.eval t = .ok v := by
  obtain ⟨h1, rfl⟩ := eval_fn short_valid.wf h
  have h0 : 0 ≤ t := WithBot.coe_le_coe.mp h1.1
  have h6 : t ≤ 6 := WithTop.coe_le_coe.mp h1.2
  refine ⟨h0, h6, ?_⟩
  rw [PL.eval_eq wave_valid.2.wf ⟨h1.1, le_top⟩]
  rfl

theorem short_near : NoNearMiss wave shortLedge := by
  refine ⟨fun t x y ht h1 h2 => wave_near.values t x y ht h1 (short_eval h2).2.2, fun i j m n h1 h2 => wave_near.slopes i j m n h1 h2, fun s t hs ht => ?_⟩
  have hb : ∀ s, MinBend wave shortLedge s → MinBend wave ledge s := by
    have hev : ∀ x, shortLedge.inDom x → shortLedge.eval x = ledge.eval x := fun x hx => by
      rw [PL.eval_eq short_valid.wf hx, (short_eval (PL.eval_eq short_valid.wf hx)).2.2]
    rintro s ⟨hc, h⟩
    refine ⟨⟨hc.1, hc.2.1, le_top⟩, ?_⟩
    rcases h with h | h | ⟨h, r, r1, r2, r3⟩
    · exact Or.inl h
    · exact Or.inr (Or.inl h)
    · refine Or.inr (Or.inr ⟨by rw [h, hev s hc.2], r, r1, ⟨r2.1, r2.2.1, le_top⟩, fun x x1 x2 => ?_⟩)
      rw [← hev x (PL.inDom_between hc.2 r2.2 x1.le x2)]
      exact r3 x x1 x2
  exact wave_near.bends s t (hb s hs) (hb t ht)

theorem short_outlasts : Outlasts wave shortLedge 0 6 := by
  refine ⟨rfl, rfl, rfl, fun d e => (by cases e), (by norm_num), (by decide), ?_, ?_⟩
  · intro t ht h
    have : t ∈ [(0 : ℚ), 2, 6] := ht
    simp only [List.mem_cons, List.not_mem_nil, or_false] at this
    rcases this with rfl | rfl | rfl <;> norm_num at h
  · intro z hz hz6 hlast
    have h6 : (6 : ℚ) ≤ z := hlast 6 (Or.inl (by decide)) le_rfl
    have : z = 6 := le_antisymm hz6 h6
    subst this
    refine ⟨fun t x y h1 h2 h3 => ?_, Or.inl (by decide)⟩
    have h4 := (short_eval h3).2.1
    have : t = 6 := le_antisymm h4 h1
    subst this
    have e1 : wave.eval 6 = .ok 0 := by decide +kernel
    have e2 : shortLedge.eval 6 = .ok 2 := by decide +kernel
    rw [e1] at h2; rw [e2] at h3
    injection h2 with h2; injection h3 with h3
    rw [← h2, ← h3]; norm_num

example := C18_outer_right_partial wave shortLedge shortLedge wave wave_valid.1 short_valid 0 6 short_outlasts short_near (Or.inr ⟨rfl, rfl⟩)
example : wave.outerMinimum shortLedge = .ok ⟨[0, 3 / 2, 3, 6], [0, 3, 3, 0], 1, 3, (0 : ℚ), ⊤⟩ := by decide +kernel

/-! ### Witnesses -/

/-- C18 is false: behind the last break points the crossing is computed from the values at the last time written, which need not be the last break point. Here the minimum of `t` and of a
function that is 20 from time 5 on is 10 for every `t ≥ 10`. -/
theorem C18_tail_wrong : ∃ f g m : PL, ∃ t x y v, ValidPL f ∧ ValidPL g ∧ f.minimum g = .ok m ∧ f.eval t = .ok x ∧ g.eval t = .ok y ∧ m.eval t = .ok v ∧ v ≠ min x y := by
  refine ⟨⟨[0], [0], 1, 1, (0 : ℚ), ⊤⟩, ⟨[0, 5], [10, 20], 0, 0, (0 : ℚ), ⊤⟩, ⟨[0, 10], [0, 10], 1, 0, (0 : ℚ), ⊤⟩, 12, 12, 20, 10, ?_, ?_, ?_⟩
  · exact ⟨by decide, by decide, by unfold eps; decide +kernel, by decide +kernel⟩
  · exact ⟨by decide, by decide, by unfold eps; decide +kernel, by decide +kernel⟩
  · decide +kernel

/-- C18 is false: functions that meet at the last break point may go on with the larger one. -/
theorem C18_tie_wrong : ∃ f g m : PL, ∃ t x y v, ValidPL f ∧ ValidPL g ∧ f.minimum g = .ok m ∧ f.eval t = .ok x ∧ g.eval t = .ok y ∧ m.eval t = .ok v ∧ v ≠ min x y := by
  refine ⟨⟨[0, 1], [0, 1], 1, 2, (0 : ℚ), ⊤⟩, ⟨[0], [1], 0, 0, (0 : ℚ), ⊤⟩, ⟨[0, 1], [0, 1], 1, 2, (0 : ℚ), ⊤⟩, 2, 3, 1, 3, ?_, ?_, ?_⟩
  · exact ⟨by decide, by decide, by unfold eps; decide +kernel, by decide +kernel⟩
  · exact ⟨by decide, by decide, by unfold eps; decide +kernel, by decide +kernel⟩
  · decide +kernel

/-- C18 is false: if the smaller function has break points behind the end of the common domain, its last slope is used in front of them. -/
theorem C18_cut_slope : ∃ f g m : PL, ∃ t x y v, ValidPL f ∧ ValidPL g ∧ f.minimum g = .ok m ∧ f.eval t = .ok x ∧ g.eval t = .ok y ∧ m.eval t = .ok v ∧ v ≠ min x y := by
  refine ⟨⟨[0, 10], [0, 10], 1, 0, (0 : ℚ), ⊤⟩, ⟨[0], [100], 0, 0, (0 : ℚ), (5 : ℚ)⟩, ⟨[0], [0], 1, 0, (0 : ℚ), (5 : ℚ)⟩, 5, 5, 100, 0, ?_, ?_, ?_⟩
  · exact ⟨by decide, by decide, by unfold eps; decide +kernel, by decide +kernel⟩
  · exact ⟨by decide, by decide, by unfold eps; decide +kernel, by decide +kernel⟩
  · decide +kernel

/-- C18 is false: if the smaller function has no break point in the common domain, `minimum` raises `IndexError`. -/
theorem C18_no_break : ∃ f g : PL, ValidPL f ∧ ValidPL g ∧ f.lo = g.lo ∧ f.minimum g = .error .index := by
  refine ⟨⟨[10], [0], 0, 1, (0 : ℚ), ⊤⟩, ⟨[0], [100], 0, 0, (0 : ℚ), (5 : ℚ)⟩, ?_, ?_, rfl, ?_⟩
  · exact ⟨by decide, by decide, by unfold eps; decide +kernel, by decide +kernel⟩
  · exact ⟨by decide, by decide, by unfold eps; decide +kernel, by decide +kernel⟩
  · decide +kernel

end Props
end Verif
