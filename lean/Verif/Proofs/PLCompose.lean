import Verif.Model.PLCompose
import Verif.Proofs.PLMono
import Verif.Proofs.PLShape
import Mathlib.Data.List.Chain

/-! `compose`. -/

set_option linter.unusedSimpArgs false
set_option linter.unusedSectionVars false

namespace Verif
namespace PL

/-! ### Lipschitz bounds from slopes -/

theorem lower_slope {f : PL} (h : f.WF) {L : ℚ} (hs : ∀ i m, f.gradient i = .ok m → -L ≤ m) {x y : ℚ} (hxy : x ≤ y) : f.fn x - L * (y - x) ≤ f.fn y := by
  have hw := tilt_wf h L
  have := fn_mono hw ?_ ?_ ?_ hxy
  · rw [tilt_fn h, tilt_fn h] at this; linarith
  · rw [List.pairwise_iff_getElem]
    have step : ∀ i (hi : i + 1 < (f.tilt L).values.length), (f.tilt L).values[i] ≤ (f.tilt L).values[i + 1] := by
      intro i hi
      have hl : (f.tilt L).values.length = f.times.length := hw.len
      have hvl := h.len
      have hi' : i + 1 < f.times.length := by omega
      have e : ∀ j (hj : j < f.times.length), (f.tilt L).values[j]'(by omega) = f.values[j]'(by omega) + L * f.times[j] := by
        intro j hj
        exact List.getElem_zipWith
      rw [e i (by omega), e (i + 1) hi']
      have hm := hs i _ (gradient_mid h i hi')
      have hlt := getElem_lt_of h.lt (show i < i + 1 by omega) hi'
      rw [le_div_iff₀ (by linarith)] at hm
      linarith
    intro i j hi hj hij
    obtain ⟨d, rfl⟩ : ∃ d, j = i + 1 + d := ⟨j - i - 1, by omega⟩
    induction d with
    | zero => exact step i hj
    | succ d ih =>
      have h1 := ih (by omega) (by omega)
      have h2 := step (i + 1 + d) (by omega)
      exact le_trans h1 h2
  · have := hs _ _ (gradient_first h)
    show 0 ≤ f.first + L; linarith
  · have := hs _ _ (gradient_last h)
    show 0 ≤ f.last + L; linarith

theorem slope_neg {f g : PL} (h : f.WF) (hg : f.neg = .ok g) {i : Int} {m : ℚ} (hm : g.gradient i = .ok m) : f.gradient i = .ok (-m) := by
  have hw : g.WF ∧ g.times = f.times := by
    unfold neg at hg
    obtain ⟨e, hw⟩ := new_eq_ok.mp hg
    exact ⟨hw, by rw [e]⟩
  obtain ⟨r1, r2⟩ := gradient_range hm
  rw [hw.2] at r2
  obtain ⟨m', hm'⟩ := gradient_ok h r1 r2
  rw [hm']
  -- compare both on two points of the piece
  have hp := h.pos
  obtain ⟨x, y, hxy, hx, hy⟩ : ∃ x y : ℚ, x < y ∧ f.InPiece i x ∧ f.InPiece i y := by
    by_cases c1 : i = -1
    · subst c1
      refine ⟨f.times[0] - 1, f.times[0], by linarith, ⟨fun j hj e => by omega, fun j hj e => ?_⟩, ⟨fun j hj e => by omega, fun j hj e => ?_⟩⟩
      · have : j = 0 := by omega
        subst this; linarith
      · have : j = 0 := by omega
        subst this; exact le_rfl
    · obtain ⟨k, rfl⟩ := Int.eq_ofNat_of_zero_le (show 0 ≤ i by omega)
      have hk : k < f.times.length := by omega
      by_cases c2 : k + 1 < f.times.length
      · exact ⟨f.times[k], f.times[k + 1], getElem_lt_of h.lt (by omega) c2, inPiece_time_left h k hk, by
          have := inPiece_time_right h (k + 1) c2
          have e : ((k + 1 : Nat) : Int) - 1 = (k : Int) := by omega
          rw [e] at this; exact this⟩
      · refine ⟨f.times[k], f.times[k] + 1, by linarith, inPiece_time_left h k hk, ⟨fun j hj e => ?_, fun j hj e => by omega⟩⟩
        have : j = k := by omega
        subst this; linarith
  have e1 := fn_piece h hm' hy hx
  have e2 := fn_piece hw.1 hm (show g.InPiece i y by unfold InPiece; simp only [hw.2]; exact hy) (show g.InPiece i x by unfold InPiece; simp only [hw.2]; exact hx)
  rw [neg_fn h hg, neg_fn h hg] at e2
  have : (m' + m) * (y - x) = 0 := by linarith
  rcases mul_eq_zero.mp this with h1 | h1
  · congr 1; linarith
  · linarith

/-- Slopes bound the change. -/
theorem lipschitz {f : PL} (h : f.WF) {L : ℚ} (hs : ∀ i m, f.gradient i = .ok m → |m| ≤ L) {x y : ℚ} (hxy : x ≤ y) : |f.fn y - f.fn x| ≤ L * (y - x) := by
  have h1 := lower_slope h (fun i m hm => by have := hs i m hm; rw [abs_le] at this; exact this.1) hxy
  obtain ⟨n, hn⟩ := neg_ok h
  have hnw : n.WF := by
    unfold neg at hn
    exact (new_eq_ok.mp hn.1).2
  have h2 := lower_slope hnw (L := L) (fun i m hm => by
    have := hs i _ (slope_neg h hn.1 hm)
    rw [abs_neg, abs_le] at this; exact this.1) hxy
  rw [neg_fn h hn.1, neg_fn h hn.1] at h2
  rw [abs_le]
  constructor <;> linarith

/-- There are finitely many slopes. -/
theorem slopes_exist (f : PL) (h : f.WF) : ∃ L, ∀ i m, f.gradient i = .ok m → |m| ≤ L := by
  have key : ∀ n : Nat, ∃ L, ∀ i m, i < (n : Int) - 1 → f.gradient i = .ok m → |m| ≤ L := by
    intro n
    induction n with
    | zero =>
      refine ⟨0, fun i m hi hgr => ?_⟩
      have := (gradient_range hgr).1
      omega
    | succ n ih =>
      obtain ⟨L, hL⟩ := ih
      by_cases hn : ∃ m0, f.gradient ((n : Int) - 1) = .ok m0
      · obtain ⟨m0, hm0⟩ := hn
        refine ⟨max L |m0|, fun i m hi hgr => ?_⟩
        by_cases e : i = (n : Int) - 1
        · subst e
          rw [hm0] at hgr; injection hgr with hgr; subst hgr
          exact le_max_right _ _
        · exact le_trans (hL i m (by push_cast at hi; omega) hgr) (le_max_left _ _)
      · refine ⟨L, fun i m hi hgr => ?_⟩
        by_cases e : i = (n : Int) - 1
        · subst e
          exact absurd ⟨m, hgr⟩ hn
        · exact hL i m (by push_cast at hi; omega) hgr
  obtain ⟨L, hL⟩ := key (f.times.length + 1)
  exact ⟨L, fun i m hgr => hL i m (by have := (gradient_range hgr).2; push_cast; omega) hgr⟩

/-! ### Interpolating through a thinned list of points -/

/-- `H` is affine from `p` to `q`. -/
def Aff (H : ℚ → ℚ) (p q : ℚ) : Prop := ∃ m, ∀ x, p ≤ x → x ≤ q → H x = H p + m * (x - p)

/-- `b` is the next kept point after `a`: up to `δ` behind `a`, `H` is affine until `b`. -/
def Link (H : ℚ → ℚ) (δ a b : ℚ) : Prop := a + eps < b ∧ ∃ q, a ≤ q ∧ q ≤ a + δ ∧ q ≤ b ∧ Aff H q b

/-- A function through the points of `H` at its times is close to `H`. -/
theorem thin_error {h : PL} (hw : h.WF) {H : ℚ → ℚ} {D : ℚ → Prop} {δ L : ℚ} (hδ : 0 ≤ δ) (hL : 0 ≤ L) (hvals : h.values = h.times.map H)
    (hdom : ∀ a b x, D a → D b → a ≤ x → x ≤ b → D x) (htd : ∀ t ∈ h.times, D t)
    (hlip : ∀ x y, D x → D y → x ≤ y → |H y - H x| ≤ L * (y - x)) (hlast : |h.last| ≤ L) (hlinks : h.times.IsChain (Link H δ))
    (hhead : ∀ x, D x → x ≤ h.times[0]'hw.pos → H x = H (h.times[0]'hw.pos) + h.first * (x - h.times[0]'hw.pos))
    {p : ℚ} (hp0 : D p) (hp1 : h.times.getLast hw.ne ≤ p) (hp2 : p ≤ h.times.getLast hw.ne + δ) (htail : ∀ x, D x → p ≤ x → H x = H p + h.last * (x - p))
    {x : ℚ} (hx : D x) : |h.fn x - H x| ≤ 2 * L * δ := by
  have hp := hw.pos
  have hvl := hw.len
  have hval : ∀ i (hi : i < h.times.length), h.values[i]'(by omega) = H h.times[i] := by
    intro i hi
    have : h.values[i]'(by omega) = (h.times.map H)[i]'(by simpa using hi) := by congr 1
    rw [this, List.getElem_map]
  have hfv : ∀ i (hi : i < h.times.length), h.fn h.times[i] = H h.times[i] := fun i hi => by rw [fn_time hw, hval i hi]
  have e0 : (0 : ℚ) ≤ 2 * L * δ := by positivity
  rcases le_or_gt x h.times[0] with c | c
  · rw [fn_left hw hp c, hval 0 hp, hhead x hx c]
    have : H h.times[0] + (x - h.times[0]) * h.first - (H h.times[0] + h.first * (x - h.times[0])) = 0 := by ring
    rw [this, abs_zero]; exact e0
  rcases le_or_gt (h.times.getLast hw.ne) x with c2 | c2
  · -- behind the last kept point
    have hl := htd _ (List.getLast_mem hw.ne)
    have hlv : h.values.getLast hw.vne = H (h.times.getLast hw.ne) := by
      rw [List.getLast_eq_getElem, List.getLast_eq_getElem, ← hval _ (by omega)]
      congr 1; omega
    rw [fn_right hw c2, hlv]
    generalize h.times.getLast hw.ne = l at *
    have b1 : |(min x p - l) * h.last| ≤ L * δ := by
      rw [abs_mul, mul_comm]
      have : |min x p - l| ≤ δ := by rw [abs_le]; rcases min_cases x p with ⟨e, _⟩ | ⟨e, _⟩ <;> rw [e] <;> constructor <;> linarith
      exact mul_le_mul hlast this (abs_nonneg _) hL
    have b2 : |H (min x p) - H l| ≤ L * δ := by
      have hm : l ≤ min x p := le_min c2 hp1
      have hd : D (min x p) := by rcases min_cases x p with ⟨e, _⟩ | ⟨e, _⟩ <;> rw [e] <;> assumption
      refine le_trans (hlip l _ hl hd hm) (mul_le_mul_of_nonneg_left ?_ hL)
      have := min_le_right x p; linarith
    have : H l + (x - l) * h.last - H x = (min x p - l) * h.last - (H (min x p) - H l) := by
      rcases le_total p x with c3 | c3
      · rw [min_eq_right c3, htail x hx c3]; ring
      · rw [min_eq_left c3]; ring
    rw [this]
    have := abs_sub ((min x p - l) * h.last) (H (min x p) - H l)
    linarith
  · -- between two kept points
    have key := fun i hi => lt_countP_le_iff hw.le x i hi
    have hc : h.times.countP (· ≤ x) ≤ h.times.length := List.countP_le_length
    have hlastx : h.times.getLast hw.ne = h.times[h.times.length - 1] := List.getLast_eq_getElem hw.ne
    generalize hcc : h.times.countP (· ≤ x) = cc at *
    have c0 : cc ≠ 0 := by have := (key 0 hp).mpr (le_of_lt c); omega
    have cl : cc ≠ h.times.length := by
      intro e
      rw [hlastx] at c2
      have := (key (h.times.length - 1) (by omega)).mp (by omega)
      linarith
    obtain ⟨i, rfl⟩ : ∃ i, cc = i + 1 := ⟨cc - 1, by omega⟩
    have hi : i + 1 < h.times.length := by omega
    have h1 : h.times[i] ≤ x := by rw [← key i (by omega)]; omega
    have h2 : x ≤ h.times[i + 1] := by apply le_of_lt; rw [← not_le, ← key (i + 1) hi]; omega
    obtain ⟨hab, q, q1, q2, q3, m, hm⟩ := (List.isChain_iff_getElem.mp hlinks) i hi
    have ha := htd _ (List.getElem_mem (show i < h.times.length by omega))
    have hb := htd _ (List.getElem_mem hi)
    have hfa : ∀ z, h.times[i] ≤ z → z ≤ h.times[i + 1] → h.fn z = H h.times[i] + (H h.times[i + 1] - H h.times[i]) / (h.times[i + 1] - h.times[i]) * (z - h.times[i]) := by
      intro z z1 z2
      rw [fn_mid hw i hi z1 z2, hval i (by omega), hval (i + 1) hi]; ring
    generalize h.times[i] = a at *
    generalize h.times[i + 1] = b at *
    have hab' : a < b := by have := eps_pos; linarith
    have hsl : |(H b - H a) / (b - a)| ≤ L := by
      rw [abs_div, abs_of_pos (show 0 < b - a by linarith), div_le_iff₀ (by linarith)]
      exact hlip a b ha hb (le_of_lt hab')
    generalize hσ : (H b - H a) / (b - a) = σ at *
    have hbσ : H b = H a + σ * (b - a) := by
      rw [← hσ]
      have : b - a ≠ 0 := by linarith
      field_simp
      ring
    have near : ∀ z, a ≤ z → z ≤ q → |h.fn z - H z| ≤ 2 * L * δ := by
      intro z z1 z2
      have hz := hdom a b z ha hb z1 (by linarith)
      rw [hfa z z1 (by linarith)]
      have b1 : |σ * (z - a)| ≤ L * δ := by
        rw [abs_mul]
        refine mul_le_mul hsl ?_ (abs_nonneg _) hL
        rw [abs_of_nonneg (by linarith)]; linarith
      have b2 : |H z - H a| ≤ L * δ := le_trans (hlip a z ha hz z1) (mul_le_mul_of_nonneg_left (by linarith) hL)
      have : H a + σ * (z - a) - H z = σ * (z - a) - (H z - H a) := by ring
      rw [this]
      have := abs_sub (σ * (z - a)) (H z - H a)
      linarith
    rcases le_total x q with c3 | c3
    · exact near x h1 c3
    · have nq := near q q1 le_rfl
      rcases eq_or_lt_of_le (show q ≤ b from q3) with c4 | c4
      · have : x = q := by linarith
        rw [this]; exact nq
      -- the error is affine on `[q, b]`, and zero at `b`
      have eb := hm b q3 le_rfl
      have ex := hm x c3 h2
      have e1 : h.fn x - H x = (h.fn q - H q) * ((b - x) / (b - q)) := by
        rw [hfa x h1 h2, hfa q q1 q3, ex]
        have hne : b - q ≠ 0 := by linarith
        have hm' : m = (H a + σ * (b - a) - H q) / (b - q) := by
          rw [← hbσ, eb]; field_simp; ring
        rw [hm']
        field_simp
        ring
      rw [e1, abs_mul]
      have : |(b - x) / (b - q)| ≤ 1 := by
        rw [abs_of_nonneg (div_nonneg (by linarith) (by linarith)), div_le_one (by linarith)]; linarith
      calc |h.fn q - H q| * |(b - x) / (b - q)| ≤ 2 * L * δ * 1 := mul_le_mul nq this (abs_nonneg _) e0
        _ = 2 * L * δ := by ring

/-! ### The loops of compose -/

/-- The composition. -/
def comp (g f : PL) (t : ℚ) : ℚ := g.fn (f.fn t)

/-- Where `compose` may put break points. -/
def Cand (g f : PL) (t : ℚ) : Prop :=
  t ∈ f.times ∨ f.lo = (t : WithBot ℚ) ∨ (f.inDom t ∧ f.fn t ∈ g.times ∧ ∀ s, f.inDom s → f.fn s = f.fn t → s = t)

/-- Break points within eps are within `δ`. -/
def Near (g f : PL) (δ : ℚ) : Prop := ∀ s t, Cand g f s → Cand g f t → s ≤ t → t ≤ s + eps → t ≤ s + δ

/-- All break points of `g` up to `ig` have been passed at `p`. -/
structure Pos (g f : PL) (p : ℚ) (ig : Nat) : Prop where
  dom : f.inDom p
  before : ∀ j (h : j < g.times.length), j < ig → g.times[j] ≤ f.fn p
  after : ∀ j (h : j < g.times.length), ig ≤ j → f.fn p ≤ g.times[j]

/-- What has been written when `p` has been reached. -/
structure Out (g f : PL) (δ first : ℚ) (ts vs : List ℚ) (p : ℚ) : Prop where
  ne : ts ≠ []
  vals : vs = ts.map (comp g f)
  dom : ∀ t ∈ ts, f.inDom t
  cand : ∀ t ∈ ts, Cand g f t
  links : ts.IsChain (Link (comp g f) δ)
  last1 : ts.getLast ne ≤ p
  last2 : p ≤ ts.getLast ne + δ
  head : ∀ t, ts.head? = some t → (∀ u ∈ f.times, t ≤ u) ∧ ∀ x, f.inDom x → x ≤ t → comp g f x = comp g f t + first * (x - t)

variable {g f : PL} {δ first : ℚ} {ts vs : List ℚ} {p s : ℚ} {ig : Nat}

theorem comp_aff (hg : g.WF) (hf : f.WF) (hm : f.MonoOn) (hp : f.inDom p) (hs : f.inDom s) (_hps : p ≤ s) (h1 : ∀ t ∈ f.times, ¬ (p < t ∧ t < s))
    (h2 : ∀ t ∈ g.times, ¬ (f.fn p < t ∧ t < f.fn s)) : Aff (comp g f) p s := by
  obtain ⟨m, hm1⟩ := fn_affine hf h1
  obtain ⟨n, hn⟩ := fn_affine hg h2
  refine ⟨n * m, fun x hx1 hx2 => ?_⟩
  have hx := inDom_between hp hs hx1 hx2
  unfold comp
  rw [hn _ (hm p x hp hx hx1) (hm x s hx hs hx2), hm1 x hx1 hx2]
  ring

theorem addPoint_next (hg : g.WF) (him : ∀ t, f.inDom t → g.inDom (f.fn t)) (hδ : Near g f δ) (ho : Out g f δ first ts vs p) (hs : f.inDom s) (hc : Cand g f s)
    (hps : p ≤ s) (haff : Aff (comp g f) p s) {x : ℚ} (hx : f.fn s = x) : ∃ ts' vs', addPoint g ts vs s x = .ok (ts', vs') ∧ Out g f δ first ts' vs' s := by
  unfold addPoint isLater
  rw [List.getLast?_eq_some_getLast ho.ne]
  simp only [decide_eq_true_eq]
  by_cases c : s > ts.getLast ho.ne + eps
  · rw [if_pos c, eval_eq hg (by rw [← hx]; exact him s hs), ok_bind]
    refine ⟨_, _, rfl, ?_⟩
    refine ⟨by simp, ?_, ?_, ?_, ?_, ?_, ?_, ?_⟩
    · rw [List.map_append, ← ho.vals, ← hx]; rfl
    · intro t ht
      rcases List.mem_append.mp ht with ht | ht
      · exact ho.dom t ht
      · rw [List.mem_singleton.mp ht]; exact hs
    · intro t ht
      rcases List.mem_append.mp ht with ht | ht
      · exact ho.cand t ht
      · rw [List.mem_singleton.mp ht]; exact hc
    · rw [List.isChain_append]
      refine ⟨ho.links, List.isChain_singleton _, ?_⟩
      intro a ha b hb
      rw [List.getLast?_eq_some_getLast ho.ne] at ha
      injection ha with ha
      injection hb with hb
      subst ha hb
      exact ⟨c, p, ho.last1, ho.last2, hps, haff⟩
    · rw [List.getLast_append_singleton]
    · have hd : ts.getLast ho.ne ≤ ts.getLast ho.ne + δ := le_trans ho.last1 ho.last2
      rw [List.getLast_append_singleton]; linarith
    · intro t ht
      refine ho.head t ?_
      rw [List.head?_append_of_ne_nil _ ho.ne] at ht
      exact ht
  · rw [if_neg c]
    refine ⟨_, _, rfl, ho.ne, ho.vals, ho.dom, ho.cand, ho.links, le_trans ho.last1 hps, ?_, ho.head⟩
    exact hδ _ _ (ho.cand _ (List.getLast_mem ho.ne)) hc (le_trans ho.last1 hps) (not_lt.mp c)

theorem addPoint_first (hg : g.WF) (him : ∀ t, f.inDom t → g.inDom (f.fn t)) (hδ : 0 ≤ δ) (hs : f.inDom s) (hs0 : ∀ u ∈ f.times, s ≤ u) (hc : Cand g f s)
    (hhead : ∀ x, f.inDom x → x ≤ s → comp g f x = comp g f s + first * (x - s)) {x : ℚ} (hx : f.fn s = x) :
    ∃ ts' vs', addPoint g [] [] s x = .ok (ts', vs') ∧ Out g f δ first ts' vs' s := by
  refine ⟨[s], [comp g f s], ?_, ?_⟩
  · unfold addPoint isLater
    simp only [List.getLast?_nil, if_pos]
    rw [eval_eq hg (by rw [← hx]; exact him s hs), ok_bind, ← hx]; rfl
  · refine ⟨by simp, rfl, by simpa using hs, by simpa using hc, List.isChain_singleton _, le_rfl, by simpa using hδ, ?_⟩
    intro t ht
    injection ht with ht
    subst ht
    exact ⟨hs0, hhead⟩

/-- What is needed to go on in piece `i` up to `bound`. -/
def CanInvert (g f : PL) (bound : EVal) (i : Int) (m : ℚ) (p : ℚ) (ig : Nat) : Prop :=
  ∀ q, p ≤ q → f.inDom q → f.InPiece i q → ∀ j (h : j < g.times.length), ig ≤ j → EVal.fin g.times[j] ≤ bound → f.fn q ≤ g.times[j] →
    (m = 0 → g.times[j] ≤ f.fn q) ∧
    (m ≠ 0 → ∃ s, f.inverse g.times[j] i = .ok s ∧ f.inDom s ∧ f.InPiece i s ∧ f.fn s = g.times[j] ∧ q ≤ s ∧ Cand g f s)

theorem noTimes_piece (hf : f.WF) {i : Int} (h1 : -1 ≤ i) (h2 : i < f.times.length) (hp : f.InPiece i p) (hs : f.InPiece i s) : ∀ t ∈ f.times, ¬ (p < t ∧ t < s) := by
  intro t ht ⟨c1, c2⟩
  obtain ⟨k, hk, rfl⟩ := List.mem_iff_getElem.mp ht
  by_cases hki : (k : Int) ≤ i
  · obtain ⟨n, hn⟩ := Int.eq_ofNat_of_zero_le (show 0 ≤ i by omega)
    have hnl : n < f.times.length := by omega
    have := hp.1 n hnl (by omega)
    have := getElem_le_of hf.lt (show k ≤ n by omega) hnl
    linarith
  · obtain ⟨n, hn⟩ := Int.eq_ofNat_of_zero_le (show 0 ≤ i + 1 by omega)
    have := hs.2 n (by omega) (by omega)
    have := getElem_le_of hf.lt (show n ≤ k by omega) hk
    linarith

theorem composeInner_ok (hg : g.WF) (hf : f.WF) (hm : f.MonoOn) (him : ∀ t, f.inDom t → g.inDom (f.fn t)) (hδ : Near g f δ) {lo bound : EVal}
    (hlo : ∀ t, f.inDom t → lo ≤ EVal.fin (f.fn t)) {i : Int} {m : ℚ} (hgr : f.gradient i = .ok m) :
    ∀ (rest : List ℚ) (ig : Nat) (ts vs : List ℚ) (p : ℚ), rest = g.times.drop ig → ig ≤ g.times.length → Out g f δ first ts vs p → Pos g f p ig → f.InPiece i p →
    CanInvert g f bound i m p ig →
    ∃ ig' ts' vs' p', composeInner g f lo bound i rest ig ts vs = .ok (ig', ts', vs') ∧ Out g f δ first ts' vs' p' ∧ Pos g f p' ig' ∧ f.InPiece i p' ∧ p ≤ p' ∧ ig ≤ ig' ∧
      ig' ≤ g.times.length ∧ ∀ j (h : j < g.times.length), ig' ≤ j → ¬ EVal.fin g.times[j] ≤ bound := by
  obtain ⟨hi1, hi2⟩ := gradient_range hgr
  intro rest
  induction rest with
  | nil =>
    intro ig ts vs p hr hig ho hp hpc hinv
    refine ⟨ig, ts, vs, p, rfl, ho, hp, hpc, le_rfl, le_rfl, hig, fun j hj h => ?_⟩
    have := congrArg List.length hr
    simp at this
    omega
  | cons t rest ih =>
    intro ig ts vs p hr hig ho hp hpc hinv
    have hlt : ig < g.times.length := by
      have := congrArg List.length hr
      simp at this
      omega
    rw [List.drop_eq_getElem_cons hlt] at hr
    injection hr with ht hr
    subst ht
    unfold composeInner
    by_cases c : EVal.fin g.times[ig] ≤ bound
    · rw [if_pos c]
      have hpt := hp.after ig hlt le_rfl
      obtain ⟨k1, k2⟩ := hinv p le_rfl hp.dom hpc ig hlt le_rfl c hpt
      have hmx : maxImage lo g.times[ig] = .ok g.times[ig] := by
        have h1 := le_trans (hlo p hp.dom) (fin_le.mpr hpt)
        match lo, h1 with
        | none, _ => rfl
        | some none, h1 => exact absurd h1 (not_top_le_fin _)
        | some (some a), h1 =>
          have : a ≤ g.times[ig] := fin_le.mp h1
          show Except.ok (max a g.times[ig]) = _
          rw [max_eq_right this]
      unfold composePoint
      rw [hmx, ok_bind, hgr, ok_bind]
      by_cases c0 : m = 0
      · rw [if_neg (by simpa using c0)]
        show ∃ ig' ts' vs' p', composeInner g f lo bound i rest (ig + 1) ts vs = .ok (ig', ts', vs') ∧ _
        have hle := k1 c0
        obtain ⟨ig', ts', vs', p', r1, r2, r3, r4, r5, r6, r7⟩ := ih (ig + 1) ts vs p hr hlt ho
          ⟨hp.dom, fun j hj h => by
            rcases Nat.lt_succ_iff_lt_or_eq.mp h with h | h
            · exact hp.before j hj h
            · subst h; exact hle, fun j hj h => hp.after j hj (by omega)⟩ hpc (fun q a1 a2 a3 j b1 b2 => hinv q a1 a2 a3 j b1 (by omega))
        exact ⟨ig', ts', vs', p', r1, r2, r3, r4, r5, by omega, r7⟩
      · rw [if_pos c0]
        obtain ⟨s, s1, s2, s3, s4, s5, s6⟩ := k2 c0
        rw [s1, ok_bind]
        have haff : Aff (comp g f) p s := by
          refine comp_aff hg hf hm hp.dom s2 s5 (noTimes_piece hf hi1 hi2 hpc s3) ?_
          intro t ht ⟨d1, d2⟩
          obtain ⟨j, hj, rfl⟩ := List.mem_iff_getElem.mp ht
          rcases Nat.lt_or_ge j ig with e | e
          · have := hp.before j hj e; linarith
          · have := getElem_le_of hg.lt e hj
            rw [s4] at d2; linarith
        obtain ⟨ts1, vs1, a1, a2⟩ := addPoint_next hg him hδ ho s2 s6 s5 haff s4
        rw [a1, ok_bind]
        show ∃ ig' ts' vs' p', composeInner g f lo bound i rest (ig + 1) ts1 vs1 = .ok (ig', ts', vs') ∧ _
        obtain ⟨ig', ts', vs', p', r1, r2, r3, r4, r5, r6, r7⟩ := ih (ig + 1) ts1 vs1 s hr hlt a2
          ⟨s2, fun j hj h => by rw [s4]; exact getElem_le_of hg.lt (by omega) hlt, fun j hj h => by rw [s4]; exact getElem_le_of hg.lt (by omega) hj⟩ s3
          (fun q d1 d2 d3 j b1 b2 => hinv q (le_trans s5 d1) d2 d3 j b1 (by omega))
        exact ⟨ig', ts', vs', p', r1, r2, r3, r4, le_trans s5 r5, by omega, r7⟩
    · rw [if_neg c]
      refine ⟨ig, ts, vs, p, rfl, ho, hp, hpc, le_rfl, le_rfl, hig, fun j hj h hc => c ?_⟩
      exact le_trans (fin_le.mpr (getElem_le_of hg.lt h hj)) hc

/-- A round of the `for` loop, once there are points. -/
theorem composeRound_ok (hg : g.WF) (hf : f.WF) (hm : f.MonoOn) (him : ∀ t, f.inDom t → g.inDom (f.fn t)) (hδ : Near g f δ) {lo : EVal}
    (hlo : ∀ t, f.inDom t → lo ≤ EVal.fin (f.fn t)) {i : Int} {m : ℚ} (hgr : f.gradient i = .ok m) {k : Nat} (hk : k < f.times.length) (hki : (k : Int) = i + 1)
    (hig : ig ≤ g.times.length) (ho : Out g f δ first ts vs p) (hp : Pos g f p ig) (hpc : f.InPiece i p)
    (hinv : CanInvert g f (EVal.fin (f.fn f.times[k])) i m p ig) :
    ∃ ig' ts1 vs1 ts' vs', composeInner g f lo (EVal.fin (f.fn f.times[k])) i (g.times.drop ig) ig ts vs = .ok (ig', ts1, vs1) ∧
      addPoint g ts1 vs1 f.times[k] (f.fn f.times[k]) = .ok (ts', vs') ∧ Out g f δ first ts' vs' f.times[k] ∧ Pos g f f.times[k] ig' ∧ ig ≤ ig' ∧ ig' ≤ g.times.length ∧
      ∀ j (h : j < g.times.length), ig' ≤ j → f.fn f.times[k] < g.times[j] := by
  obtain ⟨ig', ts1, vs1, p', r1, r2, r3, r4, r5, r6, r7, r8⟩ := composeInner_ok hg hf hm him hδ hlo hgr _ ig ts vs p rfl hig ho hp hpc hinv
  obtain ⟨hi1, hi2⟩ := gradient_range hgr
  have hkd := hf.dom _ (List.getElem_mem hk)
  have hpk : p' ≤ f.times[k] := r4.2 k hk (by omega)
  have hkp : f.InPiece i f.times[k] := by
    have := inPiece_time_right hf k hk
    have e : (k : Int) - 1 = i := by omega
    rw [e] at this; exact this
  have hafter : ∀ j (h : j < g.times.length), ig' ≤ j → f.fn f.times[k] < g.times[j] := by
    intro j hj h
    have := r8 j hj h
    rw [fin_le] at this; exact not_le.mp this
  have haff : Aff (comp g f) p' f.times[k] := by
    refine comp_aff hg hf hm r3.dom hkd hpk (noTimes_piece hf hi1 hi2 r4 hkp) ?_
    intro t ht ⟨d1, d2⟩
    obtain ⟨j, hj, rfl⟩ := List.mem_iff_getElem.mp ht
    rcases Nat.lt_or_ge j ig' with e | e
    · have := r3.before j hj e; linarith
    · have := hafter j hj e; linarith
  obtain ⟨ts', vs', a1, a2⟩ := addPoint_next hg him hδ r2 hkd (.inl (List.getElem_mem hk)) hpk haff rfl
  refine ⟨ig', ts1, vs1, ts', vs', r1, a1, a2, ⟨hkd, fun j hj h => le_trans (r3.before j hj h) (hm _ _ r3.dom hkd hpk), fun j hj h => le_of_lt (hafter j hj h)⟩, r6, r7, hafter⟩

/-! ### Inverting on a piece -/

theorem cand_piece (hf : f.WF) (hm : f.MonoOn) {i : Int} {m : ℚ} (hgr : f.gradient i = .ok m) (hm0 : 0 < m) (hs : f.inDom s) (hsp : f.InPiece i s)
    (hmem : f.fn s ∈ g.times) : Cand g f s := by
  by_cases hst : s ∈ f.times
  · exact .inl hst
  obtain ⟨hi1, hi2⟩ := gradient_range hgr
  refine .inr (.inr ⟨hs, hmem, fun u hu hus => ?_⟩)
  rcases lt_trichotomy u s with c | c | c
  · exfalso
    obtain ⟨a, a1, a2, a3⟩ : ∃ a, u ≤ a ∧ a < s ∧ f.InPiece i a := by
      by_cases hi0 : i = -1
      · exact ⟨u, le_rfl, c, fun j hj e => by omega, fun j hj e => le_trans (le_of_lt c) (hsp.2 j hj e)⟩
      · obtain ⟨n, rfl⟩ := Int.eq_ofNat_of_zero_le (show 0 ≤ i by omega)
        have hn : n < f.times.length := by omega
        have h1 := hsp.1 n hn rfl
        have h2 : f.times[n] < s := lt_of_le_of_ne h1 (fun e => hst (by rw [← e]; exact List.getElem_mem hn))
        refine ⟨max u f.times[n], le_max_left _ _, max_lt c h2, fun j hj e => ?_, fun j hj e => le_trans (le_of_lt (max_lt c h2)) (hsp.2 j hj e)⟩
        have : j = n := by omega
        subst this; exact le_max_right _ _
    have had := inDom_between hu hs a1 (le_of_lt a2)
    have h1 := fn_piece hf hgr hsp a3
    have h2 := hm u a hu had a1
    nlinarith
  · exact c
  · exfalso
    obtain ⟨b, b1, b2, b3⟩ : ∃ b, s < b ∧ b ≤ u ∧ f.InPiece i b := by
      obtain ⟨n, hn⟩ := Int.eq_ofNat_of_zero_le (show 0 ≤ i + 1 by omega)
      by_cases hnl : n < f.times.length
      · have h1 := hsp.2 n hnl (by omega)
        have h2 : s < f.times[n] := lt_of_le_of_ne h1 (fun e => hst (by rw [e]; exact List.getElem_mem hnl))
        refine ⟨min u f.times[n], lt_min c h2, min_le_left _ _, fun j hj e => le_trans (hsp.1 j hj e) (le_of_lt (lt_min c h2)), fun j hj e => ?_⟩
        have : j = n := by omega
        subst this; exact min_le_right _ _
      · exact ⟨u, c, le_rfl, fun j hj e => le_trans (hsp.1 j hj e) (le_of_lt c), fun j hj e => by omega⟩
    have hbd := inDom_between hs hu (le_of_lt b1) b2
    have h1 := fn_piece hf hgr b3 hsp
    have h2 := hm b u hbd hu b2
    nlinarith

theorem le_of_slope (hf : f.WF) {i : Int} {m : ℚ} (hgr : f.gradient i = .ok m) (hm0 : 0 < m) (hp : f.InPiece i p) (hs : f.InPiece i s) (h : f.fn p ≤ f.fn s) : p ≤ s := by
  have := fn_piece hf hgr hp hs
  by_contra hc
  have : 0 < m * (p - s) := mul_pos hm0 (by linarith)
  linarith

theorem first_neg (hf : f.WF) (hm : f.MonoOn) (h : f.first < 0) {q : ℚ} (hq : f.inDom q) : f.times[0]'hf.pos ≤ q := by
  by_contra hc
  have hp := hf.pos
  have h1 := hm _ _ hq (hf.dom _ (List.getElem_mem hp)) (le_of_lt (not_le.mp hc))
  rw [fn_left hf hp (le_of_lt (not_le.mp hc)), fn_time hf] at h1
  have : 0 < (q - f.times[0]) * f.first := mul_pos_of_neg_of_neg (by linarith) h
  linarith

theorem first_value (hf : f.WF) : f.fn (f.times[0]'hf.pos) = f.values[0]'(by rw [hf.len]; exact hf.pos) := fn_time hf 0 hf.pos

theorem canInvert_first (hf : f.WF) (hm : f.MonoOn) : CanInvert g f (EVal.fin (f.fn (f.times[0]'hf.pos))) (-1) f.first p ig := by
  have hpos := hf.pos
  have hvl := hf.len
  intro q hpq hq hqp j hj hig hb hqj
  rw [fin_le] at hb
  have hq0 := hqp.2 0 hpos (by omega)
  have h0p : f.InPiece (-1) f.times[0] := inPiece_time_right hf 0 hpos
  have e := fn_piece hf (gradient_first hf) hqp h0p
  refine ⟨fun h => ?_, fun h => ?_⟩
  · rw [h] at e; linarith
  · have hv := first_value hf
    rcases lt_or_gt_of_ne h with h | h
    · have hq0' : q = f.times[0] := le_antisymm hq0 (first_neg hf hm h hq)
      have hjv : g.times[j] = f.values[0] := by rw [← hv]; rw [hq0'] at hqj; linarith
      refine ⟨f.times[0], ?_, hf.dom _ (List.getElem_mem hpos), h0p, by rw [hv, hjv], hq0, .inl (List.getElem_mem hpos)⟩
      rw [inverse_first_ok hf (.inr ⟨h, by rw [hjv]⟩), hjv, sub_self, zero_div, add_zero]
    · have hi := inverse_first_ok hf (x := g.times[j]) (.inl ⟨h, by rw [← hv]; exact hb⟩)
      obtain ⟨_, i2, i3, _⟩ := inverse_first hf hi
      refine ⟨_, hi, ?_, ?_, i3, ?_, ?_⟩
      all_goals generalize f.times[0] + (g.times[j] - f.values[0]) / f.first = s at *
      all_goals have hsp : f.InPiece (-1) s := ⟨fun k hk e => by omega, fun k hk e => by
        have : k = 0 := by omega
        subst this; exact i2⟩
      all_goals have hqs : q ≤ s := le_of_slope hf (gradient_first hf) h hqp hsp (by rw [i3]; exact hqj)
      all_goals have hsd : f.inDom s := inDom_between hq (hf.dom _ (List.getElem_mem hpos)) hqs i2
      · exact hsd
      · exact hsp
      · exact hqs
      · exact cand_piece hf hm (gradient_first hf) h hsd hsp (by rw [i3]; exact List.getElem_mem hj)

theorem canInvert_mid (hf : f.WF) (hm : f.MonoOn) {k : Nat} (hk : k + 1 < f.times.length) {m : ℚ} (hgr : f.gradient (k : Int) = .ok m) :
    CanInvert g f (EVal.fin (f.fn f.times[k + 1])) k m p ig := by
  have hvl := hf.len
  intro q hpq hq hqp j hj hig hb hqj
  rw [fin_le] at hb
  have hq0 := hqp.1 k (by omega) rfl
  have hq1 := hqp.2 (k + 1) hk (by omega)
  have p0 := inPiece_time_left hf k (by omega)
  have p1 : f.InPiece k f.times[k + 1] := by
    have := inPiece_time_right hf (k + 1) hk
    have e : ((k + 1 : Nat) : Int) - 1 = (k : Int) := by omega
    rw [e] at this; exact this
  have d0 := hf.dom _ (List.getElem_mem (show k < f.times.length by omega))
  have d1 := hf.dom _ (List.getElem_mem hk)
  have hlt := getElem_lt_of hf.lt (show k < k + 1 by omega) hk
  refine ⟨fun h => ?_, fun h => ?_⟩
  · have e := fn_piece hf hgr hqp p1
    rw [h] at e; linarith
  · have e := fn_piece hf hgr p1 p0
    have hmon := hm _ _ d0 d1 (le_of_lt hlt)
    have hm0 : 0 < m := by
      rcases lt_or_gt_of_ne h with h | h
      · exfalso
        have : m * (f.times[k + 1] - f.times[k]) < 0 := mul_neg_of_neg_of_pos h (by linarith)
        linarith
      · exact h
    have : 0 < m * (f.times[k + 1] - f.times[k]) := mul_pos hm0 (by linarith)
    have e0 := fn_time hf k (by omega)
    have e1 := fn_time hf (k + 1) hk
    have hqk := hm _ _ d0 hq hq0
    obtain ⟨s, hs⟩ := inverse_mid_ok hf (x := g.times[j]) k hk (by rw [← e0, ← e1]; linarith) (by rw [← e0]; linarith) (by rw [← e1]; linarith)
    obtain ⟨s1, s2, s3, _⟩ := inverse_mid hf k hk hs
    have hsp : f.InPiece k s := ⟨fun n hn e => by
      have : n = k := by omega
      subst this; exact s1, fun n hn e => by
      have : n = k + 1 := by omega
      subst this; exact s2⟩
    have hsd := inDom_between d0 d1 s1 s2
    exact ⟨s, hs, hsd, hsp, s3, le_of_slope hf hgr hm0 hqp hsp (by rw [s3]; exact hqj), cand_piece hf hm hgr hm0 hsd hsp (by rw [s3]; exact List.getElem_mem hj)⟩

theorem last_value (hf : f.WF) : f.fn (f.times.getLast hf.ne) = f.values.getLast hf.vne := by rw [fn_right hf le_rfl]; ring

theorem canInvert_last (hf : f.WF) (hm : f.MonoOn) {top : EVal} (htop : f.evalHi = .ok top)
    (hstrict : ∀ j (h : j < g.times.length), ig ≤ j → f.fn (f.times.getLast hf.ne) < g.times[j]) :
    CanInvert g f top ((f.times.length : Int) - 1) f.last p ig := by
  have hpos := hf.pos
  have hvl := hf.len
  intro q hpq hq hqp j hj hig hb hqj
  have hst := hstrict j hj hig
  rw [last_value hf] at hst
  obtain ⟨top', t1, _, _, _, t4, _⟩ := evalHi_spec hf hm g.times[j]
  rw [htop] at t1
  injection t1 with t1
  subst t1
  obtain ⟨hl, hd⟩ := t4 hb hst
  refine ⟨fun h => absurd h (ne_of_gt hl), fun _ => ?_⟩
  have hv0 : f.values[0] ≤ f.values.getLast hf.vne := by
    have := hm _ _ (hf.dom _ (List.getElem_mem hpos)) (hf.dom _ (List.getLast_mem hf.ne)) (head_le hf.lt hpos (List.getLast_mem hf.ne))
    rwa [first_value hf, last_value hf] at this
  have hi := inverse_last_ok hf (x := g.times[j]) (.inl ⟨hl, by linarith⟩)
  refine ⟨_, hi, ?_⟩
  have hle : f.times.getLast hf.ne ≤ f.times.getLast hf.ne + (g.times[j] - f.values.getLast hf.vne) / f.last := by
    have := div_nonneg (show 0 ≤ g.times[j] - f.values.getLast hf.vne by linarith) (le_of_lt hl); linarith
  have hfs : f.fn (f.times.getLast hf.ne + (g.times[j] - f.values.getLast hf.vne) / f.last) = g.times[j] := by
    rw [fn_right hf hle]
    have := ne_of_gt hl
    field_simp
    ring
  generalize f.times.getLast hf.ne + (g.times[j] - f.values.getLast hf.vne) / f.last = s at *
  have hsp : f.InPiece ((f.times.length : Int) - 1) s := ⟨fun n hn e => by
    rw [← getLast_idx hf.ne n hn (by omega)]; exact hle, fun n hn e => by omega⟩
  have hsd := hd s hle (by rw [hfs])
  exact ⟨hsd, hsp, hfs, le_of_slope hf (gradient_last hf) hl hqp hsp (by rw [hfs]; exact hqj),
    cand_piece hf hm (gradient_last hf) hl hsd hsp (by rw [hfs]; exact List.getElem_mem hj)⟩

/-- The `for` loop from the second round on. -/
theorem composeFor_ok (hg : g.WF) (hf : f.WF) (hm : f.MonoOn) (him : ∀ t, f.inDom t → g.inDom (f.fn t)) (hδ : Near g f δ) {lo : EVal}
    (hlo : ∀ t, f.inDom t → lo ≤ EVal.fin (f.fn t)) : ∀ (n k ig : Nat) (ts vs : List ℚ) (hk : k < f.times.length), k + 1 + n = f.times.length → ig ≤ g.times.length →
    Out g f δ first ts vs f.times[k] → Pos g f f.times[k] ig → (∀ j (h : j < g.times.length), ig ≤ j → f.fn f.times[k] < g.times[j]) →
    ∃ ig' ts' vs', composeFor g f lo (f.times.drop (k + 1)) (f.values.drop (k + 1)) k ig ts vs = .ok (ig', ts', vs') ∧ Out g f δ first ts' vs' (f.times.getLast hf.ne) ∧
      Pos g f (f.times.getLast hf.ne) ig' ∧ ig' ≤ g.times.length ∧ ∀ j (h : j < g.times.length), ig' ≤ j → f.fn (f.times.getLast hf.ne) < g.times[j] := by
  have hvl := hf.len
  intro n
  induction n with
  | zero =>
    intro k ig ts vs hk hn hig ho hp hst
    rw [getLast_idx hf.ne k hk (by omega)]
    refine ⟨ig, ts, vs, ?_, ho, hp, hig, hst⟩
    rw [List.drop_eq_nil_of_le (by omega)]
    rfl
  | succ n ih =>
    intro k ig ts vs hk hn hig ho hp hst
    have hk1 : k + 1 < f.times.length := by omega
    rw [List.drop_eq_getElem_cons hk1, List.drop_eq_getElem_cons (show k + 1 < f.values.length by omega)]
    unfold composeFor
    obtain ⟨m, hgr⟩ := gradient_ok hf (r := (k : Int)) (by omega) (by omega)
    obtain ⟨ig', ts1, vs1, ts', vs', r1, r2, r3, r4, r5, r6, r7⟩ := composeRound_ok hg hf hm him hδ hlo hgr hk1 (by omega) hig ho hp (inPiece_time_left hf k hk) (canInvert_mid hf hm hk1 hgr)
    rw [← fn_time hf (k + 1) hk1, r1, ok_bind]
    simp only
    rw [r2, ok_bind]
    simp only
    obtain ⟨ig2, ts2, vs2, q1, q2⟩ := ih (k + 1) ig' ts' vs' hk1 (by omega) r6 r3 r4 r7
    exact ⟨ig2, ts2, vs2, q1, q2⟩

/-! ### The beginning -/

theorem evalLo_img (hf : f.WF) (hm : f.MonoOn) : ∃ lo, f.evalLo = .ok lo ∧ (∀ t, f.inDom t → lo ≤ EVal.fin (f.fn t)) ∧
    (∀ a : ℚ, f.lo = a → f.inDom a ∧ lo = EVal.fin (f.fn a)) ∧ (f.lo = ⊥ → 0 ≤ f.first ∧ (f.first ≠ 0 → lo = ⊥)) := by
  have hpos := hf.pos
  have hd0 := hf.dom _ (List.getElem_mem hpos)
  cases e : f.lo with
  | bot =>
    have hb : ∀ x, x ≤ f.times[0] → f.inDom x := fun x hx => ⟨by rw [e]; exact bot_le, le_trans (WithTop.coe_le_coe.mpr hx) hd0.2⟩
    have h0 : 0 ≤ f.first := by
      by_contra hc
      have := first_neg hf hm (not_le.mp hc) (hb (f.times[0] - 1) (by linarith))
      linarith
    refine ⟨_, evalLo_bot hf e, ?_, (by intro a ha; exact absurd ha (by simp)), fun _ => ⟨h0, fun hne => ?_⟩⟩
    · intro t ht
      by_cases c : f.first = 0
      · rw [if_pos c, fin_le, ← first_value hf]
        rcases le_total t f.times[0] with c2 | c2
        · rw [fn_left hf hpos c2, first_value hf, c]; linarith
        · exact hm _ _ hd0 ht c2
      · rw [if_neg c, if_pos (lt_of_le_of_ne h0 (Ne.symm c))]; exact bot_le
    · rw [if_neg hne, if_pos (lt_of_le_of_ne h0 (Ne.symm hne))]
  | coe a =>
    have had : f.inDom a := by
      refine ⟨by rw [e], le_trans (WithTop.coe_le_coe.mpr ?_) hd0.2⟩
      have := hd0.1; rw [e] at this; exact WithBot.coe_le_coe.mp this
    refine ⟨_, evalLo_coe hf e had, ?_, fun b hb => ?_, fun h => by cases h⟩
    · intro t ht
      rw [fin_le]
      refine hm _ _ had ht ?_
      have := ht.1; rw [e] at this; exact WithBot.coe_le_coe.mp this
    · have : a = b := WithBot.coe_injective hb
      subst this; exact ⟨had, rfl⟩

theorem maxImage_ok {lo : EVal} {x : ℚ} (h : lo ≤ EVal.fin x) (t : ℚ) : ∃ y, maxImage lo t = .ok y := by
  match lo, h with
  | none, _ => exact ⟨_, rfl⟩
  | some none, h => exact absurd h (not_top_le_fin _)
  | some (some a), _ => exact ⟨_, rfl⟩

theorem composeInner_flat (hg : g.WF) {lo : EVal} {x : ℚ} (hlo : lo ≤ EVal.fin x) {i : Int} (hgr : f.gradient i = .ok 0) {b : ℚ} :
    ∀ (rest : List ℚ) (ig : Nat), rest = g.times.drop ig → ig ≤ g.times.length → (∀ j (h : j < g.times.length), j < ig → g.times[j] ≤ b) →
    ∃ ig', composeInner g f lo (EVal.fin b) i rest ig ts vs = .ok (ig', ts, vs) ∧ ig' ≤ g.times.length ∧ (∀ j (h : j < g.times.length), j < ig' → g.times[j] ≤ b) ∧
      ∀ j (h : j < g.times.length), ig' ≤ j → b < g.times[j] := by
  intro rest
  induction rest with
  | nil =>
    intro ig hr hig hb
    refine ⟨ig, rfl, hig, hb, fun j hj h => ?_⟩
    have := congrArg List.length hr
    simp at this
    omega
  | cons t rest ih =>
    intro ig hr hig hb
    have hlt : ig < g.times.length := by
      have := congrArg List.length hr
      simp at this
      omega
    rw [List.drop_eq_getElem_cons hlt] at hr
    injection hr with ht hr
    subst ht
    unfold composeInner
    by_cases c : g.times[ig] ≤ b
    · rw [if_pos (fin_le.mpr c)]
      obtain ⟨y, hy⟩ := maxImage_ok hlo g.times[ig]
      unfold composePoint
      rw [hy, ok_bind, hgr, ok_bind, if_neg (by simp), py_pure, ok_bind]
      exact ih (ig + 1) hr hlt (fun j hj h => by
        rcases Nat.lt_succ_iff_lt_or_eq.mp h with h | h
        · exact hb j hj h
        · subst h; exact c)
    · rw [if_neg (by rw [fin_le]; exact c)]
      exact ⟨ig, rfl, hig, hb, fun j hj h => lt_of_lt_of_le (not_le.mp c) (getElem_le_of hg.lt h hj)⟩

/-- The first round of the `for` loop. -/
theorem composeStart_ok (hg : g.WF) (hf : f.WF) (hm : f.MonoOn) (him : ∀ t, f.inDom t → g.inDom (f.fn t)) (hδ0 : 0 ≤ δ) (hδ : Near g f δ) {lo : EVal}
    (hev : f.evalLo = .ok lo) {c : Nat} (hc1 : ∀ j (h : j < g.times.length), j < c → EVal.fin g.times[j] < lo)
    (hc2 : ∀ j (h : j < g.times.length), c ≤ j → lo ≤ EVal.fin g.times[j]) (hcl : c ≤ g.times.length) {gm : ℚ} (hgm : g.gradient ((c : Int) - 1) = .ok gm) :
    ∃ ig' ts1 vs1 ts' vs', composeInner g f lo (EVal.fin (f.fn (f.times[0]'hf.pos))) (-1) (g.times.drop (c - 1)) (c - 1) [] [] = .ok (ig', ts1, vs1) ∧
      addPoint g ts1 vs1 (f.times[0]'hf.pos) (f.fn (f.times[0]'hf.pos)) = .ok (ts', vs') ∧ Out g f δ (gm * f.first) ts' vs' (f.times[0]'hf.pos) ∧
      Pos g f (f.times[0]'hf.pos) ig' ∧ ig' ≤ g.times.length ∧ ∀ j (h : j < g.times.length), ig' ≤ j → f.fn (f.times[0]'hf.pos) < g.times[j] := by
  have hpos := hf.pos
  have hgpos := hg.pos
  have hd0 := hf.dom _ (List.getElem_mem hpos)
  obtain ⟨lo', hlo', hlo1, hlo2, hlo3⟩ := evalLo_img hf hm
  rw [hev] at hlo'
  injection hlo' with hlo'
  subst hlo'
  have h0p : f.InPiece (-1) f.times[0] := inPiece_time_right hf 0 hpos
  have pm : ∀ x, x ≤ f.times[0] → f.InPiece (-1) x := fun x hx => ⟨fun k hk e => by omega, fun k hk e => by
    have : k = 0 := by omega
    subst this; exact hx⟩
  -- the slope before the first point
  have head : ∀ s, f.inDom s → s ≤ f.times[0] → (∀ j (h : j < g.times.length), c ≤ j → f.fn s ≤ g.times[j]) → ∀ x, f.inDom x → x ≤ s →
      comp g f x = comp g f s + gm * f.first * (x - s) := by
    intro s hs hs0 hsj x hx hxs
    have e1 := fn_piece hf (gradient_first hf) (pm x (by linarith)) (pm s hs0)
    have hxs' := hm x s hx hs hxs
    have hp1 : ∀ z, f.inDom z → z ≤ s → g.InPiece ((c : Int) - 1) (f.fn z) := by
      intro z hz hzs
      refine ⟨fun j hj e => ?_, fun j hj e => ?_⟩
      · exact le_of_lt (fin_lt.mp (lt_of_lt_of_le (hc1 j hj (by omega)) (hlo1 z hz)))
      · exact le_trans (hm z s hz hs hzs) (hsj j hj (by omega))
    have e2 := fn_piece hg hgm (hp1 x hx hxs) (hp1 s hs le_rfl)
    unfold comp
    rw [e2, e1]; ring
  -- when the first `while` step finds a point
  have found : ∀ s, (hlt : c - 1 < g.times.length) → EVal.fin (g.times[c - 1]) ≤ EVal.fin (f.fn f.times[0]) →
      composePoint g f lo (-1) g.times[c - 1] [] [] = addPoint g [] [] s (f.fn s) → f.inDom s → s ≤ f.times[0] → Cand g f s →
      (∀ x, f.inDom x → x ≤ s → comp g f x = comp g f s + gm * f.first * (x - s)) → Pos g f s (c - 1 + 1) →
      ∃ ig' ts1 vs1 ts' vs', composeInner g f lo (EVal.fin (f.fn f.times[0])) (-1) (g.times.drop (c - 1)) (c - 1) [] [] = .ok (ig', ts1, vs1) ∧
        addPoint g ts1 vs1 f.times[0] (f.fn f.times[0]) = .ok (ts', vs') ∧ Out g f δ (gm * f.first) ts' vs' f.times[0] ∧
        Pos g f f.times[0] ig' ∧ ig' ≤ g.times.length ∧ ∀ j (h : j < g.times.length), ig' ≤ j → f.fn f.times[0] < g.times[j] := by
    intro s hlt hb hcp hs hs0 hca hhead hps
    obtain ⟨ts0, vs0, a1, a2⟩ := addPoint_first hg him hδ0 hs (fun u hu => le_trans hs0 (head_le hf.lt hpos hu)) hca hhead rfl
    obtain ⟨ig', ts1, vs1, ts', vs', r1, r2, r3, r4, r5, r6, r7⟩ := composeRound_ok hg hf hm him hδ hlo1 (gradient_first hf) hpos (by omega) (show c - 1 + 1 ≤ g.times.length by omega) a2 hps (pm s hs0)
      (canInvert_first hf hm)
    refine ⟨ig', ts1, vs1, ts', vs', ?_, r2, r3, r4, r6, r7⟩
    rw [List.drop_eq_getElem_cons hlt]
    unfold composeInner
    rw [if_pos hb, hcp, a1, ok_bind]
    exact r1
  by_cases hfirst : f.first = 0
  · -- flat beginning
    have hgr : f.gradient (-1) = .ok 0 := by rw [gradient_first hf, hfirst]
    obtain ⟨ig', r1, r2, r3, r4⟩ := composeInner_flat (ts := []) (vs := []) hg (hlo1 _ hd0) hgr (b := f.fn f.times[0]) _ (c - 1) rfl (by omega)
      (fun j hj h => le_of_lt (fin_lt.mp (lt_of_lt_of_le (hc1 j hj (by omega)) (hlo1 _ hd0))))
    obtain ⟨ts', vs', a1, a2⟩ := addPoint_first (first := gm * f.first) hg him hδ0 hd0 (fun u hu => head_le hf.lt hpos hu) (.inl (List.getElem_mem hpos)) (by
      intro x hx hx0
      have e1 := fn_piece hf hgr (pm x hx0) h0p
      unfold comp
      rw [e1, hfirst]
      have : f.fn f.times[0] + (0 : ℚ) * (x - f.times[0]) = f.fn f.times[0] := by ring
      rw [this]; ring) rfl
    exact ⟨ig', [], [], ts', vs', r1, a1, a2, ⟨hd0, r3, fun j hj h => le_of_lt (r4 j hj h)⟩, r2, r4⟩
  · rcases Nat.eq_zero_or_pos c with hc0 | hc0
    · -- all break points of `g` are to come
      subst hc0
      by_cases hb : EVal.fin (g.times[0]'hgpos) ≤ EVal.fin (f.fn f.times[0])
      · have hb' := fin_le.mp hb
        have hl0 := hc2 0 hgpos le_rfl
        have hmx : maxImage lo g.times[0] = .ok g.times[0] := by
          revert hl0
          generalize lo = l
          intro h1
          match l, h1 with
          | none, _ => rfl
          | some none, h1 => exact absurd h1 (not_top_le_fin _)
          | some (some a), h1 =>
            have : a ≤ g.times[0] := fin_le.mp h1
            show Except.ok (max a g.times[0]) = _
            rw [max_eq_right this]
        have hv := first_value hf
        have hcp : ∀ s, f.inverse g.times[0] (-1) = .ok s → f.fn s = g.times[0] → composePoint g f lo (-1) g.times[0] [] [] = addPoint g [] [] s (f.fn s) := by
          intro s hs1 hs2
          unfold composePoint
          rw [hmx, ok_bind, gradient_first hf, ok_bind, if_pos hfirst, hs1, ok_bind, hs2]
        have fin' : ∀ s, f.inverse g.times[0] (-1) = .ok s → f.fn s = g.times[0] → f.inDom s → s ≤ f.times[0] → Cand g f s →
            ∃ ig' ts1 vs1 ts' vs', composeInner g f lo (EVal.fin (f.fn f.times[0])) (-1) (g.times.drop (0 - 1)) (0 - 1) [] [] = .ok (ig', ts1, vs1) ∧
        addPoint g ts1 vs1 f.times[0] (f.fn f.times[0]) = .ok (ts', vs') ∧ Out g f δ (gm * f.first) ts' vs' f.times[0] ∧
        Pos g f f.times[0] ig' ∧ ig' ≤ g.times.length ∧ ∀ j (h : j < g.times.length), ig' ≤ j → f.fn f.times[0] < g.times[j] := by
          intro s s1 s2 s3 s4 s5
          have hsj : ∀ j (h : j < g.times.length), 0 ≤ j → f.fn s ≤ g.times[j] := fun j hj _ => by rw [s2]; exact getElem_le_of hg.lt (by omega) hj
          refine found s hgpos hb (hcp s s1 s2) s3 s4 s5 (head s s3 s4 hsj) ⟨s3, fun j hj h => ?_, fun j hj _ => hsj j hj (by omega)⟩
          have : j = 0 := by omega
          subst this; rw [s2]
        rcases lt_or_gt_of_ne hfirst with h | h
        · -- the function starts at its first break point
          have hlob : f.lo = ((f.times[0] : ℚ) : WithBot ℚ) := by
            cases e : f.lo with
            | bot => have := (hlo3 e).1; linarith
            | coe a =>
              have ha := (hlo2 a e).1
              have h1 := first_neg hf hm h ha
              have h2 := hd0.1
              rw [e] at h2
              have h2' := WithBot.coe_le_coe.mp h2
              have : a = f.times[0] := by linarith
              rw [this]
          have hge : f.fn f.times[0] ≤ g.times[0] := by
            have := hl0
            rw [(hlo2 _ hlob).2, fin_le] at this; exact this
          have hjv : g.times[0] = f.values[0]'(by rw [hf.len]; exact hpos) := by rw [← hv]; linarith
          refine fin' f.times[0] ?_ (by linarith) hd0 le_rfl (.inl (List.getElem_mem hpos))
          rw [inverse_first_ok hf (.inr ⟨h, by rw [hjv]⟩), hjv, sub_self, zero_div, add_zero]
        · have hi := inverse_first_ok hf (x := g.times[0]) (.inl ⟨h, by rw [← hv]; exact hb'⟩)
          obtain ⟨_, i2, i3, _⟩ := inverse_first hf hi
          have hsd : f.inDom (f.times[0] + (g.times[0] - f.values[0]'(by rw [hf.len]; exact hpos)) / f.first) := by
            refine ⟨?_, le_trans (WithTop.coe_le_coe.mpr i2) hd0.2⟩
            cases e : f.lo with
            | bot => exact bot_le
            | coe a =>
              obtain ⟨ha1, ha2⟩ := hlo2 a e
              rw [ha2, fin_le] at hl0
              refine WithBot.coe_le_coe.mpr (le_of_slope hf (gradient_first hf) h (pm a ?_) (pm _ i2) (by rw [i3]; exact hl0))
              have h2 := hd0.1
              rw [e] at h2
              exact WithBot.coe_le_coe.mp h2
          exact fin' _ hi i3 hsd i2 (cand_piece hf hm (gradient_first hf) h hsd (pm _ i2) (by rw [i3]; exact List.getElem_mem hgpos))
      · -- none before the first break point of `f`
        have hb' : f.fn f.times[0] < g.times[0] := by rw [fin_le] at hb; exact not_le.mp hb
        have hall : ∀ j (h : j < g.times.length), f.fn f.times[0] < g.times[j] := fun j hj => lt_of_lt_of_le hb' (getElem_le_of hg.lt (by omega) hj)
        obtain ⟨ts', vs', a1, a2⟩ := addPoint_first (first := gm * f.first) hg him hδ0 hd0 (fun u hu => head_le hf.lt hpos hu) (.inl (List.getElem_mem hpos))
          (head _ hd0 le_rfl (fun j hj _ => le_of_lt (hall j hj))) rfl
        refine ⟨0, [], [], ts', vs', ?_, a1, a2, ⟨hd0, fun j hj h => by omega, fun j hj h => le_of_lt (hall j hj)⟩, by omega, fun j hj _ => hall j hj⟩
        show composeInner g f lo _ (-1) (g.times.drop 0) 0 [] [] = _
        rw [List.drop_eq_getElem_cons hgpos]
        unfold composeInner
        rw [if_neg hb]
    · -- `f` starts inside a piece of `g`
      have hlt : c - 1 < g.times.length := by omega
      have hbl := hc1 (c - 1) hlt (by omega)
      cases e : f.lo with
      | bot =>
        rw [(hlo3 e).2 hfirst] at hbl
        exact absurd hbl not_lt_bot
      | coe a =>
        obtain ⟨ha1, ha2⟩ := hlo2 a e
        have ha0 : a ≤ f.times[0] := by
          have h2 := hd0.1
          rw [e] at h2
          exact WithBot.coe_le_coe.mp h2
        have hmin : ∀ x, f.inDom x → a ≤ x := by
          intro x hx
          have := hx.1
          rw [e] at this; exact WithBot.coe_le_coe.mp this
        rw [ha2, fin_lt] at hbl
        have hv := first_value hf
        have hfa := hm a _ ha1 hd0 ha0
        have hinv : f.inverse (f.fn a) (-1) = .ok a := by
          have e1 := fn_piece hf (gradient_first hf) (pm a ha0) h0p
          have hdiv : f.times[0] + (f.fn a - f.values[0]'(by rw [hf.len]; exact hpos)) / f.first = a := by
            rw [← hv, e1]; field_simp; ring
          rcases lt_or_gt_of_ne hfirst with h | h
          · have : a = f.times[0] := le_antisymm ha0 (first_neg hf hm h ha1)
            rw [inverse_first_ok hf (.inr ⟨h, by rw [← hv, this]⟩), hdiv]
          · rw [inverse_first_ok hf (.inl ⟨h, by rw [← hv]; exact hfa⟩), hdiv]
        refine found a hlt (fin_le.mpr (by linarith)) ?_ ha1 ha0 (.inr (.inl e)) ?_ ⟨ha1, fun j hj h => ?_, fun j hj h => ?_⟩
        · unfold composePoint
          have hmx : maxImage lo g.times[c - 1] = .ok (f.fn a) := by
            rw [ha2]
            show Except.ok (max (f.fn a) g.times[c - 1]) = _
            rw [max_eq_left (le_of_lt hbl)]
          rw [hmx, ok_bind, gradient_first hf, ok_bind, if_pos hfirst, hinv, ok_bind]
        · intro x hx hxa
          have : x = a := le_antisymm hxa (hmin x hx)
          subst this; ring
        · have := hc1 j hj (by omega)
          rw [ha2, fin_lt] at this; exact le_of_lt this
        · have := hc2 j hj (by omega)
          rw [ha2, fin_le] at this; exact this

/-! ### compose -/

theorem startsBelow_ok (hf : f.WF) (hm : f.MonoOn) (him : ∀ t, f.inDom t → g.inDom (f.fn t)) {lo : EVal} (hev : f.evalLo = .ok lo) : startsBelow g.lo lo = true := by
  have hpos := hf.pos
  have hd0 := hf.dom _ (List.getElem_mem hpos)
  obtain ⟨lo', h0, _, h2, h3⟩ := evalLo_img hf hm
  rw [hev] at h0
  injection h0 with h0
  subst h0
  cases eg : g.lo with
  | bot => rfl
  | coe b =>
    cases e : f.lo with
    | coe a =>
      obtain ⟨ha, rfl⟩ := h2 a e
      have := (him a ha).1
      rw [eg] at this
      have := WithBot.coe_le_coe.mp this
      show decide (b ≤ f.fn a + eps) = true
      have := eps_pos
      simp; linarith
    | bot =>
      have hb : ∀ x, x ≤ f.times[0] → f.inDom x := fun x hx => ⟨by rw [e]; exact bot_le, le_trans (WithTop.coe_le_coe.mpr hx) hd0.2⟩
      by_cases c : f.first = 0
      · rw [evalLo_bot hf e, if_pos c] at hev
        injection hev with hev
        rw [← hev, ← first_value hf]
        have := (him _ hd0).1
        rw [eg] at this
        have := WithBot.coe_le_coe.mp this
        show decide (b ≤ f.fn f.times[0] + eps) = true
        have := eps_pos
        simp; linarith
      · exfalso
        have hpos' : 0 < f.first := lt_of_le_of_ne (h3 e).1 (Ne.symm c)
        -- a point with a value below `b`
        have hx := him (f.times[0] - (|f.fn f.times[0] - b| + 1) / f.first) (hb _ (by
          have : 0 ≤ (|f.fn f.times[0] - b| + 1) / f.first := div_nonneg (by positivity) (le_of_lt hpos')
          linarith))
        have := hx.1
        rw [eg] at this
        have := WithBot.coe_le_coe.mp this
        rw [fn_left hf hpos (by
          have : 0 ≤ (|f.fn f.times[0] - b| + 1) / f.first := div_nonneg (by positivity) (le_of_lt hpos')
          linarith), ← first_value hf] at this
        have e2 : (f.times[0] - (|f.fn f.times[0] - b| + (1 : ℚ)) / f.first - f.times[0]) * f.first = -(|f.fn f.times[0] - b| + 1) := by
          field_simp; ring
        rw [e2] at this
        have := le_abs_self (f.fn f.times[0] - b)
        linarith

theorem endsAbove_ok (hf : f.WF) (hm : f.MonoOn) (him : ∀ t, f.inDom t → g.inDom (f.fn t)) {hi : EVal} (hev : f.evalHi = .ok hi) : endsAbove g.hi hi = true := by
  have hd0 := hf.dom _ (List.getLast_mem hf.ne)
  cases eg : g.hi with
  | top => rfl
  | coe b =>
    cases e : f.hi with
    | coe a =>
      have ha : f.inDom a := by
        refine ⟨le_trans hd0.1 (WithBot.coe_le_coe.mpr ?_), by rw [e]⟩
        have := hd0.2; rw [e] at this; exact WithTop.coe_le_coe.mp this
      rw [evalHi_coe hf e ha] at hev
      injection hev with hev
      rw [← hev]
      have := (him a ha).2
      rw [eg] at this
      have := WithTop.coe_le_coe.mp this
      show decide (b ≥ f.fn a - eps) = true
      have := eps_pos
      simp; linarith
    | top =>
      have hb : ∀ x, f.times.getLast hf.ne ≤ x → f.inDom x := fun x hx => ⟨le_trans hd0.1 (WithBot.coe_le_coe.mpr hx), by rw [e]; exact le_top⟩
      rw [evalHi_top hf e] at hev
      injection hev with hev
      by_cases c : f.last = 0
      · rw [if_pos c] at hev
        rw [← hev, ← last_value hf]
        have := (him _ hd0).2
        rw [eg] at this
        have := WithTop.coe_le_coe.mp this
        show decide (b ≥ f.fn (f.times.getLast hf.ne) - eps) = true
        have := eps_pos
        simp; linarith
      · rw [if_neg c] at hev
        by_cases c2 : f.last > 0
        · exfalso
          have hx0 : 0 ≤ (|b - f.fn (f.times.getLast hf.ne)| + 1) / f.last := div_nonneg (by positivity) (le_of_lt c2)
          have hx := him (f.times.getLast hf.ne + (|b - f.fn (f.times.getLast hf.ne)| + 1) / f.last) (hb _ (by linarith))
          have := hx.2
          rw [eg] at this
          have := WithTop.coe_le_coe.mp this
          rw [fn_right hf (by linarith), ← last_value hf] at this
          have e2 : (f.times.getLast hf.ne + (|b - f.fn (f.times.getLast hf.ne)| + 1) / f.last - f.times.getLast hf.ne) * f.last = |b - f.fn (f.times.getLast hf.ne)| + 1 := by
            field_simp; ring
          rw [e2] at this
          have := le_abs_self (b - f.fn (f.times.getLast hf.ne))
          linarith
        · rw [if_neg c2] at hev
          rw [← hev]; rfl

/-- `compose`. -/
theorem compose_full (hg : g.WF) (hf : f.WF) (hm : f.MonoOn) (him : ∀ t, f.inDom t → g.inDom (f.fn t)) (harr : ∀ a : ℚ, f.lo = a → a ≤ f.fn a) (hδ0 : 0 ≤ δ) (hδ : Near g f δ)
    {Lf Lg : ℚ} (hLf : ∀ i m, f.gradient i = .ok m → |m| ≤ Lf) (hLg : ∀ i m, g.gradient i = .ok m → |m| ≤ Lg) :
    ∃ h, g.compose f = .ok h ∧ h.WF ∧ h.lo = f.lo ∧ h.hi = f.hi ∧ (∀ t ∈ h.times, h.fn t = comp g f t) ∧ (∀ t, f.inDom t → |h.fn t - comp g f t| ≤ 2 * (Lg * Lf) * δ) ∧
      (∀ t ∈ h.times, Cand g f t) ∧ (∃ i m, g.gradient i = .ok m ∧ h.first = m * f.first) ∧ ∀ t, h.times.head? = some t → ∀ u ∈ f.times, t ≤ u := by
  have hpos := hf.pos
  have hgpos := hg.pos
  have hvl := hf.len
  obtain ⟨lo, hev, hlo1, hlo2, hlo3⟩ := evalLo_img hf hm
  obtain ⟨hi, hevh, _⟩ := evalHi_spec hf hm 0
  have hvals := MonoOn.values hf hm
  -- the position of the smallest value in `g.times`
  have hsorted : (g.times.map EVal.fin).Pairwise (· ≤ ·) := by
    rw [List.pairwise_map]
    exact hg.le.imp (fun h => fin_le.mpr h)
  have hrank := elemRank_eq hsorted (by simpa using hg.ne) lo
  have hkey := fun j hj => lt_countP_lt_iff hsorted lo j hj
  have hcl : (g.times.map EVal.fin).countP (· < lo) ≤ g.times.length := by
    have := List.countP_le_length (p := fun x => decide (x < lo)) (l := g.times.map EVal.fin)
    simpa using this
  generalize (g.times.map EVal.fin).countP (· < lo) = c at *
  have hc1 : ∀ j (h : j < g.times.length), j < c → EVal.fin g.times[j] < lo := by
    intro j hj h
    have := (hkey j (by simpa using hj)).mp h
    simpa using this
  have hc2 : ∀ j (h : j < g.times.length), c ≤ j → lo ≤ EVal.fin g.times[j] := by
    intro j hj h
    have : ¬ j < c := by omega
    rw [hkey j (by simpa using hj)] at this
    simpa using this
  obtain ⟨gm, hgm⟩ := gradient_ok hg (r := (c : Int) - 1) (by omega) (by omega)
  -- the first round
  obtain ⟨ig0, ts0, vs0, ts1, vs1, q1, q2, q3, q4, q5, q6⟩ := composeStart_ok hg hf hm him hδ0 hδ hev hc1 hc2 hcl hgm
  -- the other rounds
  obtain ⟨ig1, ts2, vs2, u1, u2, u3, u4, u5⟩ := composeFor_ok hg hf hm him hδ hlo1 (f.times.length - 1) 0 ig0 ts1 vs1 hpos (by omega) q5 q3 q4 q6
  -- behind the last break point
  have hlp : f.InPiece ((f.times.length : Int) - 1) (f.times.getLast hf.ne) := ⟨fun n hn e => by rw [← getLast_idx hf.ne n hn (by omega)], fun n hn e => by omega⟩
  obtain ⟨ig2, ts3, vs3, p, w1, w2, w3, w4, w5, w6, w7, w8⟩ := composeInner_ok hg hf hm him hδ hlo1 (gradient_last hf) _ ig1 ts2 vs2 _ rfl u4 u2 u3 hlp (canInvert_last hf hm hevh u5)
  obtain ⟨gl, hgl⟩ := gradient_ok hg (r := (ig2 : Int) - 1) (by omega) (by omega)
  have hwf : WF ⟨ts3, vs3, gm * f.first, gl * f.last, f.lo, f.hi⟩ := by
    refine ⟨by simp [w2.vals], w2.ne, ?_, fun t ht => w2.dom t ht⟩
    rw [← gapped_iff]
    have hl := w2.links
    clear w1 w2
    induction ts3 with
    | nil => rfl
    | cons a l ih =>
      cases l with
      | nil => rfl
      | cons b l =>
        rw [List.isChain_cons_cons] at hl
        unfold gapped
        rw [ih hl.2, Bool.and_true, decide_eq_true_eq]
        linarith [hl.1.1]
  refine ⟨_, ?_, hwf, rfl, rfl, ?_, ?_, w2.cand, ⟨_, gm, hgm, rfl⟩, fun t ht => (w2.head t ht).1⟩
  · unfold compose image
    rw [pyAssert_true ((isMonotone_iff f).mpr hvals), ok_bind, ok_bind, hev, ok_bind, hevh, ok_bind, py_pure, ok_bind]
    simp only
    rw [pyAssert_true ⟨startsBelow_ok hf hm him hev, endsAbove_ok hf hm him hevh⟩, ok_bind, hrank, ok_bind, hgm, ok_bind]
    have hig : (max 0 ((c : Int) - 1)).toNat = c - 1 := by omega
    rw [hig]
    have hfor : composeFor g f lo f.times f.values (-1) (c - 1) [] [] = .ok (ig1, ts2, vs2) := by
      have e1 : f.times = f.times[0] :: f.times.drop 1 := by
        have := List.drop_eq_getElem_cons hpos
        rw [List.drop_zero] at this; exact this
      have e2 : f.values = f.values[0] :: f.values.drop 1 := by
        have := List.drop_eq_getElem_cons (show 0 < f.values.length by omega)
        rw [List.drop_zero] at this; exact this
      rw [show composeFor g f lo f.times f.values (-1) (c - 1) [] [] = composeFor g f lo (f.times[0] :: f.times.drop 1) (f.values[0] :: f.values.drop 1) (-1) (c - 1) [] [] by rw [← e1, ← e2]]
      unfold composeFor
      rw [← first_value hf, q1, ok_bind]
      simp only
      rw [q2, ok_bind]
      exact u1
    simp only [ok_bind, hfor]
    rw [w1, ok_bind]
    simp only
    rw [hgl, ok_bind]
    by_cases hne : c - 1 + 1 ≠ g.times.length
    · rw [if_pos hne]
      have hl : c - 1 + 1 < g.times.length := by omega
      rw [rd_lt _ _ hl, ok_bind, pyAssert_true]
      · exact new_ok hwf
      · cases e : f.lo with
        | bot => exact bot_le
        | coe a =>
          have h1 := hc2 _ hl (by omega)
          rw [(hlo2 a e).2, fin_le] at h1
          exact WithBot.coe_le_coe.mpr (le_trans (harr a e) h1)
    · rw [if_neg hne]; exact new_ok hwf
  · intro t ht
    obtain ⟨k, hk, rfl⟩ := List.mem_iff_getElem.mp ht
    rw [fn_time hwf k hk]
    have e : vs3 = ts3.map (comp g f) := w2.vals
    simp only [e, List.getElem_map]
  · intro t ht
    have hL : 0 ≤ Lf := le_trans (abs_nonneg _) (hLf _ _ (gradient_first hf))
    have hL' : 0 ≤ Lg := le_trans (abs_nonneg _) (hLg _ _ (gradient_first hg))
    refine thin_error hwf (D := f.inDom) (p := p) hδ0 (mul_nonneg hL' hL) w2.vals (fun a b x ha hb h1 h2 => inDom_between ha hb h1 h2) w2.dom ?_ ?_ w2.links ?_ w3.dom w2.last1 w2.last2 ?_ ht
    · intro x y hx hy hxy
      have h1 := lipschitz hf hLf hxy
      have h2 := lipschitz hg hLg (hm x y hx hy hxy)
      unfold comp
      refine le_trans h2 ?_
      rw [mul_assoc]
      refine mul_le_mul_of_nonneg_left ?_ hL'
      exact le_trans (le_abs_self _) h1
    · show |gl * f.last| ≤ _
      rw [abs_mul]
      exact mul_le_mul (hLg _ _ hgl) (hLf _ _ (gradient_last hf)) (abs_nonneg _) hL'
    · refine (w2.head _ ?_).2
      rw [List.head?_eq_getElem?, List.getElem?_eq_getElem]
    · intro x hx hpx
      have hlast : ∀ z, f.times.getLast hf.ne ≤ z → f.InPiece ((f.times.length : Int) - 1) z := fun z hz =>
        ⟨fun n hn e => by rw [← getLast_idx hf.ne n hn (by omega)]; exact hz, fun n hn e => by omega⟩
      have e1 := fn_piece hf (gradient_last hf) (hlast x (le_trans w5 hpx)) (hlast p w5)
      have hpc : ∀ z, f.inDom z → p ≤ z → g.InPiece ((ig2 : Int) - 1) (f.fn z) := by
        intro z hz hpz
        refine ⟨fun j hj e => le_trans (w3.before j hj (by omega)) (hm p z w3.dom hz hpz), fun j hj e => ?_⟩
        have h1 := w8 j hj (by omega)
        obtain ⟨top, t1, t2, _⟩ := evalHi_spec hf hm (f.fn z)
        rw [hevh] at t1
        injection t1 with t1
        subst t1
        have := t2 ⟨z, hz, le_rfl⟩
        exact le_of_lt (fin_lt.mp (lt_of_le_of_lt this (not_le.mp h1)))
      have e2 := fn_piece hg hgl (hpc x hx hpx) (hpc p w3.dom le_rfl)
      show comp g f x = comp g f p + gl * f.last * (x - p)
      unfold comp
      rw [e2, e1]; ring

theorem compose_ok (hg : g.WF) (hf : f.WF) (hm : f.MonoOn) (him : ∀ t, f.inDom t → g.inDom (f.fn t)) (harr : ∀ a : ℚ, f.lo = a → a ≤ f.fn a) (hδ0 : 0 ≤ δ) (hδ : Near g f δ)
    {Lf Lg : ℚ} (hLf : ∀ i m, f.gradient i = .ok m → |m| ≤ Lf) (hLg : ∀ i m, g.gradient i = .ok m → |m| ≤ Lg) :
    ∃ h, g.compose f = .ok h ∧ h.WF ∧ h.lo = f.lo ∧ h.hi = f.hi ∧ (∀ t ∈ h.times, h.fn t = comp g f t) ∧ ∀ t, f.inDom t → |h.fn t - comp g f t| ≤ 2 * (Lg * Lf) * δ := by
  obtain ⟨h, h1, h2, h3, h4, h5, h6, _⟩ := compose_full hg hf hm him harr hδ0 hδ hLf hLg
  exact ⟨h, h1, h2, h3, h4, h5, h6⟩

end PL
end Verif
