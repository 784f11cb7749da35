import Verif.Proofs.Predictors
import Verif.Proofs.PLShape
import Verif.Spec.Predictors

/-! Proofs on the predictors that extrapolate. -/

namespace Verif
open Spec

namespace Builder

theorem mapPy_inv {α β : Type} {f : α → Py β} : ∀ {l : List α} {bs : List β}, mapPy f l = .ok bs →
    bs.length = l.length ∧ ∀ (j : Nat) (a : α), l[j]? = some a → ∃ b, bs[j]? = some b ∧ f a = .ok b := by
  intro l
  induction l with
  | nil => intro bs h; unfold mapPy at h; injection h with h; subst h; exact ⟨rfl, by simp⟩
  | cons a l ih =>
    intro bs h
    unfold mapPy at h
    obtain ⟨b, hb, h⟩ := bind_eq_ok.mp h
    obtain ⟨r, hr, h⟩ := bind_eq_ok.mp h
    injection h with h; subst h
    obtain ⟨i1, i2⟩ := ih hr
    refine ⟨by simp [i1], ?_⟩
    intro j a' hj
    cases j with
    | zero => simp at hj; subst hj; exact ⟨b, by simp, hb⟩
    | succ j => simpa using i2 j a' (by simpa using hj)

theorem mapPy_congr {α β : Type} {f g : α → Py β} : ∀ {l : List α}, (∀ a ∈ l, f a = g a) → mapPy f l = mapPy g l := by
  intro l
  induction l with
  | nil => intro _; rfl
  | cons a l ih =>
    intro h
    unfold mapPy
    rw [h a (by simp), ih (fun a ha => h a (by simp [ha]))]

theorem mapPy_range {β : Type} {f : Nat → Py β} {m : Nat} {bs : List β} (h : mapPy f (List.range m) = .ok bs) :
    bs.length = m ∧ ∀ e < m, ∃ b, bs[e]? = some b ∧ f e = .ok b := by
  obtain ⟨h1, h2⟩ := mapPy_inv h
  exact ⟨by rw [h1, List.length_range], fun e he => h2 e e (by rw [List.getElem?_range he])⟩

theorem mapPy_range_ok {β : Type} (f : Nat → Py β) (m : Nat) (h : ∀ e < m, ∃ b, f e = .ok b) : ∃ bs, mapPy f (List.range m) = .ok bs := by
  obtain ⟨bs, h1, _⟩ := mapPy_ok f (List.range m) (fun e he => h e (List.mem_range.mp he))
  exact ⟨bs, h1⟩

end Builder

namespace PL

theorem evals {f : PL} (h : f.WF) (h1 : f.lo = ⊥) (h2 : f.hi = ⊤) : Evals f f.fn :=
  fun x => eval_eq h ⟨by rw [h1]; exact bot_le, by rw [h2]; exact le_top⟩

/-- The rank used by `eval` belongs to the slope up to the argument. -/
theorem rank_slope {f : PL} (h : f.WF) (t : ℚ) : ∃ r σ, elemRank f.times t = .ok r ∧ f.gradient r = .ok σ ∧ LeftSlope f.fn t σ := by
  have hr := elemRank_eq h.le h.ne t
  have key := fun i hi => lt_countP_lt_iff h.le t i hi
  have hp := inPiece_rank h t
  have hc : f.times.countP (· < t) ≤ f.times.length := List.countP_le_length
  generalize f.times.countP (· < t) = c at *
  obtain ⟨σ, hσ⟩ := gradient_ok h (r := (c : Int) - 1) (by omega) (by omega)
  refine ⟨_, σ, hr, hσ, ?_⟩
  by_cases c0 : c = 0
  · subst c0
    refine ⟨t - 1, by linarith, fun x _ h2 => fn_piece h hσ ⟨fun i hi e => by omega, fun i hi e => ?_⟩ hp⟩
    exact le_trans h2 (hp.2 i hi e)
  · obtain ⟨i, rfl⟩ : ∃ i, c = i + 1 := ⟨c - 1, by omega⟩
    refine ⟨f.times[i]'(by omega), (key i (by omega)).mp (by omega), fun x h1 h2 => fn_piece h hσ ⟨fun j hj e => ?_, fun j hj e => ?_⟩ hp⟩
    · have : j = i := by omega
      subst this; exact h1
    · exact le_trans h2 (hp.2 j hj e)

theorem leftSlope_unique {F : ℚ → ℚ} {t a b : ℚ} (ha : LeftSlope F t a) (hb : LeftSlope F t b) : a = b := by
  obtain ⟨s, hs, h1⟩ := ha
  obtain ⟨u, hu, h2⟩ := hb
  have hm : max s u < t := max_lt hs hu
  have e1 := h1 (max s u) (le_max_left _ _) (le_of_lt hm)
  have e2 := h2 (max s u) (le_max_right _ _) (le_of_lt hm)
  have : (a - b) * (max s u - t) = 0 := by linarith
  rcases mul_eq_zero.mp this with h | h
  · linarith
  · linarith

theorem evals_unique {p : PL} {F G : ℚ → ℚ} (h1 : Evals p F) (h2 : Evals p G) : F = G := by
  funext x
  have := (h1 x).symm.trans (h2 x)
  injection this

theorem wf_two {t s : ℚ} (h : t < s - eps) (a b : ℚ) : WF ⟨[t, s], [a, b], 0, 0, ⊥, ⊤⟩ :=
  ⟨rfl, by simp, by simpa using h, fun _ _ => ⟨bot_le, le_top⟩⟩

theorem fn_two {t s : ℚ} (h : t < s - eps) (a b : ℚ) {x : ℚ} (hx : t ≤ x) :
    fn ⟨[t, s], [a, b], 0, 0, ⊥, ⊤⟩ x = a + (b - a) / (s - t) * min (x - t) (s - t) := by
  have hw := wf_two h a b
  have h0 := eps_pos
  have hs : s - t ≠ 0 := by linarith [h]
  rcases le_total x s with h1 | h1
  · rw [fn_mid hw 0 (by simp) (by simpa using hx) (by simpa using h1), min_eq_left (by linarith)]
    simp only [List.getElem_cons_zero, List.getElem_cons_succ]
    ring
  · rw [fn_right hw (by simpa using h1), min_eq_right (by linarith)]
    simp only [List.getLast_cons_cons, List.getLast_singleton]
    field_simp
    ring

end PL

namespace Predictors

/-- What `follow` does when the slope does not lead below 0, or leads there from a queue that is worth noticing. -/
theorem follow_ok {h t c σ : ℚ} (hh : eps < h) (hc : 0 ≤ c) (hx : 0 ≤ c + σ * h ∨ (eps < c ∧ eps < c / (-σ))) :
    ∃ p F, follow h t c σ = .ok p ∧ Evals p F ∧ Extrapolates c σ h t F := by
  have h0 := eps_pos
  unfold follow
  simp only
  by_cases hn : c + h * σ < 0
  · have hx' : eps < c ∧ eps < c / (-σ) := by
      rcases hx with h | h
      · exact absurd hn (not_lt.mpr (by linarith))
      · exact h
    have hσ : σ < 0 := by
      by_contra hc'
      have : 0 ≤ h * σ := mul_nonneg (by linarith) (not_lt.mp hc')
      linarith
    have hd : c / -σ = -(c / σ) := by rw [div_neg]
    rw [hd] at hx'
    have hgap : t < t - c / σ - eps := by linarith [hx'.2]
    rw [if_pos ⟨hn, hx'.1⟩, PL.pyDiv_ok (ne_of_lt hσ), ok_bind, PL.new_ok (PL.wf_two hgap c 0)]
    refine ⟨_, _, rfl, PL.evals (PL.wf_two hgap c 0) rfl rfl, ?_⟩
    intro x hx
    rw [PL.fn_two hgap c 0 hx]
    have e : (0 - c) / (t - c / σ - t) = σ := by
      have h3 : c ≠ 0 := by linarith [hx'.1]
      have h4 : σ ≠ 0 := ne_of_lt hσ
      have h5 : t - c / σ - t = -(c / σ) := by ring
      rw [h5, zero_sub, neg_div_neg_eq, div_div_eq_mul_div, mul_div_cancel_left₀ _ h3]
    have e2 : t - c / σ - t = -(c / σ) := by ring
    have e3 : σ * (-(c / σ)) = -c := by
      have : σ ≠ 0 := ne_of_lt hσ
      field_simp
    have e4 : -(c / σ) ≤ h := by
      rw [← hd, div_le_iff₀ (by linarith)]; linarith
    rw [e, e2]
    rcases le_total (x - t) (-(c / σ)) with g | g
    · rw [min_eq_left g, min_eq_left (le_trans g e4), max_eq_right]
      have := mul_le_mul_of_nonpos_left g (le_of_lt hσ)
      linarith
    · rw [min_eq_right g, e3, max_eq_left]
      · ring
      · have : -(c / σ) ≤ min (x - t) h := le_min g e4
        have := mul_le_mul_of_nonpos_left this (le_of_lt hσ)
        linarith
  · rw [if_neg (fun h => hn h.1)]
    have hgap : t < t + h - eps := by linarith
    rw [PL.new_ok (PL.wf_two hgap c (c + h * σ))]
    refine ⟨_, _, rfl, PL.evals (PL.wf_two hgap _ _) rfl rfl, ?_⟩
    intro x hx
    rw [PL.fn_two hgap _ _ hx]
    have e1 : t + h - t = h := by ring
    have e2 : (c + h * σ - c) / h = σ := by
      have : h ≠ 0 := by linarith
      field_simp; ring
    rw [e1, e2, max_eq_right]
    rcases le_total 0 σ with g | g
    · have : 0 ≤ σ * min (x - t) h := mul_nonneg g (le_min (by linarith) (by linarith))
      linarith
    · have := mul_le_mul_of_nonpos_left (min_le_right (x - t) h) g
      linarith

/-- The slope leads below 0 from a queue of at most `eps`. -/
theorem follow_negative {h t c σ : ℚ} (hh : eps < h) (h2 : c ≤ eps) :
    ∃ p F, follow h t c σ = .ok p ∧ Evals p F ∧ ∀ x, t ≤ x → F x = c + σ * min (x - t) h := by
  have h0 := eps_pos
  unfold follow
  simp only
  rw [if_neg (fun h => absurd h.2 (not_lt.mpr h2))]
  have hgap : t < t + h - eps := by linarith
  rw [PL.new_ok (PL.wf_two hgap c (c + h * σ))]
  refine ⟨_, _, rfl, PL.evals (PL.wf_two hgap _ _) rfl rfl, ?_⟩
  intro x hx
  rw [PL.fn_two hgap _ _ hx]
  have e1 : t + h - t = h := by ring
  have e2 : (c + h * σ - c) / h = σ := by
    have : h ≠ 0 := by linarith
    field_simp; ring
  rw [e1, e2]

/-- The depletion time is within `eps`. -/
theorem follow_raises {h t c σ : ℚ} (h1 : c + σ * h < 0) (hc : eps < c) (h2 : c / (-σ) ≤ eps) :
    follow h t c σ = .error .assertion := by
  have h0 := eps_pos
  have hσ : σ ≠ 0 := by rintro rfl; linarith
  unfold follow
  simp only
  rw [if_pos ⟨by linarith, hc⟩, PL.pyDiv_ok hσ, ok_bind]
  unfold PL.new
  rw [pyAssert_true (by simp), ok_bind, pyAssert_true (by simp), ok_bind, pyAssert_false, error_bind]
  rw [div_neg] at h2
  simp only [PL.gapped, Bool.and_true, decide_eq_true_eq, not_lt]
  linarith

/-- Which of the three happens. -/
theorem follow_cases {h t c σ : ℚ} (hh : eps < h) (hc : 0 ≤ c) {p : PL} (hp : follow h t c σ = .ok p) :
    ∃ F, Evals p F ∧ (Extrapolates c σ h t F ∨ (c ≤ eps ∧ c + σ * h < 0 ∧ ∀ x, t ≤ x → F x = c + σ * min (x - t) h)) := by
  by_cases h1 : 0 ≤ c + σ * h
  · obtain ⟨p', F, a, b, d⟩ := follow_ok (t := t) hh hc (Or.inl h1)
    rw [hp] at a; injection a with a; subst a
    exact ⟨F, b, Or.inl d⟩
  · rw [not_le] at h1
    by_cases h2 : c ≤ eps
    · obtain ⟨p', F, a, b, d⟩ := follow_negative (t := t) (σ := σ) hh h2
      rw [hp] at a; injection a with a; subst a
      exact ⟨F, b, Or.inr ⟨h2, h1, d⟩⟩
    · rw [not_le] at h2
      by_cases h3 : eps < c / (-σ)
      · obtain ⟨p', F, a, b, d⟩ := follow_ok (t := t) hh hc (Or.inr ⟨h2, h3⟩)
        rw [hp] at a; injection a with a; subst a
        exact ⟨F, b, Or.inl d⟩
      · rw [follow_raises h1 h2 (not_lt.mp h3)] at hp
        cases hp

/-- A queue that is followed at a slope of at least minus the capacity is physical. -/
theorem extrapolates_physical {cap t c σ h : ℚ} {F : ℚ → ℚ} (hcap : 0 ≤ cap) (hc : 0 ≤ c) (hh : 0 ≤ h) (hσ : -cap ≤ σ) (hF : Extrapolates c σ h t F) :
    Physical cap t c F := by
  refine ⟨?_, ?_, ?_⟩
  · rw [hF t le_rfl, sub_self, min_eq_left hh, mul_zero, add_zero, max_eq_right hc]
  · intro x hx
    rw [hF x hx]; exact le_max_left _ _
  · intro x y hx hxy
    rw [hF x hx, hF y (le_trans hx hxy)]
    have hm : 0 ≤ min (y - t) h - min (x - t) h ∧ min (y - t) h - min (x - t) h ≤ y - x := by
      rcases min_cases (y - t) h with ⟨a, a'⟩ | ⟨a, a'⟩ <;> rcases min_cases (x - t) h with ⟨b, b'⟩ | ⟨b, b'⟩ <;> rw [a, b] <;>
        constructor <;> linarith
    have hb : σ * min (x - t) h - σ * min (y - t) h ≤ cap * (y - x) := by
      have e1 : σ * min (x - t) h - σ * min (y - t) h = (-σ) * (min (y - t) h - min (x - t) h) := by ring
      rw [e1]
      calc (-σ) * (min (y - t) h - min (x - t) h) ≤ cap * (min (y - t) h - min (x - t) h) := mul_le_mul_of_nonneg_right (by linarith) hm.1
        _ ≤ cap * (y - x) := mul_le_mul_of_nonneg_left hm.2 hcap
    have hpos : 0 ≤ cap * (y - x) := mul_nonneg hcap (by linarith)
    rcases max_cases 0 (c + σ * min (x - t) h) with ⟨a, a'⟩ | ⟨a, a'⟩ <;> rcases max_cases 0 (c + σ * min (y - t) h) with ⟨b, b'⟩ | ⟨b, b'⟩ <;>
      rw [a, b] <;> linarith

theorem slope_ge {cap φ t σ : ℚ} {q : PL} (hq : QueueFacts cap φ q) (ht : t ≤ φ) (h : LeftSlope q.fn t σ) : -cap ≤ σ := by
  obtain ⟨s, hs, h⟩ := h
  have h1 := h s le_rfl (le_of_lt hs)
  have h2 := hq.drain s t (le_of_lt hs) ht
  by_contra hc
  have : σ * (s - t) > -cap * (s - t) := mul_lt_mul_of_neg_right (not_le.mp hc) (by linarith)
  linarith

/-- One edge of `linear`. -/
theorem linear_edge {cap φ t h : ℚ} {q : PL} (hq : QueueFacts cap φ q) (ht : t ≤ φ) : ∃ σ, LeftSlope q.fn t σ ∧ -cap ≤ σ ∧
    (do
      let c ← q.eval t
      let cur := max 0 c
      let r ← elemRank q.times t
      let g ← q.gradient r
      follow h t cur g : Py PL) = follow h t (q.fn t) σ := by
  obtain ⟨r, σ, a, b, c⟩ := PL.rank_slope hq.wf t
  refine ⟨σ, c, slope_ge hq ht c, ?_⟩
  rw [hq.eval t, ok_bind, a, ok_bind, b, ok_bind, max_eq_right (hq.nonneg t ht)]

/-- One edge of `regLinear`. -/
theorem regLinear_edge {cap φ t h δ : ℚ} {q : PL} (hq : QueueFacts cap φ q) (ht : t ≤ φ) (hδ : 0 < δ) :
    -cap ≤ (q.fn t - q.fn (t - δ)) / δ ∧
    (do
      let c ← q.eval t
      let cur := max 0 c
      let c' ← q.eval (t - δ)
      let old := max 0 c'
      let g ← pyDiv (cur - old) δ
      follow h t cur g : Py PL) = follow h t (q.fn t) ((q.fn t - q.fn (t - δ)) / δ) := by
  constructor
  · rw [le_div_iff₀ hδ]
    have := hq.drain (t - δ) t (by linarith) ht
    have e : t - (t - δ) = δ := by ring
    rw [e] at this
    linarith
  · rw [hq.eval t, ok_bind, hq.eval (t - δ), ok_bind, max_eq_right (hq.nonneg t ht), max_eq_right (hq.nonneg (t - δ) (by linarith))]
    simp only
    rw [PL.pyDiv_ok (ne_of_gt hδ), ok_bind]

end Predictors
end Verif
