import Verif.Proofs.BellmanFord
import Verif.Proofs.PLOuterMin
import Verif.Proofs.PLLe
import Mathlib.Data.Fintype.Pigeonhole
import Mathlib.Data.Finset.Max
import Mathlib.Tactic.LinearCombination
import Mathlib.Tactic.FieldSimp

/-! Piecewise linear functions whose values lie on finitely many lines. -/

namespace Verif
open Verif.Spec
namespace BF

/-- An affine piece of a function whose values lie on finitely many lines lies on one of them. -/
theorem on_line {lines : List (ℚ × ℚ)} {F : ℚ → ℚ} {a b m : ℚ} (hab : a < b) (hS : ∀ t, a ≤ t → t ≤ b → ∃ l ∈ lines, F t = lineAt l t)
    (haff : ∀ x, a ≤ x → x ≤ b → F x = F a + m * (x - a)) : ∃ l ∈ lines, l.1 = m ∧ ∀ x, a ≤ x → x ≤ b → F x = lineAt l x := by
  let pt : Fin (lines.length + 1) → ℚ := fun i => a + (b - a) * ((i : ℚ) / (lines.length + 1))
  have hn : (0 : ℚ) < (lines.length : ℚ) + 1 := by positivity
  have hpt : ∀ i, a ≤ pt i ∧ pt i ≤ b := by
    intro i
    have h0 : (0 : ℚ) ≤ (i : ℚ) / (lines.length + 1) := by positivity
    have h1 : (i : ℚ) / (lines.length + 1) ≤ 1 := by
      rw [div_le_one hn]
      have := i.2
      exact_mod_cast this.le
    have h2 : 0 < b - a := by linarith
    constructor
    · have := mul_nonneg h2.le h0
      simp only [pt]; linarith
    · have := mul_le_mul_of_nonneg_left h1 h2.le
      simp only [pt]; linarith
  have hch : ∀ i : Fin (lines.length + 1), ∃ k : Fin lines.length, F (pt i) = lineAt lines[k] (pt i) := by
    intro i
    obtain ⟨l, hl, h⟩ := hS (pt i) (hpt i).1 (hpt i).2
    obtain ⟨k, hk, rfl⟩ := List.getElem_of_mem hl
    exact ⟨⟨k, hk⟩, h⟩
  choose f hf using hch
  obtain ⟨i, j, hij, he⟩ := Fintype.exists_ne_map_eq_of_card_lt f (by simp)
  have hne : pt i ≠ pt j := by
    intro e
    apply hij
    have h2 : b - a ≠ 0 := by linarith
    simp only [pt, add_right_inj] at e
    have e' := mul_left_cancel₀ h2 e
    rw [div_left_inj' hn.ne'] at e'
    exact Fin.ext (by exact_mod_cast e')
  have hi := hf i
  have hj := hf j
  rw [← he] at hj
  have ai := haff _ (hpt i).1 (hpt i).2
  have aj := haff _ (hpt j).1 (hpt j).2
  unfold lineAt at hi hj
  have key : ((lines[f i]).1 - m) * (pt i - pt j) = 0 := by linear_combination ai - aj - hi + hj
  have hm : (lines[f i]).1 = m := by
    rcases mul_eq_zero.mp key with h | h
    · linarith
    · exact absurd (by linarith) hne
  refine ⟨lines[f i], List.getElem_mem _, hm, fun x h1 h2 => ?_⟩
  unfold lineAt
  rw [haff x h1 h2]
  rw [hm] at hi ⊢
  linear_combination hi - ai

/-- `F` bends at `t`. -/
def Kink (phi : ℚ) (F : ℚ → ℚ) (t : ℚ) : Prop :=
  ∃ a b m n, phi ≤ a ∧ a < t ∧ t < b ∧ m ≠ n ∧ (∀ x, a ≤ x → x ≤ t → F x = F t + m * (x - t)) ∧ ∀ x, t ≤ x → x ≤ b → F x = F t + n * (x - t)

variable {phi : ℚ} {lines : List (ℚ × ℚ)} {kinks : List ℚ}

theorem Kink.turn {F : ℚ → ℚ} {t : ℚ} (h : Kink phi F t) (hS : ∀ t, phi ≤ t → ∃ l ∈ lines, F t = lineAt l t) : Turn phi lines kinks t := by
  obtain ⟨a, b, m, n, h1, h2, h3, h4, h5, h6⟩ := h
  refine ⟨by linarith, Or.inr (Or.inr ?_)⟩
  obtain ⟨l, l1, l2, l3⟩ := on_line (m := m) h2 (fun x hx _ => hS x (by linarith)) (by
    intro x p q
    have e1 := h5 x p q
    have e2 := h5 a (le_refl _) h2.le
    rw [e1, e2]; ring)
  obtain ⟨l', k1, k2, k3⟩ := on_line (m := n) h3 (fun x hx _ => hS x (by linarith)) h6
  exact ⟨l, l1, l', k1, by rw [l2, k2]; exact h4, by rw [← l3 t h2.le (le_refl _), ← k3 t (le_refl _) h3.le]⟩

theorem isolated (l : List ℚ) (t : ℚ) : ∃ δ, 0 < δ ∧ ∀ x ∈ l, x ≠ t → δ ≤ |x - t| := by
  induction l with
  | nil => exact ⟨1, one_pos, by simp⟩
  | cons y l ih =>
    obtain ⟨δ, h1, h2⟩ := ih
    by_cases hy : y = t
    · refine ⟨δ, h1, fun x hx hne => ?_⟩
      rcases List.mem_cons.mp hx with rfl | hx
      · exact absurd hy hne
      · exact h2 x hx hne
    · refine ⟨min δ |y - t|, lt_min h1 (abs_pos.mpr (sub_ne_zero.mpr hy)), fun x hx hne => ?_⟩
      rcases List.mem_cons.mp hx with rfl | hx
      · exact min_le_right _ _
      · exact le_trans (min_le_left _ _) (h2 x hx hne)

/-! ### `simplify` keeps only bends -/

theorem simplifyLoop_bends {f : PL} : ∀ (n i : Nat) (ts vs ts' vs' : List ℚ), PL.simplifyLoop f n i ts vs = .ok (ts', vs') → ∀ t ∈ ts', t ∈ ts ∨
    ∃ j, ∃ hj : j + 1 < f.times.length, t = f.times[j + 1] ∧ ∃ g0 g1, f.gradient (j : Int) = .ok g0 ∧ f.gradient ((j : Int) + 1) = .ok g1 ∧ g0 ≠ g1 := by
  intro n
  induction n with
  | zero =>
    intro i ts vs ts' vs' h t ht
    simp only [PL.simplifyLoop, Except.ok.injEq, Prod.mk.injEq] at h
    rw [h.1]; exact Or.inl ht
  | succ n ih =>
    intro i ts vs ts' vs' h t ht
    rw [PL.simplifyLoop] at h
    obtain ⟨g0, e0, h⟩ := bind_eq_ok.mp h
    obtain ⟨g1, e1, h⟩ := bind_eq_ok.mp h
    split_ifs at h with c
    · obtain ⟨x, e2, h⟩ := bind_eq_ok.mp h
      obtain ⟨v, e3, h⟩ := bind_eq_ok.mp h
      rcases ih _ _ _ _ _ h t ht with h1 | h1
      · rcases List.mem_append.mp h1 with h1 | h1
        · exact Or.inl h1
        · have h1 : t = x := by simpa using h1
          subst h1
          obtain ⟨hi, hx⟩ := List.getElem?_eq_some_iff.mp (rd_eq_ok.mp e2)
          refine Or.inr ⟨i, hi, hx.symm, g0, g1, e0, e1, ?_⟩
          intro he
          rw [he] at c
          simp only [sub_self, abs_zero] at c
          have := eps_pos
          linarith
      · exact Or.inr h1
    · exact ih _ _ _ _ _ h t ht

theorem simplify_kinks {f g : PL} (h : f.WF) (hg : f.simplify = .ok g) (hphi : ∀ t ∈ f.times, phi ≤ t) : ∀ t ∈ g.times, f.times.head? = some t ∨ Kink phi f.fn t := by
  have hp := h.pos
  have hvl := h.len
  unfold PL.simplify at hg
  rw [rd_lt _ _ hp, ok_bind, rd_lt _ _ (by omega), ok_bind] at hg
  obtain ⟨⟨ts, vs⟩, e1, e2⟩ := bind_eq_ok.mp hg
  obtain ⟨e, _⟩ := PL.new_eq_ok.mp e2
  intro t ht
  rw [e] at ht
  rcases simplifyLoop_bends _ _ _ _ _ _ e1 t ht with h1 | ⟨j, hj, rfl, g0, g1, hg0, hg1, hne⟩
  · left
    have : t = f.times[0] := by simpa using h1
    rw [this, List.head?_eq_getElem?, List.getElem?_eq_getElem hp]
  · right
    have hl : f.times[j] < f.times[j + 1] := PL.getElem_lt_of h.lt (by omega) hj
    have pr := PL.inPiece_time_right h (j + 1) hj
    have e1 : (((j + 1 : Nat) : Int) - 1) = (j : Int) := by omega
    rw [e1] at pr
    have pl := PL.inPiece_time_left h (j + 1) hj
    have e2 : ((j + 1 : Nat) : Int) = (j : Int) + 1 := by omega
    rw [e2] at pl
    obtain ⟨w, hw1, hw2⟩ : ∃ w, f.times[j + 1] < w ∧ ∀ (h2 : j + 2 < f.times.length), w ≤ f.times[j + 2] := by
      by_cases c : j + 2 < f.times.length
      · exact ⟨f.times[j + 2], PL.getElem_lt_of h.lt (by omega) c, fun _ => le_rfl⟩
      · exact ⟨f.times[j + 1] + 1, by linarith, fun h2 => absurd h2 c⟩
    refine ⟨f.times[j], w, g0, g1, hphi _ (List.getElem_mem _), hl, hw1, hne, ?_, ?_⟩
    · intro x hx1 hx2
      refine PL.fn_piece h hg0 ⟨?_, ?_⟩ pr
      · intro i hi e
        have : i = j := by omega
        subst this; exact hx1
      · intro i hi e
        have : i = j + 1 := by omega
        subst this; exact hx2
    · intro x hx1 hx2
      refine PL.fn_piece h hg1 ⟨?_, ?_⟩ pl
      · intro i hi e
        have : i = j + 1 := by omega
        subst this; exact hx1
      · intro i hi e
        have : i = j + 2 := by omega
        subst this; exact le_trans hx2 (hw2 hi)

/-! ### The class -/

variable (phi lines kinks) in
/-- The functions of the search: from `phi` on, on the lines, with break points at turns and slope 1 in the end. -/
structure OnL (p : PL) : Prop where
  wf : p.WF
  lo : p.lo = (phi : WithBot ℚ)
  hi : p.hi = ⊤
  head : p.times.head? = some phi
  last : p.last = 1
  first : ∃ l ∈ lines, l.1 = p.first
  sup : ∀ t, phi ≤ t → ∃ l ∈ lines, p.fn t = lineAt l t
  turn : ∀ t ∈ p.times, Turn phi lines kinks t

theorem OnL.inDom {p : PL} (h : OnL phi lines kinks p) {t : ℚ} : p.inDom t ↔ phi ≤ t := by
  unfold PL.inDom
  rw [h.lo, h.hi]
  simp only [le_top, and_true, WithBot.coe_le_coe]

theorem OnL.get {p : PL} (h : OnL phi lines kinks p) : p.times[0]'h.wf.pos = phi := by
  have := h.head
  rw [List.head?_eq_getElem?, List.getElem?_eq_getElem h.wf.pos] at this
  exact Option.some.inj this

theorem head_mem {p : PL} {t : ℚ} (h : p.times.head? = some t) : t ∈ p.times := List.mem_of_mem_head? h

theorem head_phi {p : PL} {t : ℚ} (hw : p.WF) (hlo : p.lo = (phi : WithBot ℚ)) (h : p.times.head? = some t) (hle : t ≤ phi) : t = phi := by
  have := (hw.dom t (head_mem h)).1
  rw [hlo, WithBot.coe_le_coe] at this
  exact le_antisymm hle this

/-- The slopes of such a function are slopes of lines. -/
theorem OnL.slope {p : PL} (h : OnL phi lines kinks p) {i : Int} {m : ℚ} (hm : p.gradient i = .ok m) : ∃ l ∈ lines, l.1 = m := by
  have hw := h.wf
  have hp := hw.pos
  have hvl := hw.len
  obtain ⟨r1, r2⟩ := PL.gradient_range hm
  have hge : ∀ j (hj : j < p.times.length), phi ≤ p.times[j] := fun j hj => (h.turn _ (List.getElem_mem hj)).1
  by_cases c : i = -1
  · subst c
    rw [PL.gradient_first hw] at hm
    injection hm with hm
    subst hm
    exact h.first
  obtain ⟨k, rfl⟩ : ∃ k : Nat, i = k := ⟨i.toNat, by omega⟩
  have hk : k < p.times.length := by omega
  obtain ⟨b, hb, hb'⟩ : ∃ b, p.times[k] < b ∧ ∀ (h : k + 1 < p.times.length), b ≤ p.times[k + 1] := by
    by_cases c : k + 1 < p.times.length
    · exact ⟨p.times[k + 1], PL.getElem_lt_of hw.lt (by omega) c, fun _ => le_refl _⟩
    · exact ⟨p.times[k] + 1, by linarith, fun h => absurd h c⟩
  obtain ⟨l, l1, l2, _⟩ := on_line (m := m) (F := p.fn) hb (fun x hx _ => h.sup x (le_trans (hge k hk) hx)) (by
    intro x h1 h2
    refine PL.fn_piece hw hm ⟨?_, ?_⟩ (PL.inPiece_time_left hw k hk)
    · intro j hj e
      have : j = k := by omega
      subst this; exact h1
    · intro j hj e
      have : j = k + 1 := by omega
      subst this; exact le_trans h2 (hb' hj))
  exact ⟨l, l1, l2⟩

theorem OnL.slopes (hc : ClearCut phi lines kinks) {p h : PL} (hp : OnL phi lines kinks p) (hh : OnL phi lines kinks h) {i j : Int} {m n : ℚ} (hm : p.gradient i = .ok m) (hn : h.gradient j = .ok n) :
    m = n ∨ 1000 * eps < |m - n| := by
  obtain ⟨l, l1, l2⟩ := hp.slope hm
  obtain ⟨l', k1, k2⟩ := hh.slope hn
  rw [← l2, ← k2]
  exact hc.slopes l l1 l' k1

/-- `simplify`. -/
theorem OnL.simplify (hc : ClearCut phi lines kinks) {h : PL} (hh : OnL phi lines kinks h) :
    ∃ p, h.simplify = .ok p ∧ OnL phi lines kinks p ∧ (∀ t ∈ p.times, t = phi ∨ Kink phi p.fn t) ∧ ∀ x, p.fn x = h.fn x := by
  obtain ⟨p, h1, h2, h3, h4, h5, h6, h7, h8, h9⟩ := PL.simplify_ok hh.wf (fun j hj g0 g1 e0 e1 => (hh.slopes hc hh e0 e1).imp id le_of_lt)
  have hfn : p.fn = h.fn := funext h9
  refine ⟨p, h1, ⟨h2, by rw [h3, hh.lo], by rw [h4, hh.hi], by rw [h8, hh.head], by rw [h6, hh.last], by rw [h5]; exact hh.first, by rw [hfn]; exact hh.sup, fun t ht => hh.turn t (h7.subset ht)⟩, ?_, h9⟩
  intro t ht
  rw [hfn]
  rcases simplify_kinks (phi := phi) hh.wf h1 (fun t ht => (hh.turn t ht).1) t ht with e | e
  · left
    rw [hh.head] at e
    exact (Option.some.inj e).symm
  · exact Or.inr e

/-- Two functions can be compared at their break points. -/
theorem le_of_breaks {f g : PL} (hf : f.WF) (hg : g.WF) (hf0 : f.times[0]'hf.pos = phi) (hlast : f.last ≤ g.last) (hle : ∀ t, t ∈ f.times ∨ t ∈ g.times → f.fn t ≤ g.fn t) :
    ∀ t, phi ≤ t → f.fn t ≤ g.fn t := by
  intro t ht
  have hmem : phi ∈ f.times := hf0 ▸ List.getElem_mem hf.pos
  -- the last break point up to t
  obtain ⟨a, ha, hat, hamax⟩ : ∃ a, (a ∈ f.times ∨ a ∈ g.times) ∧ a ≤ t ∧ ∀ x, x ∈ f.times ∨ x ∈ g.times → x ≤ t → x ≤ a := by
    let S := ((f.times ++ g.times).toFinset.filter (· ≤ t))
    have hS : ∀ x, x ∈ S ↔ (x ∈ f.times ∨ x ∈ g.times) ∧ x ≤ t := by intro x; simp [S]
    have hne : S.Nonempty := ⟨phi, (hS phi).mpr ⟨Or.inl hmem, ht⟩⟩
    have h1 := (hS _).mp (S.max'_mem hne)
    exact ⟨S.max' hne, h1.1, h1.2, fun x hx hxt => S.le_max' x ((hS x).mpr ⟨hx, hxt⟩)⟩
  have h0 := hle a ha
  by_cases hnx : ∃ x, (x ∈ f.times ∨ x ∈ g.times) ∧ t < x
  · obtain ⟨b, hb, htb, hbmin⟩ : ∃ b, (b ∈ f.times ∨ b ∈ g.times) ∧ t < b ∧ ∀ x, x ∈ f.times ∨ x ∈ g.times → t < x → b ≤ x := by
      let S := ((f.times ++ g.times).toFinset.filter (t < ·))
      have hS : ∀ x, x ∈ S ↔ (x ∈ f.times ∨ x ∈ g.times) ∧ t < x := by intro x; simp [S]
      obtain ⟨x, hx⟩ := hnx
      have hne : S.Nonempty := ⟨x, (hS x).mpr hx⟩
      have h1 := (hS _).mp (S.min'_mem hne)
      exact ⟨S.min' hne, h1.1, h1.2, fun x hx hxt => S.min'_le x ((hS x).mpr ⟨hx, hxt⟩)⟩
    have hno : ∀ x, x ∈ f.times ∨ x ∈ g.times → ¬ (a < x ∧ x < b) := by
      rintro x hx ⟨h1, h2⟩
      rcases le_or_gt x t with h3 | h3
      · linarith [hamax x hx h3]
      · linarith [hbmin x hx h3]
    obtain ⟨m, hm⟩ := PL.fn_affine hf (a := a) (b := b) (fun x hx => hno x (Or.inl hx))
    obtain ⟨n, hn⟩ := PL.fn_affine hg (a := a) (b := b) (fun x hx => hno x (Or.inr hx))
    have h1 := hle b hb
    rw [hm b (by linarith) (le_refl _), hn b (by linarith) (le_refl _)] at h1
    rw [hm t hat htb.le, hn t hat htb.le]
    -- interpolation
    by_contra hcon
    rw [not_le] at hcon
    have hmn : n < m := by
      by_contra hc
      rw [not_lt] at hc
      have := mul_le_mul_of_nonneg_right hc (show 0 ≤ t - a by linarith)
      linarith
    have := mul_le_mul_of_nonneg_right hmn.le (show 0 ≤ b - t by linarith)
    nlinarith
  · have hlt : ∀ x, x ∈ f.times ∨ x ∈ g.times → x ≤ a := by
      intro x hx
      refine hamax x hx ?_
      by_contra hc
      exact hnx ⟨x, hx, not_le.mp hc⟩
    have e1 : f.fn t = f.fn a + f.last * (t - a) := by
      rw [PL.fn_right hf (hlt _ (Or.inl (List.getLast_mem hf.ne))), PL.fn_right hf (le_trans (hlt _ (Or.inl (List.getLast_mem hf.ne))) hat)]
      ring
    have e2 : g.fn t = g.fn a + g.last * (t - a) := by
      rw [PL.fn_right hg (hlt _ (Or.inr (List.getLast_mem hg.ne))), PL.fn_right hg (le_trans (hlt _ (Or.inr (List.getLast_mem hg.ne))) hat)]
      ring
    rw [e1, e2]
    have := mul_le_mul_of_nonneg_right hlast (show 0 ≤ t - a by linarith)
    linarith

/-- `smaller_equals`. -/
theorem OnL.cmp (hc : ClearCut phi lines kinks) {p h : PL} (hp : OnL phi lines kinks p) (hh : OnL phi lines kinks h) :
    ∃ b, p.smallerEquals h = .ok b ∧ (b = true ↔ ∀ t, phi ≤ t → p.fn t ≤ h.fn t) := by
  have e1 : p.lo = (p.times[0]'hp.wf.pos : WithBot ℚ) := by rw [hp.get, hp.lo]
  have e2 : h.lo = (h.times[0]'hh.wf.pos : WithBot ℚ) := by rw [hh.get, hh.lo]
  have hlt : ((h.times[0]'hh.wf.pos : ℚ) : WithTop ℚ) < h.hi := by rw [hh.hi]; exact WithTop.coe_lt_top _
  have hhi : h.hi ≤ p.hi := by rw [hp.hi]; exact le_top
  obtain ⟨b, hb⟩ := PL.smallerEquals_total hp.wf hh.wf e1 e2 (by rw [hp.lo, hh.lo]) hhi hlt
  refine ⟨b, hb, ?_⟩
  constructor
  · intro e
    subst e
    obtain ⟨_, _, _, s1⟩ := PL.smallerEquals_sound hp.wf hh.wf hb
    obtain ⟨_, s2⟩ := s1 hh.hi
    refine le_of_breaks hp.wf hh.wf hp.get (by rw [hp.last, hh.last]) ?_
    intro t ht
    have htu : Turn phi lines kinks t := ht.elim (hp.turn t) (hh.turn t)
    have h1 := s2 t (hh.inDom.mpr htu.1)
    have hmax : t ≤ max (p.times.getLast hp.wf.ne) (h.times.getLast hh.wf.ne) := by
      rcases ht with ht | ht
      · exact le_trans (le_getLast hp.wf.lt _ ht) (le_max_left _ _)
      · exact le_trans (le_getLast hh.wf.lt _ ht) (le_max_right _ _)
    rw [max_eq_left (by linarith), mul_zero, add_zero] at h1
    obtain ⟨l, l1, l2⟩ := hp.sup t htu.1
    obtain ⟨l', k1, k2⟩ := hh.sup t htu.1
    unfold PL.precision at h1
    rcases hc.values t htu l l1 l' k1 with h2 | h2
    · rw [l2, k2, h2]
    · rw [← l2, ← k2] at h2
      by_contra hcon
      rw [not_le] at hcon
      rw [abs_of_pos (by linarith)] at h2
      linarith
  · intro hle
    have := PL.smallerEquals_complete hp.wf hh.wf e1 e2 (by rw [hp.lo, hh.lo]) hhi hlt (fun t ht => hle t (hh.inDom.mp ht))
    rw [hb] at this
    exact Except.ok.inj this

/-- Where a minimum bends is a turn. -/
theorem OnL.bend {p h : PL} (hp : OnL phi lines kinks p) (hh : OnL phi lines kinks h) : ∀ s, PL.Bend p h phi ⊤ s → Turn phi lines kinks s := by
  rintro s ⟨h1, _, h2 | h2 | ⟨h2, r, r1, _, r3⟩⟩
  · exact hp.turn s h2
  · exact hh.turn s h2
  · refine ⟨h1, Or.inr (Or.inr ?_)⟩
    -- both are affine right behind s
    obtain ⟨δ, d1, d2⟩ := isolated (p.times ++ h.times) s
    have hno : ∀ x, x ∈ p.times ∨ x ∈ h.times → ¬ (s < x ∧ x < min r (s + δ)) := by
      rintro x hx ⟨x1, x2⟩
      have := d2 x (List.mem_append.mpr hx) x1.ne'
      rw [abs_of_pos (by linarith)] at this
      linarith [lt_of_lt_of_le x2 (min_le_right _ _)]
    have hb : s < min r (s + δ) := lt_min r1 (by linarith)
    obtain ⟨m, hm⟩ := PL.fn_affine hp.wf (a := s) (b := min r (s + δ)) (fun x hx => hno x (Or.inl hx))
    obtain ⟨n, hn⟩ := PL.fn_affine hh.wf (a := s) (b := min r (s + δ)) (fun x hx => hno x (Or.inr hx))
    obtain ⟨l, l1, l2, l3⟩ := on_line hb (fun x hx _ => hp.sup x (le_trans h1 hx)) hm
    obtain ⟨l', k1, k2, k3⟩ := on_line hb (fun x hx _ => hh.sup x (le_trans h1 hx)) hn
    refine ⟨l, l1, l', k1, ?_, ?_⟩
    · intro e
      have hmn : m = n := by rw [← l2, ← k2, e]
      refine r3 (min r (s + δ)) hb (min_le_left _ _) ?_
      rw [hm _ hb.le (le_refl _), hn _ hb.le (le_refl _), h2, hmn]
    · rw [← l3 s (le_refl _) hb.le, ← k3 s (le_refl _) hb.le, h2]

/-- `outer_minimum`. -/
theorem OnL.least (hc : ClearCut phi lines kinks) {p h : PL} (hp : OnL phi lines kinks p) (hh : OnL phi lines kinks h) :
    ∃ m, p.outerMinimum h = .ok m ∧ OnL phi lines kinks m ∧ ∀ t, phi ≤ t → m.fn t = min (p.fn t) (h.fn t) := by
  have hbend := hp.bend hh
  have he := eps_pos
  have hpair : PL.Pair p h phi ⊤ := by
    refine ⟨hp.wf, hh.wf, fun x hx _ => ⟨hp.inDom.mpr hx, hh.inDom.mpr hx⟩, fun t ht => (hp.turn t ht).1, fun t ht => (hh.turn t ht).1, ?_, ?_, ?_⟩
    · intro t ht _
      have htu : Turn phi lines kinks t := ht.elim (hp.turn t) (hh.turn t)
      obtain ⟨l, l1, l2⟩ := hp.sup t htu.1
      obtain ⟨l', k1, k2⟩ := hh.sup t htu.1
      rw [l2, k2]
      exact (hc.values t htu l l1 l' k1).imp id (fun h => by linarith)
    · intro i j m n hm hn
      exact (hp.slopes hc hh hm hn).imp id (fun h => by linarith)
    · intro s t hs ht
      exact hc.turns s t (hbend s hs) (hbend t ht)
  have hmem : phi ∈ p.times := head_mem hp.head
  obtain ⟨m, m1, m2, m3, m4, m5, m6, m7⟩ := PL.minimum_full hpair (by rw [hp.lo, hh.lo, max_self]) (by rw [hp.hi, hh.hi, min_self]) (WithTop.coe_lt_top _) (Or.inl hmem)
    (fun _ _ => le_top) (fun _ _ => le_top) (fun z _ => Or.inl (by rw [hp.last, hh.last]))
  obtain ⟨n1, n2, n3⟩ := m7 (by rw [hp.last, hh.last])
  refine ⟨m, by rw [PL.outer_same (by rw [hp.lo, hh.lo]) (by rw [hp.hi, hh.hi]), m1], ⟨m2, m3, m4, ?_, by rw [n1, hp.last], ?_, ?_, fun t ht => hbend t (n2 t ht)⟩, fun t ht => m5 t ht le_top⟩
  · have hpos := m2.pos
    have e : m.times.head? = some m.times[0] := by rw [List.head?_eq_getElem?, List.getElem?_eq_getElem hpos]
    have := head_phi m2 m3 e (by
      rcases n3 _ e with h | h
      · exact h _ hmem
      · exact h _ (head_mem hh.head))
    rw [e, this]
  · rcases m6 with e | e
    · rw [e]; exact hp.first
    · rw [e]; exact hh.first
  · intro t ht
    rw [m5 t ht le_top]
    rcases min_choice (p.fn t) (h.fn t) with e | e
    · rw [e]; exact hp.sup t ht
    · rw [e]; exact hh.sup t ht

/-! ### Relaxation -/

variable (phi kinks) in
/-- An arrival time function. -/
structure ArrFn (arr : ℚ → ℚ) (T : PL) : Prop where
  wf : T.WF
  lo : T.lo = (phi : WithBot ℚ)
  hi : T.hi = ⊤
  head : T.times.head? = some phi
  first : T.first = 1
  last : T.last = 1
  fn : ∀ t, phi ≤ t → T.fn t = arr t
  times : ∀ t ∈ T.times, t = phi ∨ t ∈ kinks
  later : ∀ t, phi ≤ t → t ≤ arr t
  order : ∀ s t, phi ≤ s → s ≤ t → arr s ≤ arr t

theorem ArrFn.inDom {arr : ℚ → ℚ} {T : PL} (h : ArrFn phi kinks arr T) {t : ℚ} : T.inDom t ↔ phi ≤ t := by
  unfold PL.inDom
  rw [h.lo, h.hi]
  simp only [le_top, and_true, WithBot.coe_le_coe]

theorem ArrFn.mono {arr : ℚ → ℚ} {T : PL} (h : ArrFn phi kinks arr T) : T.MonoOn := by
  intro x y hx hy hxy
  rw [h.inDom] at hx hy
  rw [h.fn x hx, h.fn y hy]
  exact h.order x y hx hxy

theorem ArrFn.restrict {arr : ℚ → ℚ} {T : PL} (h : ArrFn phi kinks arr T) : BF.restrict T phi ⊤ = .ok T := by
  have hw := h.wf
  have hp := hw.pos
  have hvl := hw.len
  have h0 : T.times[0] = phi := by
    have := h.head
    rw [List.head?_eq_getElem?, List.getElem?_eq_getElem hp] at this
    exact Option.some.inj this
  have hcnt : T.times.countP (· < phi) = 0 := by
    rw [List.countP_eq_zero]
    intro x hx
    have := (hw.dom x hx).1
    rw [h.lo, WithBot.coe_le_coe] at this
    simpa using this
  show BF.restrict T phi none = _
  unfold BF.restrict
  simp only
  rw [pyAssert_true ⟨by rw [h.lo], h.hi⟩, ok_bind, elemRank_eq hw.le hw.ne, ok_bind, hcnt]
  simp only [Nat.cast_zero, zero_sub, neg_add_cancel]
  rw [PL.gradient_first hw, ok_bind, PL.gradient_last hw, ok_bind, if_pos (by omega)]
  simp only [Int.toNat_zero, List.drop_zero]
  have e : ((T.times.length : Int) - 1 + 1 - 0).toNat = T.times.length := by omega
  rw [e, List.take_of_length_le (le_refl _), List.take_of_length_le (by omega)]
  have hT : T = ⟨T.times, T.values, T.first, T.last, (phi : WithBot ℚ), ⊤⟩ := by
    rw [← h.lo, ← h.hi]
  rw [PL.new_ok (by rw [← hT]; exact hw), ← hT]

/-- Where a composition bends is a turn. -/
theorem ArrFn.cand {arr : ℚ → ℚ} {T p : PL} (h : ArrFn phi kinks arr T) (hk : ∀ t ∈ p.times, t = phi ∨ Kink phi p.fn t)
    (hs : ∀ t, phi ≤ t → ∃ l ∈ lines, p.fn (arr t) = lineAt l t) : ∀ t, PL.Cand p T t → Turn phi lines kinks t := by
  have hw := h.wf
  have hm := h.mono
  rintro t (h1 | h1 | ⟨h1, h2, h3⟩)
  · have hge := h.inDom.mp (hw.dom t h1)
    exact ⟨hge, (h.times t h1).imp id Or.inl⟩
  · rw [h.lo] at h1
    have := WithBot.coe_inj.mp h1
    subst this
    exact ⟨le_refl _, Or.inl rfl⟩
  · have hge := h.inDom.mp h1
    by_cases ht : t ∈ T.times
    · exact ⟨hge, (h.times t ht).imp id Or.inl⟩
    by_cases htx : t = phi
    · exact ⟨hge, Or.inl htx⟩
    have hlt : phi < t := lt_of_le_of_ne hge (Ne.symm htx)
    have hTt : T.fn t = arr t := h.fn t hge
    have hlat := h.later t hge
    rcases hk _ h2 with e | ⟨a, b, m, n, k1, k2, k3, k4, k5, k6⟩
    · rw [hTt] at e; linarith
    obtain ⟨δ, d1, d2⟩ := isolated T.times t
    -- T is affine around t
    obtain ⟨μ', hμ'⟩ := PL.fn_affine hw (a := t - δ) (b := t + δ) (by
      rintro y hy ⟨y1, y2⟩
      have := d2 y hy (fun e => ht (e ▸ hy))
      rcases abs_cases (y - t) with ⟨e, _⟩ | ⟨e, _⟩ <;> linarith)
    obtain ⟨μ, hμ⟩ : ∃ μ, ∀ y, t - δ ≤ y → y ≤ t + δ → T.fn y = T.fn t + μ * (y - t) := by
      refine ⟨μ', fun y y1 y2 => ?_⟩
      rw [hμ' y y1 y2, hμ' t (by linarith) (by linarith)]; ring
    have hμpos : 0 < μ := by
      have hin : T.inDom (t + δ) := h.inDom.mpr (by linarith)
      have hle := hm t (t + δ) h1 hin (by linarith)
      have hv := hμ (t + δ) (by linarith) (le_refl _)
      have hne : T.fn (t + δ) ≠ T.fn t := by
        intro e
        have := h3 (t + δ) hin e
        linarith
      have h4 : 0 < μ * δ := by
        have : T.fn t < T.fn (t + δ) := lt_of_le_of_ne hle (Ne.symm hne)
        rw [hv] at this
        linarith
      exact (pos_iff_pos_of_mul_pos h4).mpr d1
    -- small neighbourhoods
    obtain ⟨η, e1, e2, e3, e4, e5⟩ : ∃ η, 0 < η ∧ η ≤ δ ∧ phi ≤ t - η ∧ μ * η ≤ T.fn t - a ∧ μ * η ≤ b - T.fn t := by
      have q1 : 0 < (T.fn t - a) / μ := div_pos (by linarith) hμpos
      have q2 : 0 < (b - T.fn t) / μ := div_pos (by linarith) hμpos
      refine ⟨min (min δ (t - phi)) (min ((T.fn t - a) / μ) ((b - T.fn t) / μ)), lt_min (lt_min d1 (by linarith)) (lt_min q1 q2), le_trans (min_le_left _ _) (min_le_left _ _), ?_, ?_, ?_⟩
      · have := le_trans (min_le_left (min δ (t - phi)) (min ((T.fn t - a) / μ) ((b - T.fn t) / μ))) (min_le_right _ _)
        linarith
      · have := le_trans (min_le_right (min δ (t - phi)) (min ((T.fn t - a) / μ) ((b - T.fn t) / μ))) (min_le_left _ _)
        rw [le_div_iff₀ hμpos] at this
        linarith
      · have := le_trans (min_le_right (min δ (t - phi)) (min ((T.fn t - a) / μ) ((b - T.fn t) / μ))) (min_le_right _ _)
        rw [le_div_iff₀ hμpos] at this
        linarith
    refine Kink.turn (F := fun y => p.fn (arr y)) ⟨t - η, t + η, m * μ, n * μ, e3, by linarith, by linarith, fun e => k4 (mul_right_cancel₀ hμpos.ne' e), ?_, ?_⟩ hs
    · intro y y1 y2
      simp only
      rw [← h.fn y (by linarith), ← hTt]
      have hy := hμ y (by linarith) (by linarith)
      have hb1 : μ * (t - y) ≤ μ * η := mul_le_mul_of_nonneg_left (by linarith) hμpos.le
      have hb2 : 0 ≤ μ * (t - y) := mul_nonneg hμpos.le (by linarith)
      rw [k5 _ (by rw [hy]; linarith) (by rw [hy]; linarith), hy]
      ring
    · intro y y1 y2
      simp only
      rw [← h.fn y (by linarith), ← hTt]
      have hy := hμ y (by linarith) (by linarith)
      have hb1 : μ * (y - t) ≤ μ * η := mul_le_mul_of_nonneg_left (by linarith) hμpos.le
      have hb2 : 0 ≤ μ * (y - t) := mul_nonneg hμpos.le (by linarith)
      rw [k6 _ (by rw [hy]; linarith) (by rw [hy]; linarith), hy]
      ring

theorem ArrFn.relax (hc : ClearCut phi lines kinks) {arr : ℚ → ℚ} {T p : PL} (h : ArrFn phi kinks arr T) (hp : OnL phi lines kinks p) (hk : ∀ t ∈ p.times, t = phi ∨ Kink phi p.fn t)
    (hs : ∀ t, phi ≤ t → ∃ l ∈ lines, p.fn (arr t) = lineAt l t) :
    ∃ r, relaxation T p = .ok (some r) ∧ OnL phi lines kinks r ∧ ∀ t, phi ≤ t → r.fn t = p.fn (arr t) := by
  have hw := h.wf
  have hpos := hw.pos
  have hm := h.mono
  have hvals := hm.values hw
  have hdom0 : T.inDom phi := h.inDom.mpr (le_refl _)
  -- the restriction is T
  obtain ⟨x, x1, x2, _, x4⟩ := PL.minTAbove_spec hw hm (b := phi) ⟨phi, hdom0, by rw [h.fn _ (le_refl _)]; exact h.later _ (le_refl _)⟩ (Or.inr (by rw [h.first]; exact one_pos))
  have hx : x = phi := le_antisymm (x4 phi hdom0 (by rw [h.fn _ (le_refl _)]; exact h.later _ (le_refl _))) (h.inDom.mp x2)
  subst hx
  obtain ⟨bot, b1, _⟩ := PL.evalLo_spec hw hm 0
  obtain ⟨top, t1, _⟩ := PL.evalHi_spec hw hm 0
  have hmax : maxTBelow T ⊤ = .ok (some ⊤) := by
    show maxTBelow T none = _
    unfold maxTBelow
    simp only
    rw [pyAssert_true ((PL.isMonotone_iff T).mpr hvals), ok_bind, b1, ok_bind, t1, ok_bind, h.hi]
    rfl
  have hcomp : ∀ t, x ≤ t → PL.comp p T t = p.fn (arr t) := fun t ht => by unfold PL.comp; rw [h.fn t ht]
  have hcand := h.cand hk hs
  obtain ⟨Lf, hLf⟩ := PL.slopes_exist T hw
  obtain ⟨Lg, hLg⟩ := PL.slopes_exist p hp.wf
  obtain ⟨r, r1, r2, r3, r4, r5, r6, r7, ⟨i, m, r8, r9⟩, r10⟩ := PL.compose_full (δ := 0) hp.wf hw hm (fun t ht => hp.inDom.mpr (by
      have := h.inDom.mp ht
      rw [h.fn t this]; exact le_trans this (h.later t this)))
    (by
      intro a ha
      rw [h.lo] at ha
      have := WithBot.coe_inj.mp ha
      subst this
      rw [h.fn _ (le_refl _)]
      exact h.later _ (le_refl _))
    (le_refl _) (by
      intro s t hs' ht hst hle
      rw [add_zero]
      by_contra hcon
      have := hc.turns s t (hcand s hs') (hcand t ht) (not_le.mp hcon)
      linarith) hLf hLg
  have hfn : ∀ t, x ≤ t → r.fn t = p.fn (arr t) := by
    intro t ht
    have := r6 t (h.inDom.mpr ht)
    rw [mul_zero] at this
    have := abs_nonpos_iff.mp this
    rw [← hcomp t ht]
    linarith
  refine ⟨r, ?_, ⟨r2, by rw [r3, h.lo], by rw [r4, h.hi], ?_, ?_, ?_, ?_, fun t ht => hcand t (r7 t ht)⟩, hfn⟩
  · unfold relaxation
    rw [hp.lo]
    show (do let x ← T.minTAbove x; _) = _
    rw [x1, ok_bind, hp.hi, hmax, ok_bind]
    show (do let r ← BF.restrict T x ⊤; let h ← p.compose r; pure (some h)) = _
    rw [h.restrict, ok_bind, r1, ok_bind]
    rfl
  · have hpos := r2.pos
    have e : r.times.head? = some r.times[0] := by rw [List.head?_eq_getElem?, List.getElem?_eq_getElem hpos]
    have := head_phi r2 (by rw [r3, h.lo]) e (r10 _ e _ (head_mem h.head))
    rw [e, this]
  · -- far behind
    let B := max (max (r.times.getLast r2.ne) (T.times.getLast hw.ne)) (max (p.times.getLast hp.wf.ne) x)
    have b1 : r.times.getLast r2.ne ≤ B := le_trans (le_max_left _ _) (le_max_left _ _)
    have b2 : T.times.getLast hw.ne ≤ B := le_trans (le_max_right _ _) (le_max_left _ _)
    have b3 : p.times.getLast hp.wf.ne ≤ B := le_trans (le_max_left _ _) (le_max_right _ _)
    have b4 : x ≤ B := le_trans (le_max_right _ _) (le_max_right _ _)
    have c1 : r.fn (B + 1) = r.fn B + r.last := by
      rw [PL.fn_right r2 b1, PL.fn_right r2 (by linarith)]; ring
    have c2 : T.fn (B + 1) = T.fn B + 1 := by
      rw [PL.fn_right hw b2, PL.fn_right hw (by linarith), h.last]; ring
    have c3 : B ≤ T.fn B := by rw [h.fn B b4]; exact h.later B b4
    have c4 : p.fn (T.fn B + 1) = p.fn (T.fn B) + 1 := by
      rw [PL.fn_right hp.wf (le_trans b3 c3), PL.fn_right hp.wf (by linarith), hp.last]; ring
    rw [hfn B b4, hfn (B + 1) (by linarith), ← h.fn B b4, ← h.fn (B + 1) (by linarith), c2, c4] at c1
    linarith
  · rw [r9, h.first, mul_one]
    exact hp.slope r8
  · intro t ht
    rw [hfn t ht]
    exact hs t ht

end BF
end Verif
