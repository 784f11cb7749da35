import Verif.Model.PLMin
import Verif.Proofs.PLCompose

/-! `minimum`. -/

set_option linter.unusedSimpArgs false
set_option linter.unusedSectionVars false

namespace Verif
namespace PL

/-- Between `p` and `s` there is no break point of index at least `i`, and those before are at most `p`. -/
theorem seg_affine {c : PL} (hc : c.WF) {i : Nat} (hi : i ≤ c.times.length) {p s : ℚ} (h1 : ∀ j (h : j < c.times.length), j < i → c.times[j] ≤ p)
    (h2 : ∀ j (h : j < c.times.length), i ≤ j → s ≤ c.times[j]) :
    ∃ m, c.gradient ((i : Int) - 1) = .ok m ∧ ∀ x, p ≤ x → x ≤ s → c.fn x = c.fn p + m * (x - p) := by
  obtain ⟨m, hm⟩ := gradient_ok hc (r := (i : Int) - 1) (by omega) (by omega)
  refine ⟨m, hm, fun x hx1 hx2 => fn_piece hc hm ⟨fun j hj e => ?_, fun j hj e => ?_⟩ ⟨fun j hj e => ?_, fun j hj e => ?_⟩⟩
  · exact le_trans (h1 j hj (by omega)) hx1
  · exact le_trans hx2 (h2 j hj (by omega))
  · exact h1 j hj (by omega)
  · exact le_trans (le_trans hx1 hx2) (h2 j hj (by omega))

/-- Where the minimum may bend: break points, and equal values with different values behind. -/
def Bend (f g : PL) (a : ℚ) (hi : WithTop ℚ) (s : ℚ) : Prop :=
  a ≤ s ∧ (s : WithTop ℚ) ≤ hi ∧
    (s ∈ f.times ∨ s ∈ g.times ∨ (f.fn s = g.fn s ∧ ∃ r, s < r ∧ (r : WithTop ℚ) ≤ hi ∧ ∀ x, s < x → x ≤ r → f.fn x ≠ g.fn x))

theorem Bend.symm {f g : PL} {a : ℚ} {hi : WithTop ℚ} {s : ℚ} (h : Bend f g a hi s) : Bend g f a hi s := by
  obtain ⟨h1, h2, h3⟩ := h
  refine ⟨h1, h2, ?_⟩
  rcases h3 with h | h | ⟨h, r, hr1, hr2, hr3⟩
  · exact Or.inr (Or.inl h)
  · exact Or.inl h
  · exact Or.inr (Or.inr ⟨h.symm, r, hr1, hr2, fun x p q => (hr3 x p q).symm⟩)

/-- Two functions on a common domain from `a` to `hi` without near misses. -/
structure Pair (f g : PL) (a : ℚ) (hi : WithTop ℚ) : Prop where
  wf : f.WF
  wg : g.WF
  dom : ∀ x : ℚ, a ≤ x → (x : WithTop ℚ) ≤ hi → f.inDom x ∧ g.inDom x
  gef : ∀ t ∈ f.times, a ≤ t
  geg : ∀ t ∈ g.times, a ≤ t
  vals : ∀ t, t ∈ f.times ∨ t ∈ g.times → (t : WithTop ℚ) ≤ hi → f.fn t = g.fn t ∨ eps < |f.fn t - g.fn t|
  slopes : ∀ i j m n, f.gradient i = .ok m → g.gradient j = .ok n → m = n ∨ eps < |m - n|
  bends : ∀ s t, Bend f g a hi s → Bend f g a hi t → s < t → s + eps < t

theorem Pair.symm {f g : PL} {a : ℚ} {hi : WithTop ℚ} (h : Pair f g a hi) : Pair g f a hi where
  wf := h.wg
  wg := h.wf
  dom := fun x p q => ⟨(h.dom x p q).2, (h.dom x p q).1⟩
  gef := h.geg
  geg := h.gef
  vals := by
    intro t ht hh
    rcases h.vals t ht.symm hh with e | e
    · exact Or.inl e.symm
    · rw [abs_sub_comm] at e; exact Or.inr e
  slopes := by
    intro i j m n hm hn
    rcases h.slopes j i n m hn hm with e | e
    · exact Or.inl e.symm
    · rw [abs_sub_comm] at e; exact Or.inr e
  bends := fun s t hs ht => h.bends s t hs.symm ht.symm

/-- The minimum. -/
def mn (f g : PL) (x : ℚ) : ℚ := min (f.fn x) (g.fn x)

theorem mn_symm (f g : PL) : mn f g = mn g f := by
  funext x; exact min_comm _ _

/-- What has been written when `q` is the last time. -/
structure Done (f g : PL) (a : ℚ) (hi : WithTop ℚ) (first : ℚ) (ts : List ℚ) (q : ℚ) : Prop where
  last : ts.getLast? = some q
  dom : ∀ t ∈ ts, a ≤ t ∧ (t : WithTop ℚ) ≤ hi
  bend : Bend f g a hi q
  links : ts.IsChain (fun s t => s + eps < t ∧ Aff (mn f g) s t)
  head : ∀ t, ts.head? = some t → ∀ x, a ≤ x → x ≤ t → mn f g x = mn f g t + first * (x - t)
  all : ∀ t ∈ ts, Bend f g a hi t
  start : ∀ t, ts.head? = some t → (∀ u ∈ f.times, t ≤ u) ∨ ∀ u ∈ g.times, t ≤ u

theorem Done.symm {f g : PL} {a : ℚ} {hi : WithTop ℚ} {first : ℚ} {ts : List ℚ} {q : ℚ} (h : Done f g a hi first ts q) : Done g f a hi first ts q := by
  refine ⟨h.last, h.dom, h.bend.symm, ?_, ?_, fun t ht => (h.all t ht).symm, fun t ht => (h.start t ht).symm⟩
  · rw [mn_symm]; exact h.links
  · rw [mn_symm]; exact h.head

/-- The invariant of the sweep: up to `p` everything has been seen, behind `q` nothing has been written and `c` is the minimum, without break points. -/
structure Inv (a : ℚ) (hi : WithTop ℚ) (first : ℚ) (s : Sweep) (p q : ℚ) : Prop where
  pair : Pair s.c s.o a hi
  icl : s.ic ≤ s.c.times.length
  iol : s.io ≤ s.o.times.length
  ca : ∀ j (h : j < s.c.times.length), s.ic ≤ j → p ≤ s.c.times[j]
  ob : ∀ j (h : j < s.o.times.length), j < s.io → s.o.times[j] ≤ p
  oa : ∀ j (h : j < s.o.times.length), s.io ≤ j → p ≤ s.o.times[j]
  cq : ∀ j (h : j < s.c.times.length), j < s.ic → s.c.times[j] ≤ q
  qa : a ≤ q
  qp : q ≤ p
  ph : (p : WithTop ℚ) ≤ hi
  le : ∀ x, q ≤ x → x ≤ p → s.c.fn x ≤ s.o.fn x
  wr : (s.ts = [] ∧ q = a ∧ s.ic = 0 ∧ s.c.first = first) ∨ Done s.c s.o a hi first s.ts q

variable {a : ℚ} {hi : WithTop ℚ} {first p q τ : ℚ} {c o : PL} {ic io : Nat} {ts : List ℚ}

theorem top_le {x y : ℚ} {h : WithTop ℚ} (hxy : x ≤ y) (hy : (y : WithTop ℚ) ≤ h) : (x : WithTop ℚ) ≤ h := le_trans (WithTop.coe_le_coe.mpr hxy) hy

/-- Writing a time up to which `c` is the minimum. -/
theorem push_done (h : Inv a hi first ⟨c, o, ic, io, ts⟩ p q) {s : ℚ} (hqs : q ≤ s) (hb : Bend c o a hi s) (hc : ∀ j (h : j < c.times.length), ic ≤ j → s ≤ c.times[j])
    (hle : ∀ x, q ≤ x → x ≤ s → c.fn x ≤ o.fn x) : Done c o a hi first (pushTime ts s) s := by
  obtain ⟨m, hm, haff⟩ := seg_affine h.pair.wf h.icl h.cq hc
  have hH : ∀ x, q ≤ x → x ≤ s → mn c o x = c.fn x := fun x h1 h2 => min_eq_left (hle x h1 h2)
  rcases h.wr with ⟨e1, e2, e3, e4⟩ | hd
  · simp only at e1 e2 e3 e4
    subst e1; subst e2; subst e3
    have hps : pushTime [] s = [s] := rfl
    rw [hps]
    refine ⟨rfl, by simpa using ⟨hb.1, hb.2.1⟩, hb, List.isChain_singleton _, ?_, by simpa using hb, ?_⟩
    swap
    · intro t ht
      simp only [List.head?_cons, Option.some.injEq] at ht
      subst ht
      left
      intro u hu
      obtain ⟨j, hj, rfl⟩ := List.getElem_of_mem hu
      exact hc j hj (Nat.zero_le _)
    intro t ht x hx1 hx2
    simp only [List.head?_cons, Option.some.injEq] at ht
    subst ht
    rw [hH x hx1 hx2, hH s hqs le_rfl]
    have hg : c.gradient ((0 : Nat) - 1 : Int) = .ok c.first := gradient_first h.pair.wf
    rw [hg] at hm
    injection hm with hm
    rw [haff x hx1 hx2, haff s hqs le_rfl, ← e4, ← hm]; ring
  · by_cases hl : q + eps < s
    · have hps : pushTime ts s = ts ++ [s] := by
        unfold pushTime isLater
        rw [hd.last]; simp [hl]
      rw [hps]
      have hne : ts ≠ [] := by
        intro e; rw [e] at hd; have := hd.last; simp at this
      refine ⟨by simp, ?_, hb, ?_, ?_, ?_, ?_⟩
      · intro t ht
        rw [List.mem_append, List.mem_singleton] at ht
        rcases ht with ht | rfl
        · exact hd.dom t ht
        · exact ⟨hb.1, hb.2.1⟩
      · rw [List.isChain_append]
        refine ⟨hd.links, List.isChain_singleton _, ?_⟩
        intro x hx y hy
        rw [hd.last] at hx
        simp only [Option.mem_def, Option.some.injEq, List.head?_cons] at hx hy
        subst hx; subst hy
        refine ⟨hl, m, fun x h1 h2 => ?_⟩
        rw [hH x h1 h2, hH q le_rfl hqs, haff x h1 h2]
      · intro t ht
        refine hd.head t ?_
        have : ts ≠ [] := by
          intro e; rw [e] at hd; have := hd.last; simp at this
        rw [List.head?_append_of_ne_nil _ this] at ht
        exact ht
      · intro t ht
        rw [List.mem_append, List.mem_singleton] at ht
        rcases ht with ht | rfl
        · exact hd.all t ht
        · exact hb
      · intro t ht
        rw [List.head?_append_of_ne_nil _ hne] at ht
        exact hd.start t ht
    · have hps : pushTime ts s = ts := by
        unfold pushTime isLater
        rw [hd.last]; simp [not_lt.mp hl]
      have : s = q := by
        rcases lt_or_eq_of_le hqs with h1 | h1
        · exact absurd (h.pair.bends q s hd.bend hb h1) hl
        · exact h1.symm
      rw [hps, this]; exact hd

/-- Two functions without break points from `p` to `τ`. -/
theorem lin_le {x0 x1 y0 y1 m n p τ x : ℚ} (h0 : x0 ≤ y0) (h1 : x1 ≤ y1) (e1 : x1 = x0 + m * (τ - p)) (e2 : y1 = y0 + n * (τ - p)) (hp : p ≤ x) (hx : x ≤ τ) :
    x0 + m * (x - p) ≤ y0 + n * (x - p) := by
  rcases le_or_gt m n with hmn | hmn
  · have := mul_le_mul_of_nonneg_right hmn (sub_nonneg.mpr hp)
    linarith
  · have h2 := mul_le_mul_of_nonneg_left (sub_le_sub_right hx p) (sub_nonneg.mpr hmn.le)
    have h3 : x0 + m * (τ - p) ≤ y0 + n * (τ - p) := by rw [← e1, ← e2]; exact h1
    nlinarith

theorem le_until (h : Inv a hi first ⟨c, o, ic, io, ts⟩ p q) (hpt : p ≤ τ) (hc : ∀ j (h : j < c.times.length), ic ≤ j → τ ≤ c.times[j])
    (ho : ∀ j (h : j < o.times.length), io ≤ j → τ ≤ o.times[j]) (hle : c.fn τ ≤ o.fn τ) : ∀ x, q ≤ x → x ≤ τ → c.fn x ≤ o.fn x := by
  intro x h1 h2
  rcases le_or_gt x p with h3 | h3
  · exact h.le x h1 h3
  obtain ⟨m, _, hm⟩ := seg_affine h.pair.wf h.icl (fun j hj e => le_trans (h.cq j hj e) h.qp) hc
  obtain ⟨n, _, hn⟩ := seg_affine h.pair.wg h.iol h.ob ho
  rw [hm x h3.le h2, hn x h3.le h2]
  exact lin_le (h.le p h.qp le_rfl) hle (hm τ hpt le_rfl) (hn τ hpt le_rfl) h3.le h2

/-- The next break point is one of `o`, and `c` stays below. -/
theorem adv_other (h : Inv a hi first ⟨c, o, ic, io, ts⟩ p q) (hio : io < o.times.length) (hc : ∀ j (h : j < c.times.length), ic ≤ j → o.times[io] ≤ c.times[j])
    (hh : (o.times[io] : WithTop ℚ) ≤ hi) (hle : c.fn o.times[io] ≤ o.fn o.times[io]) : Inv a hi first ⟨c, o, ic, io + 1, ts⟩ o.times[io] q := by
  have hpt := h.oa io hio le_rfl
  have hso : ∀ j (h : j < o.times.length), io ≤ j → o.times[io] ≤ o.times[j] := fun j hj e => getElem_le_of h.pair.wg.lt e hj
  refine ⟨h.pair, h.icl, hio, hc, ?_, ?_, h.cq, h.qa, le_trans h.qp hpt, hh, le_until h hpt hc hso hle, h.wr⟩
  · intro j hj e
    exact getElem_le_of h.pair.wg.lt (Nat.lt_succ_iff.mp e) hio
  · intro j hj e
    exact hso j hj (Nat.le_of_succ_le e)

/-- The next break point is one of `c`, which stays below. -/
theorem adv_min (h : Inv a hi first ⟨c, o, ic, io, ts⟩ p q) (hic : ic < c.times.length) (ho : ∀ j (h : j < o.times.length), io ≤ j → c.times[ic] ≤ o.times[j])
    (hh : (c.times[ic] : WithTop ℚ) ≤ hi) (hle : c.fn c.times[ic] ≤ o.fn c.times[ic]) : Inv a hi first ⟨c, o, ic + 1, io, pushTime ts c.times[ic]⟩ c.times[ic] c.times[ic] := by
  have hpt := h.ca ic hic le_rfl
  have hsc : ∀ j (h : j < c.times.length), ic ≤ j → c.times[ic] ≤ c.times[j] := fun j hj e => getElem_le_of h.pair.wf.lt e hj
  have hqt := le_trans h.qp hpt
  refine ⟨h.pair, hic, h.iol, fun j hj e => hsc j hj (Nat.le_of_succ_le e), fun j hj e => le_trans (h.ob j hj e) hpt, ho,
    fun j hj e => getElem_le_of h.pair.wf.lt (Nat.lt_succ_iff.mp e) hic, le_trans h.qa hqt, le_rfl, hh, ?_, Or.inr ?_⟩
  · intro x h1 h2
    rw [le_antisymm h2 h1]; exact hle
  · exact push_done h hqt ⟨le_trans h.qa hqt, hh, Or.inl (List.getElem_mem hic)⟩ hsc (le_until h hpt hsc ho hle)

/-- The other function gets below before `τ`. -/
theorem cross (h : Inv a hi first ⟨c, o, ic, io, ts⟩ p q) (hpt : p ≤ τ) (hc : ∀ j (h : j < c.times.length), ic ≤ j → τ ≤ c.times[j])
    (ho : ∀ j (h : j < o.times.length), io ≤ j → τ ≤ o.times[j]) (hh : (τ : WithTop ℚ) ≤ hi) (hlt : o.fn τ < c.fn τ) :
    ∃ ts' t, addCrossing c o ic io τ (c.fn τ) (o.fn τ) ts = .ok ts' ∧ Inv a hi first ⟨o, c, io, ic, ts'⟩ t t := by
  obtain ⟨m, hm, hma⟩ := seg_affine h.pair.wf h.icl (fun j hj e => le_trans (h.cq j hj e) h.qp) hc
  obtain ⟨n, hn, hna⟩ := seg_affine h.pair.wg h.iol h.ob ho
  have h0 := h.le p h.qp le_rfl
  simp only at h0
  have e1 := hma τ hpt le_rfl
  have e2 := hna τ hpt le_rfl
  have hd : n < m := by
    by_contra hcon
    have := mul_le_mul_of_nonneg_right (not_lt.mp hcon) (sub_nonneg.mpr hpt)
    linarith
  have hd2 : m - n > eps := by
    rcases h.pair.slopes _ _ m n hm hn with e | e
    · linarith
    · rwa [abs_of_pos (sub_pos.mpr hd)] at e
  have hdp : 0 < m - n := sub_pos.mpr hd
  obtain ⟨t, ht⟩ : ∃ t, t = τ + (o.fn τ - c.fn τ) / (m - n) := ⟨_, rfl⟩
  have hmul : (t - τ) * (m - n) = o.fn τ - c.fn τ := by
    rw [ht, add_sub_cancel_left, div_mul_cancel₀ _ hdp.ne']
  have htt : t < τ := by
    by_contra hcon
    have := mul_nonneg (sub_nonneg.mpr (not_lt.mp hcon)) hdp.le
    linarith
  have hpt' : p ≤ t := by
    by_contra hcon
    have := mul_lt_mul_of_pos_right (sub_lt_sub_right (not_le.mp hcon) τ) hdp
    nlinarith
  have hceq : c.fn t = o.fn t := by
    rw [hma t hpt' htt.le, hna t hpt' htt.le]
    nlinarith
  have hafter : ∀ x, t < x → x ≤ τ → o.fn x < c.fn x := by
    intro x h1 h2
    have hx1 := hma x (le_trans hpt' h1.le) h2
    have hx2 := hna x (le_trans hpt' h1.le) h2
    have ht1 := hma t hpt' htt.le
    have ht2 := hna t hpt' htt.le
    have := mul_pos (sub_pos.mpr h1) hdp
    nlinarith
  have hth := top_le htt.le hh
  have hbend : Bend c o a hi t := ⟨le_trans (le_trans h.qa h.qp) hpt', hth, Or.inr (Or.inr ⟨hceq, τ, htt, hh, fun x h1 h2 => (hafter x h1 h2).ne'⟩)⟩
  have hct : ∀ j (h : j < c.times.length), ic ≤ j → t ≤ c.times[j] := fun j hj e => le_trans htt.le (hc j hj e)
  have hot : ∀ j (h : j < o.times.length), io ≤ j → t ≤ o.times[j] := fun j hj e => le_trans htt.le (ho j hj e)
  refine ⟨pushTime ts t, t, ?_, h.pair.symm, h.iol, h.icl, hot, fun j hj e => le_trans (le_trans (h.cq j hj e) h.qp) hpt', hct, fun j hj e => le_trans (h.ob j hj e) hpt',
    hbend.1, le_rfl, hth, ?_, Or.inr ?_⟩
  · unfold addCrossing
    rw [hm, ok_bind, hn, ok_bind, if_pos hd2, ← ht]; rfl
  · intro x h1 h2
    rw [le_antisymm h2 h1]; exact hceq.ge
  · exact (push_done h (le_trans h.qp hpt') hbend hct (le_until h hpt' hct hot hceq.le)).symm

/-- The choice of the next break point. -/
theorem next_ok (hc : c.WF) (ho : o.WF) (hmore : ic < c.times.length ∨ io < o.times.length) :
    (∃ hio : io < o.times.length, nextIsOther c o ic io = .ok true ∧ ∀ j (h : j < c.times.length), ic ≤ j → o.times[io] ≤ c.times[j]) ∨
    (∃ hic : ic < c.times.length, nextIsOther c o ic io = .ok false ∧ ∀ j (h : j < o.times.length), io ≤ j → c.times[ic] ≤ o.times[j]) := by
  unfold nextIsOther
  by_cases h1 : io ≥ o.times.length
  · rw [if_pos h1]
    right
    exact ⟨by omega, rfl, fun j hj e => by omega⟩
  rw [if_neg h1]
  by_cases h2 : ic ≥ c.times.length
  · rw [if_pos h2]
    left
    exact ⟨by omega, rfl, fun j hj e => by omega⟩
  rw [if_neg h2, rd_lt _ _ (not_le.mp h1), ok_bind, rd_lt _ _ (not_le.mp h2), ok_bind]
  by_cases h3 : o.times[io]'(not_le.mp h1) ≤ c.times[ic]'(not_le.mp h2)
  · left
    refine ⟨not_le.mp h1, by simp [h3, py_pure], fun j hj e => le_trans h3 (getElem_le_of hc.lt e hj)⟩
  · right
    refine ⟨not_le.mp h2, by simp [h3, py_pure], fun j hj e => le_trans (not_le.mp h3).le (getElem_le_of ho.lt e hj)⟩

/-- The sweep goes on with the same functions, maybe swapped. -/
def Sweep.Same (s s' : Sweep) : Prop := (s'.c = s.c ∧ s'.o = s.o) ∨ (s'.c = s.o ∧ s'.o = s.c)

theorem Sweep.Same.trans {s s' s'' : Sweep} (h1 : s.Same s') (h2 : s'.Same s'') : s.Same s'' := by
  unfold Sweep.Same at *
  rcases h1 with ⟨e1, e2⟩ | ⟨e1, e2⟩ <;> rcases h2 with ⟨e3, e4⟩ | ⟨e3, e4⟩ <;> rw [e3, e4, e1, e2] <;> simp

/-- Break points that are left. -/
def Sweep.left (s : Sweep) : Nat := (s.c.times.length - s.ic) + (s.o.times.length - s.io)

/-- All break points up to the end of the domain have been seen. -/
def Sweep.AllSeen (s : Sweep) (hi : WithTop ℚ) : Prop :=
  (∀ j (h : j < s.c.times.length), s.ic ≤ j → hi < (s.c.times[j] : WithTop ℚ)) ∧ ∀ j (h : j < s.o.times.length), s.io ≤ j → hi < (s.o.times[j] : WithTop ℚ)

/-- One round. -/
theorem step_ok {s : Sweep} (h : Inv a hi first s p q) (hmore : s.ic < s.c.times.length ∨ s.io < s.o.times.length) :
    (minStep hi s = .ok none ∧ s.AllSeen hi) ∨
    ∃ s' p' q', minStep hi s = .ok (some s') ∧ Inv a hi first s' p' q' ∧ (p' ∈ s.c.times ∨ p' ∈ s.o.times) ∧ s.Same s' ∧ s'.left + 1 = s.left := by
  obtain ⟨c, o, ic, io, ts⟩ := s
  simp only at hmore
  unfold minStep
  simp only
  rcases next_ok h.pair.wf h.pair.wg hmore with ⟨hio, hn, hbef⟩ | ⟨hic, hn, hbef⟩
  · simp only at hn hbef hio
    rw [hn, ok_bind]
    simp only [if_true]
    rw [rd_lt _ _ hio, ok_bind]
    have hso : ∀ j (h : j < o.times.length), io ≤ j → o.times[io] ≤ o.times[j] := fun j hj e => getElem_le_of h.pair.wg.lt e hj
    by_cases hh : (o.times[io] : WithTop ℚ) > hi
    · rw [if_pos hh]
      left
      exact ⟨rfl, fun j hj e => lt_of_lt_of_le hh (WithTop.coe_le_coe.mpr (hbef j hj e)), fun j hj e => lt_of_lt_of_le hh (WithTop.coe_le_coe.mpr (hso j hj e))⟩
    rw [if_neg hh]
    have hh' := not_lt.mp hh
    right
    have hpt := h.oa io hio le_rfl
    have hd := h.pair.dom _ (h.pair.geg _ (List.getElem_mem hio)) hh'
    have hval : nextValues c o ic io true o.times[io] = .ok (c.fn o.times[io], o.fn o.times[io]) := by
      unfold nextValues
      rw [if_pos rfl, eval_eq h.pair.wf hd.1, ok_bind, rd_lt _ _ (by have := h.pair.wg.len; simp only at this; omega), ok_bind, py_pure, fn_time h.pair.wg io hio]
    rw [hval, ok_bind]
    simp only
    by_cases hlt : o.fn o.times[io] < c.fn o.times[io] - eps
    · rw [if_pos hlt]
      obtain ⟨ts', t, h1, h2⟩ := cross h hpt hbef hso hh' (lt_trans hlt (by linarith [eps_pos]))
      rw [h1, ok_bind]
      refine ⟨_, _, _, rfl, adv_min h2 hio hbef hh' (by linarith [eps_pos]), Or.inr (List.getElem_mem hio), Or.inr ⟨rfl, rfl⟩, ?_⟩
      unfold Sweep.left; simp only; omega
    · rw [if_neg hlt]
      have hle : c.fn o.times[io] ≤ o.fn o.times[io] := by
        rcases h.pair.vals _ (Or.inr (List.getElem_mem hio)) hh' with e | e
        · exact e.le
        · by_contra hcon
          rw [abs_of_pos (sub_pos.mpr (not_le.mp hcon))] at e
          linarith
      refine ⟨_, _, _, rfl, adv_other h hio hbef hh' hle, Or.inr (List.getElem_mem hio), Or.inl ⟨rfl, rfl⟩, ?_⟩
      unfold Sweep.left; simp only; omega
  · simp only at hn hbef hic
    rw [hn, ok_bind]
    simp only [if_false, Bool.false_eq_true]
    rw [rd_lt _ _ hic, ok_bind]
    have hsc : ∀ j (h : j < c.times.length), ic ≤ j → c.times[ic] ≤ c.times[j] := fun j hj e => getElem_le_of h.pair.wf.lt e hj
    by_cases hh : (c.times[ic] : WithTop ℚ) > hi
    · rw [if_pos hh]
      left
      exact ⟨rfl, fun j hj e => lt_of_lt_of_le hh (WithTop.coe_le_coe.mpr (hsc j hj e)), fun j hj e => lt_of_lt_of_le hh (WithTop.coe_le_coe.mpr (hbef j hj e))⟩
    rw [if_neg hh]
    have hh' := not_lt.mp hh
    right
    have hpt := h.ca ic hic le_rfl
    have hd := h.pair.dom _ (h.pair.gef _ (List.getElem_mem hic)) hh'
    have hval : nextValues c o ic io false c.times[ic] = .ok (c.fn c.times[ic], o.fn c.times[ic]) := by
      unfold nextValues
      rw [if_neg (by simp), eval_eq h.pair.wg hd.2, ok_bind, rd_lt _ _ (by have := h.pair.wf.len; simp only at this; omega), ok_bind, py_pure, fn_time h.pair.wf ic hic]
    rw [hval, ok_bind]
    simp only
    by_cases hlt : o.fn c.times[ic] < c.fn c.times[ic] - eps
    · rw [if_pos hlt]
      obtain ⟨ts', t, h1, h2⟩ := cross h hpt hsc hbef hh' (lt_trans hlt (by linarith [eps_pos]))
      rw [h1, ok_bind]
      refine ⟨_, _, _, rfl, adv_other h2 hic hbef hh' (by linarith [eps_pos]), Or.inl (List.getElem_mem hic), Or.inr ⟨rfl, rfl⟩, ?_⟩
      unfold Sweep.left; simp only; omega
    · rw [if_neg hlt]
      have hle : c.fn c.times[ic] ≤ o.fn c.times[ic] := by
        rcases h.pair.vals _ (Or.inl (List.getElem_mem hic)) hh' with e | e
        · exact e.le
        · by_contra hcon
          rw [abs_of_pos (sub_pos.mpr (not_le.mp hcon))] at e
          linarith
      refine ⟨_, _, _, rfl, adv_min h hic hbef hh' hle, Or.inl (List.getElem_mem hic), Or.inl ⟨rfl, rfl⟩, ?_⟩
      unfold Sweep.left; simp only; omega

/-- The sweep. -/
theorem loop_ok : ∀ (fuel : Nat) {s : Sweep} {p q : ℚ}, Inv a hi first s p q → s.left ≤ fuel → (p ∈ s.c.times ∨ p ∈ s.o.times) →
    ∃ s' p' q', minLoop hi fuel s = .ok s' ∧ Inv a hi first s' p' q' ∧ (p' ∈ s'.c.times ∨ p' ∈ s'.o.times) ∧ s.Same s' ∧ s'.AllSeen hi
  | 0, s, p, q, h, hf, hp => by
    refine ⟨s, p, q, rfl, h, hp, Or.inl ⟨rfl, rfl⟩, ?_⟩
    unfold Sweep.left at hf
    exact ⟨fun j hj e => by omega, fun j hj e => by omega⟩
  | fuel + 1, s, p, q, h, hf, hp => by
    unfold minLoop
    by_cases hmore : s.ic < s.c.times.length ∨ s.io < s.o.times.length
    · rw [if_pos hmore]
      rcases step_ok h hmore with ⟨h1, h2⟩ | ⟨s', p', q', h1, h2, h3, h4, h5⟩
      · rw [h1, ok_bind]
        exact ⟨s, p, q, rfl, h, hp, Or.inl ⟨rfl, rfl⟩, h2⟩
      · rw [h1, ok_bind]
        have hp' : p' ∈ s'.c.times ∨ p' ∈ s'.o.times := by
          rcases h4 with ⟨e1, e2⟩ | ⟨e1, e2⟩ <;> rw [e1, e2]
          · exact h3
          · exact h3.symm
        obtain ⟨s'', p'', q'', k1, k2, k3, k4, k5⟩ := loop_ok fuel h2 (by omega) hp'
        exact ⟨s'', p'', q'', k1, k2, k3, h4.trans k4, k5⟩
    · rw [if_neg hmore]
      refine ⟨s, p, q, rfl, h, hp, Or.inl ⟨rfl, rfl⟩, ?_⟩
      exact ⟨fun j hj e => by omega, fun j hj e => by omega⟩

/-- A function through points between which `H` is affine. -/
theorem path_wf {H : ℚ → ℚ} {ts : List ℚ} (last : ℚ) (hne : ts ≠ []) (hdom : ∀ t ∈ ts, a ≤ t ∧ (t : WithTop ℚ) ≤ hi)
    (hlinks : ts.IsChain (fun s t => s + eps < t ∧ Aff H s t)) : WF ⟨ts, ts.map H, first, last, (a : WithBot ℚ), hi⟩ := by
  refine ⟨by simp, hne, ?_, fun t ht => ⟨WithBot.coe_le_coe.mpr (hdom t ht).1, (hdom t ht).2⟩⟩
  rw [← gapped_iff]
  clear hdom hne
  induction ts with
  | nil => rfl
  | cons b l ih =>
    cases l with
    | nil => rfl
    | cons d l =>
      rw [List.isChain_cons_cons] at hlinks
      unfold gapped
      rw [ih hlinks.2, Bool.and_true, decide_eq_true_eq]
      linarith [hlinks.1.1]

theorem path_fn {H : ℚ → ℚ} {ts : List ℚ} {last : ℚ} (hlast : ts.getLast? = some q) (hdom : ∀ t ∈ ts, a ≤ t ∧ (t : WithTop ℚ) ≤ hi)
    (hlinks : ts.IsChain (fun s t => s + eps < t ∧ Aff H s t)) (hhead : ∀ t, ts.head? = some t → ∀ x, a ≤ x → x ≤ t → H x = H t + first * (x - t))
    (htail : ∀ x, q ≤ x → (x : WithTop ℚ) ≤ hi → H x = H q + last * (x - q)) :
    WF ⟨ts, ts.map H, first, last, (a : WithBot ℚ), hi⟩ ∧ ∀ x, a ≤ x → (x : WithTop ℚ) ≤ hi → fn ⟨ts, ts.map H, first, last, (a : WithBot ℚ), hi⟩ x = H x := by
  have hne : ts ≠ [] := by intro e; rw [e] at hlast; simp at hlast
  have hgl : ts.getLast hne = q := by
    rw [List.getLast?_eq_getLast_of_ne_nil hne] at hlast; simpa using hlast
  have hw : WF ⟨ts, ts.map H, first, last, (a : WithBot ℚ), hi⟩ := path_wf last hne hdom hlinks
  refine ⟨hw, fun x hx1 hx2 => ?_⟩
  have hpos : 0 < ts.length := hw.pos
  rcases le_or_gt x ts[0] with h0 | h0
  · have e := fn_left hw (x := x) hpos h0
    simp only [List.getElem_map] at e
    rw [e, hhead _ (by rw [List.head?_eq_getElem?, List.getElem?_eq_getElem]) x hx1 h0]; ring
  rcases le_or_gt q x with h1 | h1
  · have e := fn_right hw (x := x) (by simp only; rw [hgl]; exact h1)
    simp only [List.getLast_map, hgl] at e
    rw [e, htail x h1 hx2]; ring
  · have hle : ts.Pairwise (· ≤ ·) := hw.le
    have key := fun i hi => lt_countP_le_iff hle x i hi
    have hcl : ts.countP (· ≤ x) ≤ ts.length := List.countP_le_length
    have hc0 := (key 0 hpos).mpr h0.le
    have hcl' : ts.countP (· ≤ x) < ts.length := by
      rcases lt_or_eq_of_le hcl with h2 | h2
      · exact h2
      · have h3 := (key (ts.length - 1) (by omega)).mp (by omega)
        have h4 := getLast_idx hne (ts.length - 1) (by omega) (by omega)
        rw [hgl] at h4
        rw [← h4] at h3
        linarith
    obtain ⟨k, hk⟩ : ∃ k, ts.countP (· ≤ x) = k + 1 := ⟨_, (Nat.succ_pred_eq_of_pos hc0).symm⟩
    have hk1 : k + 1 < ts.length := by omega
    have a1 := (key k (by omega)).mp (by omega)
    have a2 : x < ts[k + 1] := by
      by_contra hcon
      have := (key (k + 1) hk1).mpr (not_lt.mp hcon)
      omega
    have e := fn_mid hw (x := x) k hk1 a1 a2.le
    simp only [List.getElem_map] at e
    obtain ⟨l1, m, l2⟩ := List.isChain_iff_getElem.mp hlinks k hk1
    have hkk : ts[k] < ts[k + 1] := by linarith
    rw [e, l2 x a1 a2.le, l2 ts[k + 1] hkk.le le_rfl]
    have : ts[k + 1] - ts[k] ≠ 0 := by linarith
    field_simp
    ring

/-- Behind the last break point. -/
theorem tail_ok (h : Inv a hi first ⟨c, o, ic, io, ts⟩ p q) (hd : Done c o a hi first ts q) (hs : Sweep.AllSeen ⟨c, o, ic, io, ts⟩ hi) {gm go : ℚ}
    (hgm : c.gradient ((ic : Int) - 1) = .ok gm) (hgo : o.gradient ((io : Int) - 1) = .ok go)
    (htail : gm ≤ go ∨ (q = p ∧ c.fn p < o.fn p ∧ ∀ t : ℚ, p < t → (t : WithTop ℚ) ≤ hi → c.fn t = o.fn t → p + eps < t)) :
    (minTail hi ⟨c, o, ic, io, ts⟩ = .ok (ts, c.last) ∧ ∀ x, q ≤ x → (x : WithTop ℚ) ≤ hi → c.fn x ≤ o.fn x) ∨
    ∃ t, minTail hi ⟨c, o, ic, io, ts⟩ = .ok (ts ++ [t], o.last) ∧ q + eps < t ∧ (t : WithTop ℚ) ≤ hi ∧ (∀ x, q ≤ x → x ≤ t → c.fn x ≤ o.fn x) ∧
      ∀ x, t ≤ x → (x : WithTop ℚ) ≤ hi → o.fn x ≤ c.fn x := by
  have hcx : ∀ x, p ≤ x → (x : WithTop ℚ) ≤ hi → c.fn x = c.fn p + gm * (x - p) := by
    intro x h1 h2
    obtain ⟨m, hm, hma⟩ := seg_affine h.pair.wf h.icl (s := x) (fun j hj e => le_trans (h.cq j hj e) h.qp) (fun j hj e => WithTop.coe_le_coe.mp (le_trans h2 (hs.1 j hj e).le))
    have : m = gm := by simp only at hm; rw [hm] at hgm; injection hgm
    rw [← this]; exact hma x h1 le_rfl
  have hox : ∀ x, p ≤ x → (x : WithTop ℚ) ≤ hi → o.fn x = o.fn p + go * (x - p) := by
    intro x h1 h2
    obtain ⟨m, hm, hma⟩ := seg_affine h.pair.wg h.iol (s := x) h.ob (fun j hj e => WithTop.coe_le_coe.mp (le_trans h2 (hs.2 j hj e).le))
    have : m = go := by simp only at hm; rw [hm] at hgo; injection hgo
    rw [← this]; exact hma x h1 le_rfl
  have hle := h.le p h.qp le_rfl
  simp only at hle
  have hlt : lastTime ts = .ok q := by unfold lastTime; rw [hd.last]
  have hstay : gm ≤ go → ∀ x, q ≤ x → (x : WithTop ℚ) ≤ hi → c.fn x ≤ o.fn x := by
    intro hg x h1 h2
    rcases le_or_gt x p with h3 | h3
    · exact h.le x h1 h3
    · rw [hcx x h3.le h2, hox x h3.le h2]
      have := mul_le_mul_of_nonneg_right hg (sub_nonneg.mpr h3.le)
      linarith
  have hqh : (q : WithTop ℚ) ≤ hi := hd.bend.2.1
  unfold minTail
  simp only
  rw [hlt, ok_bind]
  by_cases c1 : (q : WithTop ℚ) < hi
  swap
  · left
    rw [if_neg c1]
    refine ⟨rfl, fun x h1 h2 => h.le x h1 ?_⟩
    have : x ≤ q := WithTop.coe_le_coe.mp (le_trans h2 (not_lt.mp c1))
    exact le_trans this h.qp
  rw [if_pos c1, hgm, ok_bind, hgo, ok_bind]
  by_cases c2 : gm > go + eps
  swap
  · left
    rw [if_neg c2]
    refine ⟨rfl, hstay ?_⟩
    rcases h.pair.slopes _ _ _ _ hgm hgo with e | e
    · exact e.le
    · by_contra hcon
      rw [abs_of_pos (sub_pos.mpr (not_le.mp hcon))] at e
      linarith
  rw [if_pos c2]
  have hq := h.pair.dom q h.qa hqh
  rw [eval_eq h.pair.wf hq.1, ok_bind, eval_eq h.pair.wg hq.2, ok_bind]
  rcases htail with ht | ⟨rfl, ht1, ht2⟩
  · linarith [eps_pos]
  have hdp : 0 < gm - go := by linarith [eps_pos]
  obtain ⟨t, ht⟩ : ∃ t, t = q + (o.fn q - c.fn q) / (gm - go) := ⟨_, rfl⟩
  rw [← ht]
  have hmul : (t - q) * (gm - go) = o.fn q - c.fn q := by
    rw [ht, add_sub_cancel_left, div_mul_cancel₀ _ hdp.ne']
  have hqt : q < t := by
    by_contra hcon
    have := mul_le_mul_of_nonneg_right (sub_nonpos.mpr (not_lt.mp hcon)) hdp.le
    linarith
  have hsmall : ∀ x, q ≤ x → x ≤ t → (x : WithTop ℚ) ≤ hi → c.fn x ≤ o.fn x := by
    intro x h1 h2 h3
    rw [hcx x h1 h3, hox x h1 h3]
    have := mul_le_mul_of_nonneg_right (sub_le_sub_right h2 q) hdp.le
    linarith
  by_cases c3 : (t : WithTop ℚ) ≤ hi
  · have heq : c.fn t = o.fn t := by
      rw [hcx t hqt.le c3, hox t hqt.le c3]; linarith
    have hqt' := ht2 t hqt c3 heq
    right
    refine ⟨t, ?_, hqt', c3, fun x h1 h2 => hsmall x h1 h2 (top_le h2 c3), ?_⟩
    · rw [if_pos ⟨hqt', c3⟩]; rfl
    · intro x h1 h2
      rw [hcx x (le_trans hqt.le h1) h2, hox x (le_trans hqt.le h1) h2]
      have := mul_le_mul_of_nonneg_right (sub_le_sub_right h1 q) hdp.le
      linarith
  · left
    rw [if_neg (fun hh => c3 hh.2)]
    refine ⟨rfl, fun x h1 h2 => hsmall x h1 ?_ h2⟩
    exact WithTop.coe_le_coe.mp (le_trans h2 (not_le.mp c3).le)

theorem minValues_ok {f g : PL} (hp : Pair f g a hi) : ∀ {ts : List ℚ}, (∀ t ∈ ts, a ≤ t ∧ (t : WithTop ℚ) ≤ hi) → minValues f g ts = .ok (ts.map (mn f g))
  | [], _ => rfl
  | t :: rest, h => by
    have ht := h t (by simp)
    have hd := hp.dom t ht.1 ht.2
    unfold minValues
    rw [eval_eq hp.wf hd.1, ok_bind, eval_eq hp.wg hd.2, ok_bind, minValues_ok hp (fun x hx => h x (by simp [hx])), ok_bind]
    rfl

/-- The start and the sweep. -/
theorem sweep_ok {f g : PL} (hp : Pair f g a hi) (hah : (a : WithTop ℚ) ≤ hi) (ha : a ∈ f.times ∨ a ∈ g.times) :
    ∃ s0 s p q, minStart f g a = .ok s0 ∧ minLoop hi (f.times.length + g.times.length) s0 = .ok s ∧ Inv a hi s0.c.first s p q ∧ (p ∈ s.c.times ∨ p ∈ s.o.times) ∧
      Sweep.Same ⟨f, g, 0, 0, []⟩ s ∧ s.AllSeen hi := by
  have hd := hp.dom a le_rfl hah
  have key : ∀ c o : PL, Pair c o a hi → c.fn a ≤ o.fn a → Inv a hi c.first ⟨c, o, 0, 0, []⟩ a a := by
    intro c o hco hle
    refine ⟨hco, Nat.zero_le _, Nat.zero_le _, fun j hj _ => hco.gef _ (List.getElem_mem hj), fun j _ e => absurd e (Nat.not_lt_zero _), fun j hj _ => hco.geg _ (List.getElem_mem hj),
      fun j _ e => absurd e (Nat.not_lt_zero _), le_rfl, le_rfl, hah, ?_, Or.inl ⟨rfl, rfl, rfl, rfl⟩⟩
    intro x h1 h2
    rw [le_antisymm h2 h1]; exact hle
  unfold minStart
  rw [eval_eq hp.wf hd.1, ok_bind, eval_eq hp.wg hd.2, ok_bind]
  by_cases hlt : f.fn a < g.fn a
  · rw [if_pos hlt]
    obtain ⟨s, p, q, h1, h2, h3, h4, h5⟩ := loop_ok (f.times.length + g.times.length) (key f g hp hlt.le) (by unfold Sweep.left; simp) ha
    exact ⟨_, s, p, q, rfl, h1, h2, h3, h4, h5⟩
  · rw [if_neg hlt]
    obtain ⟨s, p, q, h1, h2, h3, h4, h5⟩ := loop_ok (f.times.length + g.times.length) (key g f hp.symm (not_lt.mp hlt)) (by unfold Sweep.left; simp; omega) ha.symm
    refine ⟨_, s, p, q, rfl, h1, h2, h3, ?_, h5⟩
    refine Sweep.Same.trans (s' := ⟨g, f, 0, 0, []⟩) (Or.inr ⟨rfl, rfl⟩) h4

/-- `c` is the smaller function behind `z`, at least at first. -/
def Wins (c o : PL) (hi : WithTop ℚ) (z : ℚ) : Prop :=
  c.fn z < o.fn z ∧ (c.last ≤ o.last ∨ z ∈ c.times ∧ ∀ t : ℚ, z < t → (t : WithTop ℚ) ≤ hi → c.fn t = o.fn t → z + eps < t)

/-- The last of the break points. -/
def IsLast (f g : PL) (z : ℚ) : Prop := (z ∈ f.times ∨ z ∈ g.times) ∧ (∀ t ∈ f.times, t ≤ z) ∧ ∀ t ∈ g.times, t ≤ z

theorem gradient_last' {f : PL} (h : f.WF) {i : Nat} (hi : i = f.times.length) : f.gradient ((i : Int) - 1) = .ok f.last := by
  subst hi; exact gradient_last h

/-- Behind the sweep. -/
theorem finish_ok (h : Inv a hi first ⟨c, o, ic, io, ts⟩ p q) (hp : p ∈ c.times ∨ p ∈ o.times) (hs : Sweep.AllSeen ⟨c, o, ic, io, ts⟩ hi)
    (hc : ∀ t ∈ c.times, (t : WithTop ℚ) ≤ hi) (ho : ∀ t ∈ o.times, (t : WithTop ℚ) ≤ hi)
    (htail : ∀ z, IsLast c o z → c.last = o.last ∨ Wins c o hi z ∨ Wins o c hi z) :
    ∃ ts' last, minTail hi ⟨c, o, ic, io, ts⟩ = .ok (ts', last) ∧ (∀ t ∈ ts', a ≤ t ∧ (t : WithTop ℚ) ≤ hi) ∧ (c.last = o.last → last = c.last ∧ (∀ t ∈ ts', Bend c o a hi t) ∧ ∀ t, ts'.head? = some t → (∀ u ∈ c.times, t ≤ u) ∨ ∀ u ∈ o.times, t ≤ u) ∧
      WF ⟨ts', ts'.map (mn c o), first, last, (a : WithBot ℚ), hi⟩ ∧
      ∀ x, a ≤ x → (x : WithTop ℚ) ≤ hi → fn ⟨ts', ts'.map (mn c o), first, last, (a : WithBot ℚ), hi⟩ x = mn c o x := by
  have hic : ic = c.times.length := by
    by_contra hne
    have hl : ic < c.times.length := lt_of_le_of_ne h.icl hne
    exact absurd (hc _ (List.getElem_mem hl)) (not_le.mpr (hs.1 ic hl le_rfl))
  have hio : io = o.times.length := by
    by_contra hne
    have hl : io < o.times.length := lt_of_le_of_ne h.iol hne
    exact absurd (ho _ (List.getElem_mem hl)) (not_le.mpr (hs.2 io hl le_rfl))
  have hcpos := h.pair.wf.pos
  simp only at hcpos
  have hd : Done c o a hi first ts q := by
    rcases h.wr with ⟨_, _, e, _⟩ | hd
    · simp only at e; omega
    · exact hd
  have hcq : ∀ t ∈ c.times, t ≤ q := by
    intro t ht
    obtain ⟨j, hj, rfl⟩ := List.getElem_of_mem ht
    exact h.cq j hj (by simp only; omega)
  have hop : ∀ t ∈ o.times, t ≤ p := by
    intro t ht
    obtain ⟨j, hj, rfl⟩ := List.getElem_of_mem ht
    exact h.ob j hj (by simp only; omega)
  have hlast : IsLast c o p := ⟨hp, fun t ht => le_trans (hcq t ht) h.qp, hop⟩
  have hgm := gradient_last' h.pair.wf hic
  have hgo := gradient_last' h.pair.wg hio
  simp only at hgm hgo
  have hle := h.le p h.qp le_rfl
  simp only at hle
  have hcl : ∀ x y, q ≤ x → q ≤ y → c.fn y = c.fn x + c.last * (y - x) := by
    intro x y hx hy
    have hgl := hcq _ (List.getLast_mem h.pair.wf.ne)
    have e1 := fn_right h.pair.wf (x := x) (le_trans hgl hx)
    have e2 := fn_right h.pair.wf (x := y) (le_trans hgl hy)
    simp only at e1 e2
    rw [e1, e2]; ring
  have hol : ∀ x y, p ≤ x → p ≤ y → o.fn y = o.fn x + o.last * (y - x) := by
    intro x y hx hy
    have hgl := hop _ (List.getLast_mem h.pair.wg.ne)
    have e1 := fn_right h.pair.wg (x := x) (le_trans hgl hx)
    have e2 := fn_right h.pair.wg (x := y) (le_trans hgl hy)
    simp only at e1 e2
    rw [e1, e2]; ring
  have hcond : c.last ≤ o.last ∨ (q = p ∧ c.fn p < o.fn p ∧ ∀ t : ℚ, p < t → (t : WithTop ℚ) ≤ hi → c.fn t = o.fn t → p + eps < t) := by
    rcases htail p hlast with e | ⟨e1, e2 | ⟨e2, e3⟩⟩ | e
    · exact Or.inl e.le
    · exact Or.inl e2
    · exact Or.inr ⟨le_antisymm h.qp (hcq p e2), e1, e3⟩
    · exact absurd e.1 (not_lt.mpr hle)
  rcases tail_ok h hd hs hgm hgo hcond with ⟨t1, t2⟩ | ⟨t, t1, t2, t3, t4, t5⟩
  · refine ⟨ts, c.last, t1, hd.dom, fun _ => ⟨rfl, hd.all, hd.start⟩, path_fn hd.last hd.dom hd.links hd.head ?_⟩
    intro x h1 h2
    unfold mn
    rw [min_eq_left (t2 x h1 h2), min_eq_left (t2 q le_rfl hd.bend.2.1)]
    exact hcl q x le_rfl h1
  · have hqt : q ≤ t := by linarith [eps_pos]
    have hdom : ∀ x ∈ ts ++ [t], a ≤ x ∧ (x : WithTop ℚ) ≤ hi := by
      intro x hx
      rw [List.mem_append, List.mem_singleton] at hx
      rcases hx with hx | rfl
      · exact hd.dom x hx
      · exact ⟨le_trans h.qa hqt, t3⟩
    refine ⟨_, _, t1, hdom, fun e => ?_, path_fn (q := t) (by simp) hdom ?_ ?_ ?_⟩
    · exfalso
      unfold minTail at t1
      simp only at t1
      rw [show lastTime ts = .ok q by unfold lastTime; rw [hd.last], ok_bind, hgm, ok_bind, hgo, ok_bind, if_neg (show ¬ c.last > o.last + eps by linarith [eps_pos])] at t1
      have : ts = ts ++ [t] := by
        split_ifs at t1 <;> (injection t1 with t1; exact (Prod.mk.inj t1).1)
      have := congrArg List.length this
      simp at this
    · rw [List.isChain_append]
      refine ⟨hd.links, List.isChain_singleton _, ?_⟩
      intro x hx y hy
      rw [hd.last] at hx
      simp only [Option.mem_def, Option.some.injEq, List.head?_cons] at hx hy
      subst hx; subst hy
      refine ⟨t2, c.last, fun x h1 h2 => ?_⟩
      unfold mn
      rw [min_eq_left (t4 x h1 h2), min_eq_left (t4 q le_rfl hqt)]
      exact hcl q x le_rfl h1
    · intro x hx
      refine hd.head x ?_
      have : ts ≠ [] := by
        intro e; rw [e] at hd; have := hd.last; simp at this
      rw [List.head?_append_of_ne_nil _ this] at hx
      exact hx
    · intro x h1 h2
      unfold mn
      rw [min_eq_right (t5 x h1 h2), min_eq_right (t5 t le_rfl t3)]
      have hqp : p ≤ t := by
        rcases hcond with e | e
        · -- no crossing is added then
          exfalso
          have h1 := t4 t hqt le_rfl
          unfold minTail at t1
          simp only at t1
          rw [show lastTime ts = .ok q by unfold lastTime; rw [hd.last], ok_bind, hgm, ok_bind, hgo, ok_bind, if_neg (show ¬ c.last > o.last + eps by linarith [eps_pos])] at t1
          have : ts = ts ++ [t] := by
            split_ifs at t1 <;> (injection t1 with t1; exact (Prod.mk.inj t1).1)
          have := congrArg List.length this
          simp at this
        · rw [← e.1]; exact hqt
      exact hol t x hqp (le_trans hqp h1)

theorem Wins.symm_or {f g : PL} {z : ℚ} (h : f.last = g.last ∨ Wins f g hi z ∨ Wins g f hi z) : g.last = f.last ∨ Wins g f hi z ∨ Wins f g hi z := by
  rcases h with h | h | h
  · exact Or.inl h.symm
  · exact Or.inr (Or.inr h)
  · exact Or.inr (Or.inl h)

theorem IsLast.symm {f g : PL} {z : ℚ} (h : IsLast f g z) : IsLast g f z := ⟨h.1.symm, h.2.2, h.2.1⟩

/-- `minimum`. -/
theorem minimum_full {f g : PL} (hp : Pair f g a hi) (hlo : max f.lo g.lo = (a : WithBot ℚ)) (hhi : min f.hi g.hi = hi) (hah : (a : WithTop ℚ) < hi) (ha : a ∈ f.times ∨ a ∈ g.times)
    (hf : ∀ t ∈ f.times, (t : WithTop ℚ) ≤ hi) (hg : ∀ t ∈ g.times, (t : WithTop ℚ) ≤ hi)
    (htail : ∀ z, IsLast f g z → f.last = g.last ∨ Wins f g hi z ∨ Wins g f hi z) :
    ∃ h, f.minimum g = .ok h ∧ h.WF ∧ h.lo = (a : WithBot ℚ) ∧ h.hi = hi ∧ (∀ x, a ≤ x → (x : WithTop ℚ) ≤ hi → h.fn x = min (f.fn x) (g.fn x)) ∧
      (h.first = f.first ∨ h.first = g.first) ∧
      (f.last = g.last → h.last = f.last ∧ (∀ t ∈ h.times, Bend f g a hi t) ∧ ∀ t, h.times.head? = some t → (∀ u ∈ f.times, t ≤ u) ∨ ∀ u ∈ g.times, t ≤ u) := by
  obtain ⟨s0, ⟨c, o, ic, io, ts⟩, p, q, h1, h2, h3, h4, h5, h6⟩ := sweep_ok hp hah.le ha
  have hends : endsLt (a : WithBot ℚ) hi = true := by
    cases hi with
    | top => rfl
    | coe b => exact decide_eq_true (WithTop.coe_lt_coe.mp hah)
  have fin : ∃ ts' last, minTail hi ⟨c, o, ic, io, ts⟩ = .ok (ts', last) ∧ (∀ t ∈ ts', a ≤ t ∧ (t : WithTop ℚ) ≤ hi) ∧
      (f.last = g.last → last = f.last ∧ (∀ t ∈ ts', Bend f g a hi t) ∧ ∀ t, ts'.head? = some t → (∀ u ∈ f.times, t ≤ u) ∨ ∀ u ∈ g.times, t ≤ u) ∧
      WF ⟨ts', ts'.map (mn f g), s0.c.first, last, (a : WithBot ℚ), hi⟩ ∧
      ∀ x, a ≤ x → (x : WithTop ℚ) ≤ hi → fn ⟨ts', ts'.map (mn f g), s0.c.first, last, (a : WithBot ℚ), hi⟩ x = mn f g x := by
    rcases h5 with ⟨e1, e2⟩ | ⟨e1, e2⟩
    · simp only at e1 e2
      subst e1; subst e2
      exact finish_ok h3 h4 h6 hf hg htail
    · simp only at e1 e2
      subst e1; subst e2
      rw [mn_symm]
      obtain ⟨ts', last, f1, f2, f0, f3⟩ := finish_ok h3 h4 h6 hg hf (fun z hz => Wins.symm_or (htail z hz.symm))
      refine ⟨ts', last, f1, f2, fun e => ?_, f3⟩
      obtain ⟨e1, e2, e3⟩ := f0 e.symm
      exact ⟨e1.trans e.symm, fun t ht => (e2 t ht).symm, fun t ht => (e3 t ht).symm⟩
  obtain ⟨ts', last, f1, f2, f0, f3, f4⟩ := fin
  have hfirst : s0.c.first = f.first ∨ s0.c.first = g.first := by
    unfold minStart at h1
    obtain ⟨x, _, h1⟩ := bind_eq_ok.mp h1
    obtain ⟨y, _, h1⟩ := bind_eq_ok.mp h1
    injection h1 with h1
    rw [← h1]
    split_ifs
    · exact Or.inl rfl
    · exact Or.inr rfl
  refine ⟨_, ?_, f3, rfl, rfl, f4, hfirst, f0⟩
  unfold minimum
  simp only
  rw [hlo, hhi, pyAssert_true hends, ok_bind]
  show (do pyAssert (a ∈ f.times ∨ a ∈ g.times); _) = _
  rw [pyAssert_true ha, ok_bind, h1, ok_bind, h2, ok_bind, f1, ok_bind]
  simp only
  rw [minValues_ok hp f2, ok_bind]
  exact new_ok f3

theorem minimum_ok {f g : PL} (hp : Pair f g a hi) (hlo : max f.lo g.lo = (a : WithBot ℚ)) (hhi : min f.hi g.hi = hi) (hah : (a : WithTop ℚ) < hi) (ha : a ∈ f.times ∨ a ∈ g.times)
    (hf : ∀ t ∈ f.times, (t : WithTop ℚ) ≤ hi) (hg : ∀ t ∈ g.times, (t : WithTop ℚ) ≤ hi)
    (htail : ∀ z, IsLast f g z → f.last = g.last ∨ Wins f g hi z ∨ Wins g f hi z) :
    ∃ h, f.minimum g = .ok h ∧ h.WF ∧ h.lo = (a : WithBot ℚ) ∧ h.hi = hi ∧ ∀ x, a ≤ x → (x : WithTop ℚ) ≤ hi → h.fn x = min (f.fn x) (g.fn x) := by
  obtain ⟨h, h1, h2, h3, h4, h5, _⟩ := minimum_full hp hlo hhi hah ha hf hg htail
  exact ⟨h, h1, h2, h3, h4, h5⟩

end PL
end Verif
