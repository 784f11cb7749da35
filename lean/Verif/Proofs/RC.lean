import Verif.Model.RightConstant
import Verif.Proofs.PLInt
import Verif.Spec.Functions

/-! Proofs about src/utilities/right_constant.py. -/

namespace Verif
namespace RC
open Verif.Spec

structure WF (f : RC) : Prop where
  len : f.values.length = f.times.length
  ne : f.times ≠ []
  lt : f.times.Pairwise (· < ·)
  dom : ∀ t ∈ f.times, f.lo ≤ (t : WithBot ℚ) ∧ (t : WithTop ℚ) ≤ f.hi

theorem WF.pos {f : RC} (h : f.WF) : 0 < f.times.length := List.length_pos_iff.mpr h.ne
theorem WF.le {f : RC} (h : f.WF) : f.times.Pairwise (· ≤ ·) := h.lt.imp le_of_lt
theorem WF.vne {f : RC} (h : f.WF) : f.values ≠ [] := by
  have := h.len; have := h.pos; intro e; simp [e] at *; omega

/-- Number of break points that are not later than `x`. -/
def cnt (f : RC) (x : ℚ) : Nat := f.times.countP (fun t => t ≤ x)

def idx (f : RC) (x : ℚ) : Nat := f.cnt x - 1

/-- The step function. -/
def fn (f : RC) (x : ℚ) : ℚ := f.values.getD (f.idx x) 0

theorem cnt_le (f : RC) (x : ℚ) : f.cnt x ≤ f.times.length := List.countP_le_length

theorem lt_cnt {f : RC} (h : f.WF) (x : ℚ) {i : Nat} (hi : i < f.times.length) :
    i < f.cnt x ↔ f.times[i] ≤ x := lt_countP_le_iff h.le x i hi

theorem cnt_mono (f : RC) {x y : ℚ} (hxy : x ≤ y) : f.cnt x ≤ f.cnt y := by
  unfold cnt
  apply List.countP_mono_left
  intro t _ ht
  simp only [decide_eq_true_eq] at ht ⊢
  exact le_trans ht hxy

theorem idx_mono (f : RC) {x y : ℚ} (hxy : x ≤ y) : f.idx x ≤ f.idx y := by
  have := f.cnt_mono hxy; unfold idx; omega

theorem idx_lt {f : RC} (h : f.WF) (x : ℚ) : f.idx x < f.times.length := by
  have := f.cnt_le x; have := h.pos; unfold idx; omega

theorem fn_eq_getElem {f : RC} (h : f.WF) (x : ℚ) :
    f.fn x = f.values[f.idx x]'(by rw [h.len]; exact idx_lt h x) := by
  unfold fn
  rw [List.getD_eq_getElem?_getD, List.getElem?_eq_getElem (by rw [h.len]; exact idx_lt h x)]; rfl

theorem fn_congr (f : RC) {x y : ℚ} (h : ∀ t ∈ f.times, t ≤ x ↔ t ≤ y) : f.fn x = f.fn y := by
  unfold fn idx cnt
  rw [List.countP_congr (q := fun t => decide (t ≤ y))]
  intro t ht; simpa using h t ht

theorem idx_on {f : RC} (h : f.WF) {i : Nat} (hi : i < f.times.length) {x : ℚ} (h1 : f.times[i] ≤ x)
    (h2 : ∀ h' : i + 1 < f.times.length, x < f.times[i + 1]) : f.idx x = i := by
  have a := (lt_cnt h x hi).mpr h1
  have b : ¬ (i + 1 < f.cnt x) := by
    intro hc
    have hl : i + 1 < f.times.length := lt_of_lt_of_le hc (f.cnt_le x)
    have := (lt_cnt h x hl).mp hc
    exact absurd (h2 hl) (not_lt.mpr this)
  unfold idx; omega

theorem fn_on {f : RC} (h : f.WF) {i : Nat} (hi : i < f.times.length) {x : ℚ} (h1 : f.times[i] ≤ x)
    (h2 : ∀ h' : i + 1 < f.times.length, x < f.times[i + 1]) :
    f.fn x = f.values[i]'(by rw [h.len]; exact hi) := by
  rw [fn_eq_getElem h]; simp only [idx_on h hi h1 h2]

theorem idx_before {f : RC} (h : f.WF) {x : ℚ} (hx : x ≤ f.times[0]'h.pos) : f.idx x = 0 := by
  have b : ¬ (1 < f.cnt x) := by
    intro hc
    have hl : 1 < f.times.length := lt_of_lt_of_le hc (f.cnt_le x)
    have := (lt_cnt h x hl).mp hc
    have h3 := List.pairwise_iff_getElem.mp h.lt 0 1 h.pos hl (by omega)
    linarith
  unfold idx; omega

theorem fn_before {f : RC} (h : f.WF) {x : ℚ} (hx : x ≤ f.times[0]'h.pos) :
    f.fn x = f.values[0]'(by rw [h.len]; exact h.pos) := by
  rw [fn_eq_getElem h]; simp only [idx_before h hx]

theorem fn_time {f : RC} (h : f.WF) {i : Nat} (hi : i < f.times.length) :
    f.fn f.times[i] = f.values[i]'(by rw [h.len]; exact hi) :=
  fn_on h hi le_rfl (fun h' => List.pairwise_iff_getElem.mp h.lt i (i + 1) hi h' (by omega))

theorem fn_last {f : RC} (h : f.WF) {x : ℚ} (hx : f.times.getLast h.ne ≤ x) :
    f.fn x = f.values.getLast h.vne := by
  have hp := h.pos
  rw [List.getLast_eq_getElem] at hx ⊢
  rw [fn_on h (i := f.times.length - 1) (by omega) hx (fun h' => by omega)]
  simp only [h.len]

/-- The principle by which a function is recognised as the step function of an object. -/
theorem fn_eq_of {f : RC} (h : f.WF) (F : ℚ → ℚ)
    (hv : ∀ (i : Nat) (hi : i < f.times.length), f.values[i]'(by rw [h.len]; exact hi) = F f.times[i])
    (hc : ∀ x y, (∀ t ∈ f.times, t ≤ x ↔ t ≤ y) → F x = F y)
    (hb : ∀ x, x ≤ f.times[0]'h.pos → F x = F (f.times[0]'h.pos)) (x : ℚ) : f.fn x = F x := by
  by_cases hx : x ≤ f.times[0]'h.pos
  · rw [fn_before h hx, hb x hx, hv]
  · have hi := idx_lt h x
    rw [fn_eq_getElem h, hv _ hi]
    apply hc
    intro t ht
    obtain ⟨j, hj, rfl⟩ := List.getElem_of_mem ht
    have h0 := (lt_cnt h x h.pos).mpr (le_of_lt (not_le.mp hx))
    rw [← lt_cnt h x hj]
    have : f.times[j] ≤ f.times[f.idx x] ↔ j ≤ f.idx x := by
      constructor
      · intro h1; by_contra hcn
        exact absurd (List.pairwise_iff_getElem.mp h.lt _ j hi hj (by omega)) (not_lt.mpr h1)
      · intro h1; exact PL.getElem_le_of h.lt h1 hi
    rw [this]; unfold idx; omega

theorem new_ok {f : RC} (h : f.WF) : new f.times f.values f.lo f.hi = .ok f := by
  unfold new
  rw [pyAssert_true h.len, ok_bind, pyAssert_true h.dom, ok_bind]; rfl

theorem elemLrank_cnt {f : RC} (h : f.WF) (x : ℚ) : elemLrank f.times x = .ok ((f.cnt x : Int) - 1) :=
  elemLrank_eq h.le h.ne x

theorem evalWithLrank_eq {f : RC} (h : f.WF) {x : ℚ} (hx : f.inDom x) :
    f.evalWithLrank x ((f.cnt x : Int) - 1) = .ok (f.fn x) := by
  have hl := f.cnt_le x
  have hvl : f.idx x < f.values.length := by rw [h.len]; exact idx_lt h x
  unfold evalWithLrank
  rw [pyAssert_true hx, ok_bind, pyAssert_true (by constructor <;> omega), ok_bind, elemLrank_cnt h, ok_bind,
    pyAssert_true rfl, ok_bind, fn_eq_getElem h]
  split
  · rename_i hc
    have e : f.idx x = 0 := by unfold idx; omega
    simp only [e] at hvl ⊢
    unfold rd; rw [List.getElem?_eq_getElem hvl]
  · rename_i hc
    have e : ((f.cnt x : Int) - 1) = ((f.idx x : Nat) : Int) := by unfold idx; omega
    rw [e]
    unfold rdI
    rw [if_pos (by omega)]
    unfold rd
    simp [List.getElem?_eq_getElem hvl]

theorem eval_eq {f : RC} (h : f.WF) {x : ℚ} (hx : f.inDom x) : f.eval x = .ok (f.fn x) := by
  unfold eval
  rw [pyAssert_true hx, ok_bind, elemLrank_cnt h, ok_bind, evalWithLrank_eq h hx]

theorem eval_err {f : RC} {x : ℚ} (hx : ¬ f.inDom x) : f.eval x = .error .assertion := by
  unfold eval
  rw [pyAssert_false hx, error_bind]

theorem fromEndLoop_eq {f : RC} (h : f.WF) (x : ℚ) (n : Nat) (hn : n ≤ f.times.length) (hc : f.cnt x ≤ n) :
    fromEndLoop f.times x n = .ok ((f.cnt x : Int) - 1) := by
  induction n with
  | zero => simp [fromEndLoop]; omega
  | succ n ih =>
    have hl : n < f.times.length := by omega
    simp only [fromEndLoop]
    have : rd f.times n = .ok f.times[n] := by unfold rd; rw [List.getElem?_eq_getElem hl]
    rw [this, ok_bind]
    have := lt_cnt h x hl
    split
    · exact ih (by omega) (by by_contra hcc; have := this.mp (by omega); rename_i hh; exact absurd hh (not_lt.mpr this))
    · rename_i hh
      have := this.mpr (not_lt.mp hh)
      show Except.ok _ = _
      congr 1; omega

theorem evalFromEnd_eq {f : RC} (h : f.WF) {x : ℚ} (hx : f.inDom x) : f.evalFromEnd x = .ok (f.fn x) := by
  unfold evalFromEnd
  rw [pyAssert_true hx, ok_bind, fromEndLoop_eq h x _ le_rfl (f.cnt_le x), ok_bind, evalWithLrank_eq h hx]

theorem advance_eq {f : RC} (h : f.WF) (x : ℚ) (fuel ptr : Nat) (hp : ptr ≤ f.idx x)
    (hf : f.times.length ≤ ptr + fuel) (hf0 : 0 < fuel) :
    advance f.times x fuel ptr = .ok (f.idx x) := by
  induction fuel generalizing ptr with
  | zero => omega
  | succ fuel ih =>
    simp only [advance]
    have hil := idx_lt h x
    split
    · rename_i hl
      have : rd f.times (ptr + 1) = .ok f.times[ptr + 1] := by unfold rd; rw [List.getElem?_eq_getElem hl]
      rw [this, ok_bind]
      have hc := lt_cnt h x hl
      split
      · rename_i hh
        have := hc.mpr hh
        exact ih _ (by unfold idx; omega) (by omega) (by omega)
      · rename_i hh
        have : ¬ (ptr + 1 < f.cnt x) := fun hcc => hh (hc.mp hcc)
        show Except.ok _ = _
        congr 1; unfold idx at *; omega
    · show Except.ok _ = _
      congr 1; omega

theorem rd_idx {f : RC} (h : f.WF) (x : ℚ) : rd f.values (f.idx x) = .ok (f.fn x) := by
  have hvl : f.idx x < f.values.length := by rw [h.len]; exact idx_lt h x
  unfold rd; rw [List.getElem?_eq_getElem hvl, fn_eq_getElem h]

theorem addLoop_eq {f g : RC} (hf : f.WF) (hg : g.WF) (xs : List ℚ) (hs : xs.Pairwise (· ≤ ·)) (p q : Nat)
    (hp : ∀ x ∈ xs, p ≤ f.idx x) (hq : ∀ x ∈ xs, q ≤ g.idx x) :
    addLoop f g xs p q = .ok (xs.map (fun x => f.fn x + g.fn x)) := by
  induction xs generalizing p q with
  | nil => rfl
  | cons x xs ih =>
    have hs' := List.pairwise_cons.mp hs
    simp only [addLoop]
    rw [advance_eq hf x _ _ (hp x (by simp)) (by omega) (by omega), ok_bind,
      advance_eq hg x _ _ (hq x (by simp)) (by omega) (by omega), ok_bind, rd_idx hf, ok_bind, rd_idx hg, ok_bind,
      ih hs'.2 _ _ (fun y hy => f.idx_mono (hs'.1 y hy)) (fun y hy => g.idx_mono (hs'.1 y hy)), ok_bind]
    rfl

theorem add_ok {f g : RC} (hf : f.WF) (hg : g.WF) (hlo : f.lo = g.lo) (hhi : f.hi = g.hi)
    (hsep : Apart eps (f.times ++ g.times)) :
    ∃ s, f.add g = .ok s ∧ s.WF ∧ s.lo = f.lo ∧ s.hi = f.hi ∧ (∀ x, s.fn x = f.fn x + g.fn x) ∧
      (∀ t, t ∈ s.times ↔ t ∈ f.times ∨ t ∈ g.times) := by
  have hm := mergeSorted_isMerge f.times g.times hf.le hg.le
  have hmem : ∀ t, t ∈ mergeSorted f.times g.times ↔ t ∈ f.times ∨ t ∈ g.times := by
    intro t; rw [hm.mem_iff hsep, List.mem_append]
  have hlt : (mergeSorted f.times g.times).Pairwise (· < ·) := PL.gap_lt hm.gaps
  have hne : mergeSorted f.times g.times ≠ [] := by
    obtain ⟨a, ha⟩ := List.exists_mem_of_ne_nil _ hf.ne
    exact List.ne_nil_of_mem ((hmem a).mpr (Or.inl ha))
  have hw : WF ⟨mergeSorted f.times g.times, (mergeSorted f.times g.times).map (fun x => f.fn x + g.fn x), f.lo, f.hi⟩ := by
    refine ⟨by simp, hne, hlt, ?_⟩
    intro t ht
    rcases (hmem t).mp ht with h | h
    · exact hf.dom t h
    · have := hg.dom t h; rw [← hlo, ← hhi] at this; exact this
  refine ⟨_, ?_, hw, rfl, rfl, ?_, hmem⟩
  · unfold add
    rw [pyAssert_true ⟨hlo, hhi⟩, ok_bind]
    simp only
    rw [show (addLoop f g (mergeSorted f.times g.times) 0 0) = _ from
        addLoop_eq hf hg _ (hlt.imp le_of_lt) 0 0 (fun _ _ => Nat.zero_le _) (fun _ _ => Nat.zero_le _), ok_bind]
    exact new_ok hw
  · refine fn_eq_of hw (fun x => f.fn x + g.fn x) ?_ ?_ ?_
    · intro i hi; simp
    · intro x y hxy
      show f.fn x + g.fn x = f.fn y + g.fn y
      rw [f.fn_congr (fun t ht => hxy t ((hmem t).mpr (Or.inl ht))),
        g.fn_congr (fun t ht => hxy t ((hmem t).mpr (Or.inr ht)))]
    · intro x hx
      have h0 := fun t (ht : t ∈ mergeSorted f.times g.times) => head_le hlt hw.pos ht
      have a1 := h0 _ ((hmem _).mpr (Or.inl (List.getElem_mem hf.pos)))
      have a2 := h0 _ ((hmem _).mpr (Or.inr (List.getElem_mem hg.pos)))
      show f.fn x + g.fn x = f.fn _ + g.fn _
      rw [fn_before hf (le_trans hx a1), fn_before hf a1, fn_before hg (le_trans hx a2), fn_before hg a2]

theorem advanceAll_eq (x : ℚ) (fs : List RC) (hf : ∀ f ∈ fs, f.WF) (ps : List Nat) (hl : ps.length = fs.length)
    (hp : ∀ (i : Nat) (h : i < fs.length) (h' : i < ps.length), ps[i] ≤ fs[i].idx x) :
    advanceAll x fs ps = .ok (fs.map (fun f => f.idx x)) := by
  induction fs generalizing ps with
  | nil => cases ps <;> rfl
  | cons f fs ih =>
    cases ps with
    | nil => simp at hl
    | cons p ps =>
      simp only [advanceAll]
      rw [advance_eq (hf f (by simp)) x _ p (hp 0 (by simp) (by simp)) (by omega) (by omega), ok_bind,
        ih (fun g hg => hf g (by simp [hg])) ps (by simpa using hl)
          (fun i h h' => hp (i + 1) (by simpa using h) (by simpa using h')), ok_bind]
      rfl

theorem sumAt_eq (x : ℚ) (fs : List RC) (hf : ∀ f ∈ fs, f.WF) :
    sumAt fs (fs.map (fun f => f.idx x)) = .ok (fs.map (fun f => f.fn x)).sum := by
  induction fs with
  | nil => rfl
  | cons f fs ih =>
    simp only [List.map_cons, sumAt]
    rw [rd_idx (hf f (by simp)), ok_bind, ih (fun g hg => hf g (by simp [hg])), ok_bind, List.sum_cons]
    rfl

theorem sumLoop_eq (fs : List RC) (hf : ∀ f ∈ fs, f.WF) (xs : List ℚ) (hs : xs.Pairwise (· ≤ ·)) (ps : List Nat)
    (hl : ps.length = fs.length)
    (hp : ∀ x ∈ xs, ∀ (i : Nat) (h : i < fs.length) (h' : i < ps.length), ps[i] ≤ fs[i].idx x) :
    sumLoop fs xs ps = .ok (xs.map (fun x => (fs.map (fun f => f.fn x)).sum)) := by
  induction xs generalizing ps with
  | nil => rfl
  | cons x xs ih =>
    have hs' := List.pairwise_cons.mp hs
    simp only [sumLoop]
    rw [advanceAll_eq x fs hf ps hl (hp x (by simp)), ok_bind, sumAt_eq x fs hf, ok_bind,
      ih hs'.2 _ (by simp) (fun y hy i h h' => by simpa using fs[i].idx_mono (hs'.1 y hy)), ok_bind]
    rfl

theorem sum_ok {fs : List RC} {lo : WithBot ℚ} {hi : WithTop ℚ} (hf : ∀ f ∈ fs, f.WF) (hne : fs ≠ [])
    (hd : ∀ f ∈ fs, ∀ t ∈ f.times, lo ≤ (t : WithBot ℚ) ∧ (t : WithTop ℚ) ≤ hi)
    (hsep : Apart eps (fs.map RC.times).flatten) :
    ∃ s, RC.sum fs lo hi = .ok s ∧ s.WF ∧ s.lo = lo ∧ s.hi = hi ∧
      (∀ x, s.fn x = (fs.map (fun f => f.fn x)).sum) ∧
      (∀ t, t ∈ s.times ↔ ∃ f ∈ fs, t ∈ f.times) := by
  obtain ⟨out, h1, hm⟩ := mergeSortedMany_isMerge (fs.map RC.times) (by
    intro l hl; obtain ⟨f, hff, rfl⟩ := List.mem_map.mp hl; exact (hf f hff).le)
  have hmem : ∀ t, t ∈ out ↔ ∃ f ∈ fs, t ∈ f.times := by
    intro t; rw [hm.mem_iff hsep]; simp
  have hlt : out.Pairwise (· < ·) := PL.gap_lt hm.gaps
  have hone : out ≠ [] := by
    obtain ⟨f, hff⟩ := List.exists_mem_of_ne_nil _ hne
    obtain ⟨a, ha⟩ := List.exists_mem_of_ne_nil _ (hf f hff).ne
    exact List.ne_nil_of_mem ((hmem a).mpr ⟨f, hff, ha⟩)
  have hw : WF ⟨out, out.map (fun x => (fs.map (fun f => f.fn x)).sum), lo, hi⟩ := by
    refine ⟨by simp, hone, hlt, ?_⟩
    intro t ht
    obtain ⟨f, hff, h⟩ := (hmem t).mp ht
    exact hd f hff t h
  refine ⟨_, ?_, hw, rfl, rfl, ?_, hmem⟩
  · unfold RC.sum
    rw [if_neg (by simpa using hne), h1, ok_bind,
      sumLoop_eq fs hf out (hlt.imp le_of_lt) _ (by simp) (by intros; simp), ok_bind]
    exact new_ok hw
  · refine fn_eq_of hw (fun x => (fs.map (fun f => f.fn x)).sum) ?_ ?_ ?_
    · intro i hi; simp
    · intro x y hxy
      show List.sum _ = List.sum _
      congr 1
      apply List.map_congr_left
      intro f hff
      exact f.fn_congr (fun t ht => hxy t ((hmem t).mpr ⟨f, hff, ht⟩))
    · intro x hx
      show List.sum _ = List.sum _
      congr 1
      apply List.map_congr_left
      intro f hff
      have h0 := fun t (ht : t ∈ out) => head_le hlt hw.pos ht
      have a1 := h0 _ ((hmem _).mpr ⟨f, hff, List.getElem_mem (hf f hff).pos⟩)
      rw [fn_before (hf f hff) (le_trans hx a1), fn_before (hf f hff) a1]

theorem neg_ok {f : RC} (h : f.WF) :
    ∃ g, f.neg = .ok g ∧ g.WF ∧ g.times = f.times ∧ g.lo = f.lo ∧ g.hi = f.hi ∧ ∀ x, g.fn x = - f.fn x := by
  have hw : WF ⟨f.times, f.values.map (fun v => -v), f.lo, f.hi⟩ := ⟨by simpa using h.len, h.ne, h.lt, h.dom⟩
  refine ⟨_, new_ok hw, hw, rfl, rfl, rfl, ?_⟩
  intro x
  rw [fn_eq_getElem hw, fn_eq_getElem h]
  simp only [List.getElem_map]
  rfl

theorem sub_ok {f g : RC} (hf : f.WF) (hg : g.WF) (hlo : f.lo = g.lo) (hhi : f.hi = g.hi)
    (hsep : Apart eps (f.times ++ g.times)) :
    ∃ s, f.sub g = .ok s ∧ s.WF ∧ s.lo = f.lo ∧ s.hi = f.hi ∧ (∀ x, s.fn x = f.fn x - g.fn x) ∧
      (∀ t, t ∈ s.times ↔ t ∈ f.times ∨ t ∈ g.times) := by
  obtain ⟨n, hn, hnw, ht, hl, hh, hfn⟩ := neg_ok hg
  obtain ⟨s, hs, a, b, c, d, e⟩ := add_ok hf hnw (by rw [hl, hlo]) (by rw [hh, hhi]) (by rw [ht]; exact hsep)
  refine ⟨s, ?_, a, b, c, ?_, ?_⟩
  · unfold sub; rw [hn, ok_bind, hs]
  · intro x; rw [d, hfn]; ring
  · intro t; rw [e, ht]

theorem extend_early {f : RC} (h : f.WF) {s v : ℚ} (hs : f.times.getLast h.ne - eps ≤ s)
    (hv : |f.values.getLast h.vne - v| ≤ eps) : f.extend s v = .ok f := by
  unfold extend
  rw [rdLast_eq _ h.ne, ok_bind, pyAssert_true hs, ok_bind, rdLast_eq _ h.vne, ok_bind, if_pos hv]; rfl

theorem dropLast_concat_last {l : List ℚ} (hne : l ≠ []) (v : ℚ) (i : Nat) (hi : i < (l.dropLast ++ [v]).length) :
    (l.dropLast ++ [v])[i] = if i = l.length - 1 then v else l[i]'(by simp at hi; have := List.length_pos_iff.mpr hne; omega) := by
  have hp := List.length_pos_iff.mpr hne
  simp at hi
  split
  · rename_i e; subst e; simp [List.getElem_append]
  · rename_i e
    rw [List.getElem_append_left (by simp; omega)]; simp

theorem extend_replace {f : RC} (h : f.WF) {s v : ℚ} (hs : s = f.times.getLast h.ne)
    (hv : ¬ |f.values.getLast h.vne - v| ≤ eps) :
    ∃ g, f.extend s v = .ok g ∧ g.WF ∧ g.times = f.times ∧ g.lo = f.lo ∧ g.hi = f.hi ∧
      (∀ x, f.times[0]'h.pos ≤ x → x < s → g.fn x = f.fn x) ∧ (∀ x, s ≤ x → g.fn x = v) := by
  have hep := eps_pos
  have hp := h.pos
  have hl := h.len
  have hvp : 0 < f.values.length := by omega
  have hw : WF { f with values := f.values.dropLast ++ [v] } :=
    ⟨by simp; omega, h.ne, h.lt, h.dom⟩
  refine ⟨_, ?_, hw, rfl, rfl, rfl, ?_, ?_⟩
  · unfold extend
    rw [rdLast_eq _ h.ne, ok_bind, pyAssert_true (by linarith), ok_bind, rdLast_eq _ h.vne, ok_bind, if_neg hv,
      if_pos (by rw [hs]; simp; linarith)]
    rfl
  · intro x hx0 hxs
    rw [fn_eq_getElem hw, fn_eq_getElem h]
    have e : (idx { f with values := f.values.dropLast ++ [v] } x) = f.idx x := rfl
    simp only [e]
    rw [dropLast_concat_last h.vne, if_neg]
    intro hc
    have hil := idx_lt h x
    have : f.times[f.idx x] ≤ x := by
      rw [← lt_cnt h x hil]
      have := (lt_cnt h x hp).mpr hx0
      unfold idx; omega
    have h2 : f.times.getLast h.ne = f.times[f.idx x] := by
      rw [List.getLast_eq_getElem]; congr 1; omega
    rw [h2] at hs; linarith
  · intro x hx
    rw [hs] at hx
    rw [fn_last hw hx]; simp

theorem extend_append {f : RC} (h : f.WF) {s v : ℚ} (hs : f.times.getLast h.ne + eps < s)
    (hhi : (s : WithTop ℚ) ≤ f.hi) (hv : ¬ |f.values.getLast h.vne - v| ≤ eps) :
    ∃ g, f.extend s v = .ok g ∧ g.WF ∧ g.times = f.times ++ [s] ∧ g.lo = f.lo ∧ g.hi = f.hi ∧
      (∀ x, x < s → g.fn x = f.fn x) ∧ (∀ x, s ≤ x → g.fn x = v) := by
  have hep := eps_pos
  have hp := h.pos
  have hl := h.len
  have hlast : ∀ t ∈ f.times, t < s := by
    intro t ht; have := le_getLast h.lt h.ne ht; linarith
  have hw : WF { f with times := f.times ++ [s], values := f.values ++ [v] } := by
    refine ⟨by simp [hl], by simp, ?_, ?_⟩
    · rw [List.pairwise_append]
      refine ⟨h.lt, by simp, ?_⟩
      intro a ha b hb
      simp at hb; subst hb; exact hlast a ha
    · intro t ht
      rcases List.mem_append.mp ht with ht | ht
      · exact h.dom t ht
      · simp at ht; subst ht
        refine ⟨?_, hhi⟩
        obtain ⟨a, ha⟩ := List.exists_mem_of_ne_nil _ h.ne
        exact le_trans (h.dom a ha).1 (WithBot.coe_le_coe.mpr (le_of_lt (hlast a ha)))
  refine ⟨_, ?_, hw, rfl, rfl, rfl, ?_, ?_⟩
  · unfold extend
    rw [rdLast_eq _ h.ne, ok_bind, pyAssert_true (by linarith), ok_bind, rdLast_eq _ h.vne, ok_bind, if_neg hv,
      if_neg (by rw [not_le, lt_abs]; left; linarith)]
    rfl
  · intro x hxs
    have e : (idx { f with times := f.times ++ [s], values := f.values ++ [v] } x) = f.idx x := by
      unfold idx cnt
      simp [not_le.mpr hxs]
    rw [fn_eq_getElem hw, fn_eq_getElem h]
    simp only [e]
    rw [List.getElem_append_left (by rw [hl]; exact idx_lt h x)]
  · intro x hx
    rw [fn_last hw (by simpa using hx)]; simp

/-! simplify -/

theorem idx_cons (t0 : ℚ) (ts vs : List ℚ) (lo : WithBot ℚ) (hi : WithTop ℚ) (x : ℚ) :
    cnt ⟨t0 :: ts, vs, lo, hi⟩ x = ts.countP (fun t => decide (t ≤ x)) + (if t0 ≤ x then 1 else 0) := by
  unfold cnt
  rw [List.countP_cons]; simp

theorem fn_cons2 {t0 t1 v0 v1 : ℚ} {ts vs : List ℚ} {lo : WithBot ℚ} {hi : WithTop ℚ}
    (h : WF ⟨t0 :: t1 :: ts, v0 :: v1 :: vs, lo, hi⟩) (x : ℚ) :
    fn ⟨t0 :: t1 :: ts, v0 :: v1 :: vs, lo, hi⟩ x = if x < t1 then v0 else fn ⟨t1 :: ts, v1 :: vs, lo, hi⟩ x := by
  have h01 : t0 < t1 := (List.pairwise_cons.mp h.lt).1 t1 (by simp)
  split
  · rename_i hx
    by_cases h0 : x ≤ t0
    · rw [fn_before h (by simpa using h0)]; simp
    · rw [fn_on h (i := 0) (by simp) (by simpa using le_of_lt (not_le.mp h0)) (fun _ => by simpa using hx)]; simp
  · rename_i hx
    have hx := not_lt.mp hx
    have e : idx ⟨t0 :: t1 :: ts, v0 :: v1 :: vs, lo, hi⟩ x = idx ⟨t1 :: ts, v1 :: vs, lo, hi⟩ x + 1 := by
      unfold idx cnt
      simp [List.countP_cons, hx, le_trans (le_of_lt h01) hx]
    unfold fn
    rw [e]
    rfl

theorem WF.tail {t0 t1 v0 v1 : ℚ} {ts vs : List ℚ} {lo : WithBot ℚ} {hi : WithTop ℚ}
    (h : WF ⟨t0 :: t1 :: ts, v0 :: v1 :: vs, lo, hi⟩) : WF ⟨t1 :: ts, v1 :: vs, lo, hi⟩ :=
  ⟨by simpa using h.len, by simp, (List.pairwise_cons.mp h.lt).2, fun t ht => h.dom t (by simp at ht ⊢; tauto)⟩

theorem simplifyLoop_ok {t0 v0 : ℚ} {ts vs : List ℚ} {lo : WithBot ℚ} {hi : WithTop ℚ}
    (h : WF ⟨t0 :: ts, v0 :: vs, lo, hi⟩)
    (hE : ∀ i (hi : i + 1 < (v0 :: vs).length), (v0 :: vs)[i] = (v0 :: vs)[i + 1] ∨
      1000 * eps ≤ |(v0 :: vs)[i] - (v0 :: vs)[i + 1]|) :
    WF ⟨t0 :: (simplifyLoop (t0 :: ts) (v0 :: vs)).1, v0 :: (simplifyLoop (t0 :: ts) (v0 :: vs)).2, lo, hi⟩ ∧
    (simplifyLoop (t0 :: ts) (v0 :: vs)).1.Sublist ts ∧
    ∀ x, fn ⟨t0 :: (simplifyLoop (t0 :: ts) (v0 :: vs)).1, v0 :: (simplifyLoop (t0 :: ts) (v0 :: vs)).2, lo, hi⟩ x
      = fn ⟨t0 :: ts, v0 :: vs, lo, hi⟩ x := by
  induction ts generalizing t0 v0 vs with
  | nil =>
    cases vs with
    | nil => exact ⟨h, by simp [simplifyLoop], fun x => rfl⟩
    | cons v1 vs => have := h.len; simp at this
  | cons t1 ts ih =>
    cases vs with
    | nil => have := h.len; simp at this
    | cons v1 vs =>
      have h01 : t0 < t1 := (List.pairwise_cons.mp h.lt).1 t1 (by simp)
      have d0 := h.dom t0 (by simp)
      obtain ⟨w, sub, eqf⟩ := ih h.tail (fun i hi => hE (i + 1) (by simpa using hi))
      simp only [simplifyLoop]
      generalize (simplifyLoop (t1 :: ts) (v1 :: vs)).1 = rt at *
      generalize (simplifyLoop (t1 :: ts) (v1 :: vs)).2 = rv at *
      have h1 := List.pairwise_cons.mp w.lt
      split
      · have w' : WF ⟨t0 :: t1 :: rt, v0 :: v1 :: rv, lo, hi⟩ := by
          refine ⟨by simpa using w.len, by simp, ?_, ?_⟩
          · rw [List.pairwise_cons]
            refine ⟨?_, w.lt⟩
            intro a ha
            rcases List.mem_cons.mp ha with rfl | ha
            · exact h01
            · exact lt_trans h01 (h1.1 a ha)
          · intro t ht
            rcases List.mem_cons.mp ht with rfl | ht
            · exact d0
            · exact w.dom t ht
        refine ⟨w', sub.cons_cons _, ?_⟩
        intro x
        simp only
        rw [fn_cons2 w', fn_cons2 h, eqf]
      · rename_i hne
        have e01 : v0 = v1 := by
          rcases hE 0 (by simp) with e | e
          · simpa using e
          · exact absurd (by simpa using e) hne
        have w' : WF ⟨t0 :: rt, v0 :: rv, lo, hi⟩ := by
          refine ⟨by simpa using w.len, by simp, ?_, ?_⟩
          · rw [List.pairwise_cons]
            exact ⟨fun a ha => lt_trans h01 (h1.1 a ha), h1.2⟩
          · intro t ht
            rcases List.mem_cons.mp ht with rfl | ht
            · exact d0
            · exact w.dom t (by simp [ht])
        refine ⟨w', sub.cons _, ?_⟩
        intro x
        simp only
        rw [fn_cons2 h, ← eqf]
        cases rt with
        | nil =>
          cases rv with
          | nil => simp [fn, idx, cnt, e01]; split <;> split <;> simp_all
          | cons => have := w.len; simp at this
        | cons r rt =>
          cases rv with
          | nil => have := w.len; simp at this
          | cons u rv =>
            have hr := h1.1 r (by simp)
            rw [fn_cons2 w', fn_cons2 w, e01]
            by_cases c1 : x < t1
            · rw [if_pos c1, if_pos (lt_trans c1 hr)]
            · rw [if_neg c1]

theorem simplify_ok {f : RC} (h : f.WF)
    (hE : ∀ i (hi : i + 1 < f.values.length), f.values[i] = f.values[i + 1] ∨ 1000 * eps ≤ |f.values[i] - f.values[i + 1]|) :
    ∃ g, f.simplify = .ok g ∧ g.WF ∧ g.lo = f.lo ∧ g.hi = f.hi ∧ g.times.Sublist f.times ∧
      g.times.head? = f.times.head? ∧ ∀ x, g.fn x = f.fn x := by
  obtain ⟨ts, vs, lo, hi⟩ := f
  cases ts with
  | nil => exact absurd rfl h.ne
  | cons t0 ts =>
    cases vs with
    | nil => have := h.len; simp at this
    | cons v0 vs =>
      obtain ⟨w, sub, e⟩ := simplifyLoop_ok h hE
      exact ⟨_, new_ok w, w, rfl, rfl, sub.cons_cons _, rfl, e⟩

/-! integral -/

theorem integralLoop_length (acc : ℚ) (ts vs : List ℚ) (h : vs.length = ts.length) :
    (integralLoop acc ts vs).length = ts.length := by
  induction ts generalizing acc vs with
  | nil => simp [integralLoop]
  | cons t0 ts ih =>
    cases vs with
    | nil => simp at h
    | cons v0 vs =>
      cases ts with
      | nil => simp [integralLoop]
      | cons t1 ts =>
        simp only [integralLoop, List.length_cons]
        rw [ih _ vs (by simpa using h)]; simp

theorem integralLoop_zero (acc : ℚ) (ts vs : List ℚ) (h : vs.length = ts.length)
    (h0 : 0 < (integralLoop acc ts vs).length) : (integralLoop acc ts vs)[0] = acc := by
  match ts, vs, h with
  | [], [], _ => simp [integralLoop] at h0
  | [_], [_], _ => simp [integralLoop]
  | _ :: _ :: _, _ :: _, _ => simp [integralLoop]

theorem integralLoop_step (acc : ℚ) (ts vs : List ℚ) (h : vs.length = ts.length) (i : Nat) (hi : i + 1 < ts.length) :
    (integralLoop acc ts vs)[i + 1]'(by rw [integralLoop_length _ _ _ h]; exact hi) =
      (integralLoop acc ts vs)[i]'(by rw [integralLoop_length _ _ _ h]; omega) + vs[i] * (ts[i + 1] - ts[i]) := by
  induction ts generalizing acc vs i with
  | nil => simp at hi
  | cons t0 ts ih =>
    cases vs with
    | nil => simp at h
    | cons v0 vs =>
      cases ts with
      | nil => simp at hi
      | cons t1 ts =>
        have hl : vs.length = (t1 :: ts).length := by simpa using h
        cases i with
        | zero =>
          simp only [integralLoop]
          simp only [List.getElem_cons_zero, List.getElem_cons_succ]
          rw [integralLoop_zero _ _ _ hl]
        | succ i =>
          have := ih (acc + v0 * (t1 - t0)) vs hl i (by simpa using hi)
          simpa only [integralLoop, List.getElem_cons_succ] using this

theorem integral_ok {f : RC} (h : f.WF) (hg : f.times.Pairwise (fun a b => a < b - eps))
    (hlo : f.lo = ((f.times[0]'h.pos : ℚ) : WithBot ℚ))
    (hhi : ((f.times.getLast h.ne + 1 : ℚ) : WithTop ℚ) ≤ f.hi) :
    ∃ F, f.integral = .ok F ∧ F.WF ∧ F.lo = f.lo ∧ F.hi = f.hi ∧ F.times = f.times ∧
      F.fn (f.times[0]'h.pos) = 0 ∧
      ∀ a b, f.times[0]'h.pos ≤ a → a ≤ b → (∀ t ∈ f.times, ¬ (a < t ∧ t < b)) →
        F.fn b - F.fn a = f.fn a * (b - a) := by
  have hp := h.pos
  have hl := h.len
  have hil := integralLoop_length 0 f.times f.values hl
  have hvp : 0 < f.values.length := by omega
  have hw : PL.WF ⟨f.times, integralLoop 0 f.times f.values, f.values[0], f.values.getLast h.vne, f.lo, f.hi⟩ :=
    ⟨hil, h.ne, hg, h.dom⟩
  refine ⟨_, ?_, hw, rfl, rfl, rfl, ?_, ?_⟩
  · unfold integral
    rw [rd_lt _ _ hp, ok_bind, rdLast_eq _ h.ne, ok_bind, pyAssert_true ⟨hlo.symm, hhi⟩, ok_bind,
      rd_lt _ _ hvp, ok_bind, rdLast_eq _ h.vne, ok_bind]
    exact PL.new_ok hw
  · rw [PL.fn_time hw 0 hp]
    exact integralLoop_zero _ _ _ hl _
  · intro a b ha hab hno
    have hi := idx_lt h a
    have hia : f.times[f.idx a] ≤ a := by
      rw [← lt_cnt h a hi]
      have := (lt_cnt h a hp).mpr ha
      unfold idx; omega
    have hmax : ∀ h1 : f.idx a + 1 < f.times.length, ¬ f.times[f.idx a + 1] ≤ a := by
      intro h1
      rw [← lt_cnt h a h1]
      unfold idx; omega
    rw [fn_on h hi hia (fun h' => not_le.mp (hmax h'))]
    revert hi hia hmax
    generalize f.idx a = i
    intro hi hia hmax
    by_cases h1 : i + 1 < f.times.length
    · have hc := hmax h1
      · have hb : b ≤ f.times[i + 1] := by
          by_contra hcc
          exact hno _ (List.getElem_mem h1) ⟨not_le.mp hc, not_le.mp hcc⟩
        rw [PL.fn_mid hw i h1 (le_trans hia hab) hb, PL.fn_mid hw i h1 hia (le_trans hab hb)]
        simp only
        rw [integralLoop_step 0 _ _ hl i h1]
        have hlt := PL.getElem_lt_of h.lt (show i < i + 1 by omega) h1
        have : f.times[i + 1] - f.times[i] ≠ 0 := by linarith
        field_simp
        ring
    · have e : f.times.getLast h.ne = f.times[i] := by
        rw [List.getLast_eq_getElem]; congr 1; omega
      have e2 : f.values.getLast h.vne = f.values[i]'(by omega) := by
        rw [List.getLast_eq_getElem]; congr 1; omega
      rw [PL.fn_right hw (by rw [e]; linarith), PL.fn_right hw (by rw [e]; linarith)]
      simp only [e2, e]
      ring

end RC
end Verif
