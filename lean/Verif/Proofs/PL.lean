import Verif.Model.PiecewiseLinear
import Verif.Proofs.Arrays
import Mathlib.Tactic.Linarith
import Mathlib.Tactic.Ring
import Mathlib.Tactic.FieldSimp

set_option linter.unusedSimpArgs false
set_option linter.unusedSectionVars false

namespace Verif

theorem rdI_nat {α : Type _} (l : List α) (n : Nat) : rdI l (n : Int) = rd l n := by
  simp [rdI]

theorem rdI_lt {α : Type _} (l : List α) (i : Int) (n : Nat) (h : i = n) (hl : n < l.length) :
    rdI l i = .ok l[n] := by
  subst h; rw [rdI_nat, rd_lt _ _ hl]

theorem rdLast_eq {α : Type _} (l : List α) (h : l ≠ []) : rdLast l = .ok (l.getLast h) := by
  simp [rdLast, List.getLast?_eq_some_getLast h]

namespace PL

/-- Well-formedness established by the constructor. -/
structure WF (f : PL) : Prop where
  len : f.values.length = f.times.length
  ne : f.times ≠ []
  gap : f.times.Pairwise (fun a b => a < b - eps)
  dom : ∀ t ∈ f.times, f.inDom t

theorem gapped_iff (l : List ℚ) : gapped l = true ↔ l.Pairwise (fun a b => a < b - eps) := by
  induction l with
  | nil => simp [gapped]
  | cons a l ih =>
    cases l with
    | nil => simp [gapped]
    | cons b l =>
      rw [gapped, Bool.and_eq_true, ih, decide_eq_true_eq]
      constructor
      · rintro ⟨h1, h2⟩
        rw [List.pairwise_cons]
        refine ⟨?_, h2⟩
        intro c hc
        rcases List.mem_cons.mp hc with rfl | hc
        · exact h1
        · have := (List.pairwise_cons.mp h2).1 c hc
          have := eps_pos
          linarith
      · intro h
        rw [List.pairwise_cons] at h
        exact ⟨h.1 b (by simp), h.2⟩

theorem new_eq_ok {ts vs : List ℚ} {a b : ℚ} {lo : WithBot ℚ} {hi : WithTop ℚ} {f : PL} :
    new ts vs a b lo hi = .ok f ↔ f = ⟨ts, vs, a, b, lo, hi⟩ ∧ WF f := by
  unfold new
  by_cases h1 : vs.length = ts.length ∧ ts.length ≥ 1
  · rw [pyAssert_true h1, ok_bind]
    by_cases h2 : ∀ t ∈ ts, lo ≤ (t : WithBot ℚ) ∧ (t : WithTop ℚ) ≤ hi
    · rw [pyAssert_true h2, ok_bind]
      by_cases h3 : gapped ts = true
      · rw [pyAssert_true h3, ok_bind, py_pure]
        constructor
        · intro h
          injection h with h
          refine ⟨h.symm, ?_⟩
          subst h
          exact ⟨h1.1, by rintro rfl; simp at h1, (gapped_iff _).mp h3, h2⟩
        · rintro ⟨rfl, _⟩; rfl
      · rw [pyAssert_false h3, error_bind]
        constructor
        · intro h; simp at h
        · rintro ⟨rfl, h⟩; exact absurd ((gapped_iff _).mpr h.gap) h3
    · rw [pyAssert_false h2, error_bind]
      constructor
      · intro h; simp at h
      · rintro ⟨rfl, h⟩; exact absurd h.dom h2
  · rw [pyAssert_false h1, error_bind]
    constructor
    · intro h; simp at h
    · rintro ⟨rfl, h⟩
      exact absurd ⟨h.len, List.length_pos_of_ne_nil h.ne⟩ h1

theorem new_ok {ts vs : List ℚ} {a b : ℚ} {lo : WithBot ℚ} {hi : WithTop ℚ}
    (h : WF ⟨ts, vs, a, b, lo, hi⟩) : new ts vs a b lo hi = .ok ⟨ts, vs, a, b, lo, hi⟩ :=
  new_eq_ok.mpr ⟨rfl, h⟩

theorem WF.lt {f : PL} (h : f.WF) : f.times.Pairwise (· < ·) :=
  h.gap.imp (fun {a b} hab => by have := eps_pos; linarith)

theorem WF.le {f : PL} (h : f.WF) : f.times.Pairwise (· ≤ ·) := h.lt.imp le_of_lt

/-- The function after the first break point. -/
def seg (ls : ℚ) : ℚ → ℚ → List ℚ → List ℚ → ℚ → ℚ
  | t0, v0, t1 :: ts, v1 :: vs, x =>
    if x ≤ t1 then v0 + (x - t0) * ((v1 - v0) / (t1 - t0)) else seg ls t1 v1 ts vs x
  | t0, v0, _, _, x => v0 + (x - t0) * ls

/-- The total function a well-formed `PiecewiseLinear` stands for (ignoring the domain). -/
def fn (f : PL) (x : ℚ) : ℚ :=
  match f.times, f.values with
  | t0 :: ts, v0 :: vs => if x ≤ t0 then v0 + (x - t0) * f.first else seg f.last t0 v0 ts vs x
  | _, _ => 0

theorem getElem_lt_of {l : List ℚ} (h : l.Pairwise (· < ·)) {i j : Nat} (hij : i < j) (hj : j < l.length) :
    l[i] < l[j] := List.pairwise_iff_getElem.mp h i j (by omega) hj hij

theorem getElem_le_of {l : List ℚ} (h : l.Pairwise (· < ·)) {i j : Nat} (hij : i ≤ j) (hj : j < l.length) :
    l[i] ≤ l[j] := by
  rcases Nat.lt_or_eq_of_le hij with h1 | h1
  · exact le_of_lt (getElem_lt_of h h1 hj)
  · subst h1; exact le_rfl

theorem seg_piece (ls : ℚ) (ts vs : List ℚ) (t0 v0 x : ℚ) (hlen : vs.length = ts.length)
    (hlt : (t0 :: ts).Pairwise (· < ·)) (i : Nat) (hi : i + 1 < (t0 :: ts).length)
    (h1 : (t0 :: ts)[i] ≤ x) (h2 : x ≤ (t0 :: ts)[i + 1]) :
    seg ls t0 v0 ts vs x = (v0 :: vs)[i]'(by simp at hi ⊢; omega) +
      (x - (t0 :: ts)[i]) * (((v0 :: vs)[i + 1]'(by simp at hi ⊢; omega) - (v0 :: vs)[i]'(by simp at hi ⊢; omega)) /
        ((t0 :: ts)[i + 1] - (t0 :: ts)[i])) := by
  induction ts generalizing t0 v0 vs i with
  | nil => simp at hi
  | cons t1 ts ih =>
    cases vs with
    | nil => simp at hlen
    | cons v1 vs =>
      rw [seg]
      have hpos : t0 < t1 := by
        rw [List.pairwise_cons] at hlt; exact hlt.1 t1 (by simp)
      cases i with
      | zero =>
        simp only [List.getElem_cons_succ, List.getElem_cons_zero] at h1 h2 ⊢
        rw [if_pos h2]
      | succ i =>
        have hlt' := (List.pairwise_cons.mp hlt).2
        simp only [List.getElem_cons_succ] at h1 h2 ⊢
        by_cases hx : x ≤ t1
        · rw [if_pos hx]
          cases i with
          | zero =>
            simp only [List.getElem_cons_zero] at h1 h2 ⊢
            have : x = t1 := le_antisymm hx h1
            subst this
            have hne : x - t0 ≠ 0 := by linarith [sub_pos.mpr hpos]
            field_simp
            ring
          | succ i =>
            exfalso
            have hi' : i < ts.length := by simp at hi; omega
            have := (List.pairwise_cons.mp hlt').1 ts[i] (List.getElem_mem hi')
            simp only [List.getElem_cons_succ] at h1
            linarith
        · rw [if_neg hx]
          exact ih vs t1 v1 (by simpa using hlen) hlt' i (by simpa using hi) h1 h2

theorem seg_last (ls : ℚ) (ts vs : List ℚ) (t0 v0 x : ℚ) (hlen : vs.length = ts.length)
    (hlt : (t0 :: ts).Pairwise (· < ·))
    (h1 : (t0 :: ts).getLast (by simp) ≤ x) :
    seg ls t0 v0 ts vs x = (v0 :: vs).getLast (by simp) + (x - (t0 :: ts).getLast (by simp)) * ls := by
  induction ts generalizing t0 v0 vs with
  | nil =>
    cases vs with
    | nil => rfl
    | cons => simp at hlen
  | cons t1 ts ih =>
    cases vs with
    | nil => simp at hlen
    | cons v1 vs =>
      rw [seg]
      have hlt' := (List.pairwise_cons.mp hlt).2
      have hpos : t0 < t1 := (List.pairwise_cons.mp hlt).1 t1 (by simp)
      rw [List.getLast_cons (List.cons_ne_nil _ _)] at h1
      have ev : (v0 :: v1 :: vs).getLast (by simp) = (v1 :: vs).getLast (by simp) :=
        List.getLast_cons (List.cons_ne_nil _ _)
      have et : (t0 :: t1 :: ts).getLast (by simp) = (t1 :: ts).getLast (by simp) :=
        List.getLast_cons (List.cons_ne_nil _ _)
      rw [ev, et]
      by_cases hx : x ≤ t1
      · rw [if_pos hx]
        cases ts with
        | nil =>
          cases vs with
          | cons => simp at hlen
          | nil =>
            simp only [List.getLast_singleton] at h1 ⊢
            have : x = t1 := le_antisymm hx h1
            subst this
            have hne : x - t0 ≠ 0 := by linarith [sub_pos.mpr hpos]
            field_simp
            ring
        | cons t2 ts =>
          exfalso
          have : t1 < (t1 :: t2 :: ts).getLast (by simp) := by
            rw [List.getLast_cons (by simp)]
            exact (List.pairwise_cons.mp hlt').1 _ (List.getLast_mem _)
          linarith
      · rw [if_neg hx]
        exact ih vs t1 v1 (by simpa using hlen) hlt' h1

/-- Left part. -/
theorem fn_left {f : PL} (h : f.WF) {x : ℚ} (h0 : 0 < f.times.length) (hx : x ≤ f.times[0]) :
    f.fn x = f.values[0]'(by rw [h.len]; exact h0) + (x - f.times[0]) * f.first := by
  have hl := h.len
  unfold fn
  obtain ⟨ts, vs, a, b, lo, hi⟩ := f
  cases ts with
  | nil => simp at h0
  | cons t ts =>
    cases vs with
    | nil => simp at hl
    | cons v vs =>
      simp only [List.getElem_cons_zero] at hx ⊢
      rw [if_pos hx]

/-- Middle parts. -/
theorem fn_mid {f : PL} (h : f.WF) {x : ℚ} (i : Nat) (hi : i + 1 < f.times.length)
    (h1 : f.times[i] ≤ x) (h2 : x ≤ f.times[i + 1]) :
    f.fn x = f.values[i]'(by rw [h.len]; omega) + (x - f.times[i]) *
      ((f.values[i + 1]'(by rw [h.len]; exact hi) - f.values[i]'(by rw [h.len]; omega)) / (f.times[i + 1] - f.times[i])) := by
  have hl := h.len
  have hlt := h.lt
  unfold fn
  obtain ⟨ts, vs, a, b, lo, hi'⟩ := f
  cases ts with
  | nil => simp at hi
  | cons t ts =>
    cases vs with
    | nil => simp at hl
    | cons v vs =>
      simp only at h1 h2 ⊢
      by_cases hx : x ≤ t
      · rw [if_pos hx]
        cases i with
        | zero =>
          simp only [List.getElem_cons_zero] at h1 h2 ⊢
          have : x = t := le_antisymm hx h1
          subst this; simp
        | succ i =>
          exfalso
          have hi2 : i < ts.length := by simp at hi; omega
          have := (List.pairwise_cons.mp hlt).1 ts[i] (List.getElem_mem hi2)
          simp only [List.getElem_cons_succ] at h1
          linarith
      · rw [if_neg hx]
        exact seg_piece b ts vs t v x (by simpa using hl) hlt i hi h1 h2

/-- Right part. -/
theorem fn_right {f : PL} (h : f.WF) {x : ℚ} (hx : f.times.getLast h.ne ≤ x) :
    f.fn x = f.values.getLast (by intro e; have := h.len; rw [e] at this; exact h.ne (List.length_eq_zero_iff.mp this.symm))
      + (x - f.times.getLast h.ne) * f.last := by
  have hl := h.len
  have hlt := h.lt
  have hne := h.ne
  unfold fn
  obtain ⟨ts, vs, a, b, lo, hi'⟩ := f
  cases ts with
  | nil => exact absurd rfl hne
  | cons t ts =>
    cases vs with
    | nil => simp at hl
    | cons v vs =>
      simp only at hx ⊢
      by_cases hx' : x ≤ t
      · rw [if_pos hx']
        cases ts with
        | nil =>
          cases vs with
          | cons => simp at hl
          | nil =>
            simp only [List.getLast_singleton] at hx ⊢
            have : x = t := le_antisymm hx' hx
            subst this; simp
        | cons t1 ts =>
          exfalso
          have : t < (t :: t1 :: ts).getLast (by simp) := by
            rw [List.getLast_cons (by simp)]
            exact (List.pairwise_cons.mp hlt).1 _ (List.getLast_mem _)
          linarith
      · rw [if_neg hx']
        exact seg_last b ts vs t v x (by simpa using hl) hlt hx

theorem WF.vne {f : PL} (h : f.WF) : f.values ≠ [] := by
  intro e; have := h.len; rw [e] at this; exact h.ne (List.length_eq_zero_iff.mp this.symm)

theorem WF.pos {f : PL} (h : f.WF) : 0 < f.times.length := List.length_pos_of_ne_nil h.ne

theorem fn_time {f : PL} (h : f.WF) (i : Nat) (hi : i < f.times.length) :
    f.fn f.times[i] = f.values[i]'(by rw [h.len]; exact hi) := by
  by_cases h1 : i + 1 < f.times.length
  · rw [fn_mid h i h1 le_rfl (le_of_lt (getElem_lt_of h.lt (by omega) h1))]; simp
  · have hlast : f.times.getLast h.ne = f.times[i] := by
      rw [List.getLast_eq_getElem]; congr 1; omega
    rw [fn_right h (by rw [hlast])]
    rw [hlast, List.getLast_eq_getElem]
    have hvl := h.len
    have : f.values.length - 1 = i := by omega
    simp [this]

theorem gradient_first {f : PL} (h : f.WF) : f.gradient (-1) = .ok f.first := by
  unfold gradient
  rw [pyAssert_true (by have := h.pos; omega), ok_bind, if_pos rfl]; rfl

theorem gradient_last {f : PL} (h : f.WF) : f.gradient ((f.times.length : Int) - 1) = .ok f.last := by
  unfold gradient
  have := h.pos
  rw [pyAssert_true (by omega), ok_bind, if_neg (by omega), if_pos rfl]; rfl

theorem gradient_mid {f : PL} (h : f.WF) (i : Nat) (hi : i + 1 < f.times.length) :
    f.gradient (i : Int) = .ok ((f.values[i + 1]'(by rw [h.len]; exact hi) - f.values[i]'(by rw [h.len]; omega)) /
      (f.times[i + 1] - f.times[i])) := by
  unfold gradient
  have hl := h.len
  have hlt := getElem_lt_of h.lt (show i < i + 1 by omega) hi
  rw [pyAssert_true (by omega), ok_bind, if_neg (by omega), if_neg (by omega)]
  rw [rdI_lt f.values ((i : Int) + 1) (i + 1) (by omega) (by omega), ok_bind,
    rdI_lt f.values (i : Int) i rfl (by omega), ok_bind,
    rdI_lt f.times ((i : Int) + 1) (i + 1) (by omega) (by omega), ok_bind,
    rdI_lt f.times (i : Int) i rfl (by omega), ok_bind]
  unfold pyDiv
  rw [if_neg (by linarith [sub_pos.mpr hlt])]

/-- The rank used by the evaluators. -/
def rkOf (f : PL) (x : ℚ) : Int := (f.times.countP (· < x) : Int) - 1

theorem evalWithRank_eq {f : PL} (h : f.WF) {x : ℚ} (hx : f.inDom x) :
    f.evalWithRank x (f.rkOf x) = .ok (f.fn x) := by
  have hc : f.times.countP (· < x) ≤ f.times.length := List.countP_le_length
  have hpos := h.pos
  have hlen := h.len
  have key := fun i hi => lt_countP_lt_iff h.le x i hi
  have hlast : f.times.getLast h.ne = f.times[f.times.length - 1] := List.getLast_eq_getElem h.ne
  unfold evalWithRank rkOf
  generalize hcc : f.times.countP (· < x) = c at *
  rw [pyAssert_true hx, ok_bind, pyAssert_true (by omega), ok_bind, rd_lt _ _ hpos, ok_bind,
    pyAssert_true, ok_bind, rdLast_eq _ h.ne, ok_bind, pyAssert_true, ok_bind]
  · by_cases c0 : c = 0
    · subst c0
      have hx0 : x ≤ f.times[0] := by
        rw [← not_lt, ← key 0 hpos]; omega
      rw [if_neg (by omega), if_pos (by omega)]
      simp only [Nat.cast_zero, zero_sub, gradient_first h, ok_bind, rd_lt _ _ (by omega : 0 < f.values.length),
        py_pure, ok_bind]
      rw [fn_left h hpos hx0]
    · by_cases cl : c = f.times.length
      · have hxl : f.times[f.times.length - 1] < x := by
          rw [← key _ (by omega)]; omega
        rw [if_neg (by omega)]
        beta_reduce
        rw [if_neg (by omega), if_pos (by omega)]
        rw [cl, gradient_last h, ok_bind, rdLast_eq _ h.vne, ok_bind, py_pure]
        rw [fn_right h (by rw [hlast]; exact le_of_lt hxl)]
      · obtain ⟨i, rfl⟩ : ∃ i, c = i + 1 := ⟨c - 1, by omega⟩
        have hi : i + 1 < f.times.length := by omega
        have h1 : f.times[i] < x := by rw [← key i (by omega)]; omega
        have h2 : x ≤ f.times[i + 1] := by rw [← not_lt, ← key (i + 1) hi]; omega
        have e1 : (((i + 1 : Nat) : Int) - 1) = (i : Int) := by omega
        rw [e1, if_pos (by omega), rdI_lt f.times (i : Int) i rfl (by omega), ok_bind,
          rdI_lt f.times ((i : Int) + 1) (i + 1) (by omega) (by omega), ok_bind,
          pyAssert_true ⟨h1, h2⟩, ok_bind]
        beta_reduce
        rw [if_neg (by omega), if_neg (by omega)]
        rw [rdI_lt f.values (i : Int) i rfl (by omega), ok_bind, gradient_mid h i hi, ok_bind, ok_bind, py_pure]
        rw [fn_mid h i hi (le_of_lt h1) h2]
  · -- last assertion
    by_cases cl : c = f.times.length
    · right
      have hxl : f.times[f.times.length - 1] < x := by
        rw [← key _ (by omega)]; omega
      rw [hlast]; exact hxl
    · left; omega
  · by_cases c0 : c = 0
    · right
      rw [← not_lt, ← key 0 hpos]; omega
    · left; omega

theorem eval_eq {f : PL} (h : f.WF) {x : ℚ} (hx : f.inDom x) : f.eval x = .ok (f.fn x) := by
  unfold eval
  rw [pyAssert_true hx, ok_bind, elemRank_eq h.le h.ne, ok_bind]
  exact evalWithRank_eq h hx

theorem eval_err {f : PL} {x : ℚ} (hx : ¬ f.inDom x) : f.eval x = .error .assertion := by
  unfold eval
  rw [pyAssert_false hx, error_bind]

theorem fromEndLoop_eq {ts : List ℚ} (hs : ts.Pairwise (· ≤ ·)) (x : ℚ) (n : Nat) (hn : n ≤ ts.length)
    (hc : ts.countP (· < x) ≤ n) : fromEndLoop ts x n = .ok ((ts.countP (· < x) : Int) - 1) := by
  induction n with
  | zero =>
    have : ts.countP (· < x) = 0 := by omega
    simp [fromEndLoop, this]
  | succ n ih =>
    have hl : n < ts.length := by omega
    have key := lt_countP_lt_iff hs x n hl
    rw [fromEndLoop, rd_lt _ _ hl, ok_bind]
    by_cases h : ts[n] ≥ x
    · rw [if_pos h]
      apply ih (by omega)
      have : ¬ n < ts.countP (· < x) := by rw [key]; exact not_lt.mpr h
      omega
    · rw [if_neg h, py_pure]
      have : n < ts.countP (· < x) := by rw [key]; exact not_le.mp h
      congr 1; omega

theorem evalFromEnd_eq {f : PL} (h : f.WF) {x : ℚ} (hx : f.inDom x) : f.evalFromEnd x = .ok (f.fn x) := by
  unfold evalFromEnd
  rw [pyAssert_true hx, ok_bind, fromEndLoop_eq h.le x _ le_rfl List.countP_le_length, ok_bind]
  exact evalWithRank_eq h hx

theorem countP_mono {l : List ℚ} {x y : ℚ} (h : x ≤ y) : l.countP (· < x) ≤ l.countP (· < y) := by
  apply List.countP_mono_left
  intro a _ ha
  simp only [decide_eq_true_eq] at ha ⊢
  linarith

theorem findRnkBetween_eq {ts : List ℚ} (hs : ts.Pairwise (· ≤ ·)) {a b x : ℚ} (h1 : a ≤ x) (h2 : x ≤ b) :
    findRnkBetween ts x ((ts.countP (· < a) : Int) - 1) ((ts.countP (· < b) : Int) - 1) =
      .ok ((ts.countP (· < x) : Int) - 1) := by
  unfold findRnkBetween
  have := countP_mono (l := ts) h1
  have := countP_mono (l := ts) h2
  have hl : ts.countP (· < b) ≤ ts.length := List.countP_le_length
  rw [elemRankLoop_eq hs x _ _ _ (by omega) (by omega) (by omega) (by omega), ok_bind]
  rfl

theorem recEvalSorted_eq {f : PL} (h : f.WF) (xs : List ℚ) (hs : xs.Pairwise (· ≤ ·))
    (hd : ∀ x ∈ xs, f.inDom x) :
    ∀ (fuel start stop : Nat) (hstop : stop < xs.length) (hss : start ≤ stop) (values : List ℚ),
      stop - start < fuel → values.length = xs.length →
      ∃ r, recEvalSorted f xs fuel start stop (f.rkOf xs[start]) (f.rkOf xs[stop]) values = .ok r ∧
        r.length = xs.length ∧
        (∀ i, (hi : i < xs.length) → start < i → i < stop → r[i]? = some (f.fn xs[i])) ∧
        (∀ i, ¬ (start < i ∧ i < stop) → r[i]? = values[i]?) := by
  intro fuel
  induction fuel with
  | zero => intro _ _ _ _ _ h; omega
  | succ fuel ih =>
    intro start stop hstop hss values hf hlen
    rw [recEvalSorted]
    by_cases hb : stop - start < 2
    · rw [if_pos hb]
      exact ⟨values, rfl, hlen, fun i _ h1 h2 => by omega, fun i _ => rfl⟩
    · rw [if_neg hb]
      simp only
      generalize hm : (start + stop) / 2 = mid
      have hmid : mid < xs.length := by omega
      have hle : ∀ i j, (hij : i ≤ j) → (hj : j < xs.length) → xs[i] ≤ xs[j] := by
        intro i j hij hj
        rcases Nat.lt_or_eq_of_le hij with h1 | h1
        · exact List.pairwise_iff_getElem.mp hs i j (by omega) hj h1
        · subst h1; exact le_rfl
      rw [rd_lt _ _ hmid, ok_bind]
      have hfind := findRnkBetween_eq h.le (hle start mid (by omega) hmid) (hle mid stop (by omega) hstop)
      unfold rkOf
      rw [hfind, ok_bind]
      have hev := evalWithRank_eq h (hd _ (List.getElem_mem hmid))
      unfold rkOf at hev
      rw [hev, ok_bind]
      obtain ⟨r1, a1, a2, a3, a4⟩ := ih start mid hmid (by omega) (values.set mid (f.fn xs[mid]))
        (by omega) (by simpa using hlen)
      unfold rkOf at a1
      rw [a1, ok_bind]
      obtain ⟨r2, b1, b2, b3, b4⟩ := ih mid stop hstop (by omega) r1 (by omega) a2
      unfold rkOf at b1
      refine ⟨r2, b1, b2, ?_, ?_⟩
      · intro i hi h1 h2
        by_cases c1 : mid < i
        · exact b3 i hi c1 h2
        · rw [b4 i (by omega)]
          by_cases c2 : i < mid
          · exact a3 i hi h1 c2
          · have : i = mid := by omega
            subst this
            rw [a4 i (by omega), List.getElem?_set, if_pos rfl, if_pos (by omega)]
      · intro i hi
        rw [b4 i (by omega), a4 i (by omega), List.getElem?_set, if_neg (by omega)]

theorem mapM_eval_eq {f : PL} (h : f.WF) (xs : List ℚ) (hd : ∀ x ∈ xs, f.inDom x) :
    xs.mapM f.eval = .ok (xs.map f.fn) := by
  induction xs with
  | nil => rfl
  | cons x xs ih =>
    rw [List.mapM_cons, eval_eq h (hd x (by simp)), ok_bind, ih (fun y hy => hd y (by simp [hy])), ok_bind]
    rfl

theorem evalSortedArray_eq {f : PL} (h : f.WF) (xs : List ℚ) (hs : xs.Pairwise (· ≤ ·))
    (hd : ∀ x ∈ xs, f.inDom x) : f.evalSortedArray xs = .ok (xs.map f.fn) := by
  unfold evalSortedArray
  by_cases hl : xs.length < 2
  · rw [if_pos hl, mapM_eval_eq h xs hd]
  · rw [if_neg hl]
    have h0 : 0 < xs.length := by omega
    have hne : xs ≠ [] := by rintro rfl; simp at h0
    have hlast : xs.getLast hne = xs[xs.length - 1] := List.getLast_eq_getElem hne
    have hev0 := evalWithRank_eq h (hd _ (List.getElem_mem h0))
    unfold rkOf at hev0
    have hevl := evalWithRank_eq h (hd _ (List.getElem_mem (show xs.length - 1 < xs.length by omega)))
    unfold rkOf at hevl
    have hle : xs[0] ≤ xs[xs.length - 1] := List.pairwise_iff_getElem.mp hs 0 _ h0 (by omega) (by omega)
    simp only [rd_lt _ _ h0, ok_bind, elemRank_eq h.le h.ne, hev0, rdLast_eq _ hne, hlast]
    have hfind : findRnkBetween f.times xs[xs.length - 1] ((f.times.countP (· < xs[0]) : Int) - 1)
        ((f.times.length : Int) - 1) = .ok ((f.times.countP (· < xs[xs.length - 1]) : Int) - 1) := by
      unfold findRnkBetween
      have := countP_mono (l := f.times) hle
      have hl : f.times.countP (· < xs[xs.length - 1]) ≤ f.times.length := List.countP_le_length
      rw [elemRankLoop_eq h.le _ _ _ _ (by omega) (by omega) (by omega) (by omega), ok_bind]
      rfl
    rw [hfind, ok_bind, hevl, ok_bind]
    obtain ⟨r, a1, a2, a3, a4⟩ := recEvalSorted_eq h xs hs hd xs.length 0 (xs.length - 1) (by omega) (by omega)
      (((List.replicate xs.length 0).set 0 (f.fn xs[0])).set (xs.length - 1) (f.fn xs[xs.length - 1]))
      (by omega) (by simp)
    unfold rkOf at a1
    rw [a1]
    congr 1
    apply List.ext_getElem?
    intro i
    by_cases hi : i < xs.length
    · rw [List.getElem?_map]
      simp only [hi, getElem?_pos, Option.map_some]
      by_cases c1 : 0 < i ∧ i < xs.length - 1
      · exact a3 i hi c1.1 c1.2
      · rw [a4 i c1, List.getElem?_set]
        by_cases c2 : xs.length - 1 = i
        · rw [if_pos c2, if_pos (by simp; omega)]
          simp [c2]
        · rw [if_neg c2, List.getElem?_set]
          have : 0 = i := by omega
          subst this
          rw [if_pos rfl, if_pos (by simp; omega)]
    · rw [List.getElem?_eq_none (by omega), List.getElem?_eq_none (by simp; omega)]

/-- `f` is affine wherever it has no break point strictly inside. -/
theorem fn_affine {f : PL} (h : f.WF) {a b : ℚ}
    (hno : ∀ t ∈ f.times, ¬ (a < t ∧ t < b)) :
    ∃ m, ∀ x, a ≤ x → x ≤ b → f.fn x = f.fn a + m * (x - a) := by
  have hpos := h.pos
  have key := fun i hi => lt_countP_le_iff h.le a i hi
  have hc : f.times.countP (· ≤ a) ≤ f.times.length := List.countP_le_length
  generalize hcc : f.times.countP (· ≤ a) = c at *
  by_cases c0 : c = 0
  · refine ⟨f.first, ?_⟩
    intro x hx1 hx2
    have ha : a < f.times[0] := by rw [← not_le, ← key 0 hpos]; omega
    have hb : x ≤ f.times[0] := by
      have := hno _ (List.getElem_mem hpos)
      by_contra hcon
      exact this ⟨ha, by linarith⟩
    rw [fn_left h hpos hb, fn_left h hpos (le_of_lt ha)]; ring
  · by_cases cl : c = f.times.length
    · refine ⟨f.last, ?_⟩
      intro x hx1 hx2
      have hlast : f.times.getLast h.ne = f.times[f.times.length - 1] := List.getLast_eq_getElem h.ne
      have ha : f.times[f.times.length - 1] ≤ a := by rw [← key _ (by omega)]; omega
      rw [fn_right h (by rw [hlast]; linarith), fn_right h (by rw [hlast]; linarith)]; ring
    · obtain ⟨i, rfl⟩ : ∃ i, c = i + 1 := ⟨c - 1, by omega⟩
      have hi : i + 1 < f.times.length := by omega
      have h1 : f.times[i] ≤ a := by rw [← key i (by omega)]; omega
      have h2 : a < f.times[i + 1] := by rw [← not_le, ← key (i + 1) hi]; omega
      refine ⟨(f.values[i + 1]'(by rw [h.len]; exact hi) - f.values[i]'(by rw [h.len]; omega)) /
        (f.times[i + 1] - f.times[i]), ?_⟩
      intro x hx1 hx2
      have hb : x ≤ f.times[i + 1] := by
        have := hno _ (List.getElem_mem hi)
        by_contra hcon
        exact this ⟨h2, by linarith⟩
      rw [fn_mid h i hi (by linarith) hb, fn_mid h i hi h1 (le_of_lt h2)]; ring

/-- Interpolation principle: a well-formed function whose break points carry the values of `H`, where
`H` is affine between them and has the right outer slopes, is `H`. -/
theorem fn_eq_of {g : PL} (h : g.WF) (H : ℚ → ℚ) (D : ℚ → Prop)
    (hv : ∀ i (hi : i < g.times.length), g.values[i]'(by rw [h.len]; exact hi) = H g.times[i])
    (haff : ∀ i (hi : i + 1 < g.times.length), ∃ m, ∀ x, g.times[i] ≤ x → x ≤ g.times[i + 1] →
      H x = H g.times[i] + m * (x - g.times[i]))
    (hl : ∀ x, D x → x ≤ g.times[0]'h.pos → H x = H (g.times[0]'h.pos) + g.first * (x - g.times[0]'h.pos))
    (hr : ∀ x, D x → g.times.getLast h.ne ≤ x → H x = H (g.times.getLast h.ne) + g.last * (x - g.times.getLast h.ne))
    (x : ℚ) (hx : D x) : g.fn x = H x := by
  have hpos := h.pos
  have hlast : g.times.getLast h.ne = g.times[g.times.length - 1] := List.getLast_eq_getElem h.ne
  by_cases h0 : x ≤ g.times[0]
  · rw [fn_left h hpos h0, hl x hx h0, hv 0 hpos]; ring
  · by_cases hlx : g.times.getLast h.ne ≤ x
    · rw [fn_right h hlx, hr x hx hlx]
      have : g.values.getLast h.vne = H (g.times.getLast h.ne) := by
        rw [List.getLast_eq_getElem, hlast, ← hv _ (by omega)]
        congr 1; have := h.len; omega
      rw [this]; ring
    · have key := fun i hi => lt_countP_le_iff h.le x i hi
      have hc : g.times.countP (· ≤ x) ≤ g.times.length := List.countP_le_length
      generalize hcc : g.times.countP (· ≤ x) = c at *
      have c0 : c ≠ 0 := by
        have := (key 0 hpos).mpr (le_of_lt (not_le.mp h0)); omega
      have cl : c ≠ g.times.length := by
        intro e
        apply hlx
        rw [hlast, ← key _ (by omega)]; omega
      obtain ⟨i, rfl⟩ : ∃ i, c = i + 1 := ⟨c - 1, by omega⟩
      have hi : i + 1 < g.times.length := by omega
      have h1 : g.times[i] ≤ x := by rw [← key i (by omega)]; omega
      have h2 : x < g.times[i + 1] := by rw [← not_le, ← key (i + 1) hi]; omega
      obtain ⟨m, hm⟩ := haff i hi
      have hlt := getElem_lt_of h.lt (show i < i + 1 by omega) hi
      rw [fn_mid h i hi h1 (le_of_lt h2), hv i (by omega), hv (i + 1) hi, hm x h1 (le_of_lt h2),
        hm _ (le_of_lt hlt) le_rfl]
      have : g.times[i + 1] - g.times[i] ≠ 0 := by linarith [sub_pos.mpr hlt]
      field_simp
      ring

end PL
end Verif
