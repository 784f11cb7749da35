import Verif.Proofs.RC

/-! Property theorems C09–C12 and the step function part of C22 (src/utilities/right_constant.py). -/

namespace Verif.Props
open Verif Verif.Spec

/-- What the class assumes of its data: as many values as times, at least one, times strictly
increasing and inside the domain. -/
structure ValidRC (f : RC) : Prop where
  len : f.values.length = f.times.length
  ne : f.times ≠ []
  lt : f.times.Pairwise (· < ·)
  dom : ∀ t ∈ f.times, f.lo ≤ (t : WithBot ℚ) ∧ (t : WithTop ℚ) ≤ f.hi

theorem ValidRC.wf {f : RC} (h : ValidRC f) : f.WF := ⟨h.len, h.ne, h.lt, h.dom⟩
theorem _root_.Verif.RC.WF.valid {f : RC} (h : f.WF) : ValidRC f := ⟨h.len, h.ne, h.lt, h.dom⟩

/-- C09: `eval` and `eval_from_end` both compute the right-continuous step function given by the break
points on the domain, and both raise outside of it. -/
theorem C09_eval (f : RC) (h : ValidRC f) :
    ∃ F : ℚ → ℚ, IsStep f.times f.values F ∧
      (∀ t, f.inDom t → f.eval t = .ok (F t) ∧ f.evalFromEnd t = .ok (F t)) ∧
      (∀ t, ¬ f.inDom t → f.eval t = .error .assertion ∧ f.evalFromEnd t = .error .assertion) := by
  have hw := h.wf
  refine ⟨f.fn, ⟨?_, ?_⟩, ?_, ?_⟩
  · intro i t v ht hv x h1 h2
    obtain ⟨hi, rfl⟩ := List.getElem?_eq_some_iff.mp ht
    obtain ⟨hi', rfl⟩ := List.getElem?_eq_some_iff.mp hv
    exact RC.fn_on hw hi h1 (fun h' => h2 _ (List.getElem?_eq_getElem h'))
  · intro t v ht hv x hx
    rw [List.head?_eq_getElem?, List.getElem?_eq_getElem hw.pos] at ht
    have hvp : 0 < f.values.length := by rw [hw.len]; exact hw.pos
    rw [List.head?_eq_getElem?, List.getElem?_eq_getElem hvp] at hv
    injection ht with ht; injection hv with hv; subst ht; subst hv
    exact RC.fn_before hw (le_of_lt hx)
  · intro t ht; exact ⟨RC.eval_eq hw ht, RC.evalFromEnd_eq hw ht⟩
  · intro t ht
    refine ⟨RC.eval_err ht, ?_⟩
    unfold RC.evalFromEnd
    rw [pyAssert_false ht, error_bind]

/-- The constructor returns the object exactly when lengths match and times lie in the domain. -/
theorem C09_new (f : RC) (h : ValidRC f) : RC.new f.times f.values f.lo f.hi = .ok f := RC.new_ok h.wf

/-- A concrete step function on `[0, ∞)`. -/
def steps : RC := ⟨[0, 2, 5], [1, 4, 0], (0 : ℚ), ⊤⟩
theorem steps_valid : ValidRC steps := ⟨by decide, by decide, by decide +kernel, by decide +kernel⟩

example : steps.eval 2 = .ok 4 ∧ steps.evalFromEnd 2 = .ok 4 ∧ steps.eval (3/2) = .ok 1 ∧ steps.eval (-1) = .error .assertion := by
  decide +kernel

/-- C10: `extend(s, v)` at `s` equal to the last break point, or more than eps after it, keeps the
object valid, changes nothing on `[times[0], s)`, and from `s` on the function is `v` – or the old
last value, when that already agrees with `v` up to eps. -/
theorem C10_extend (f : RC) (h : ValidRC f) (s v t0 l vl : ℚ) (h0 : f.times.head? = some t0)
    (hl : f.times.getLast? = some l) (hvl : f.values.getLast? = some vl)
    (hs : s = l ∨ l + eps < s) (hhi : (s : WithTop ℚ) ≤ f.hi) :
    ∃ g, f.extend s v = .ok g ∧ ValidRC g ∧ g.lo = f.lo ∧ g.hi = f.hi ∧
      (∀ t, t0 ≤ t → t < s → g.eval t = f.eval t) ∧
      (∀ t, s ≤ t → g.inDom t → ∃ w, g.eval t = .ok w ∧ (w = v ∨ w = vl ∧ |vl - v| ≤ eps)) ∧
      (∀ t ∈ g.times, t ∈ f.times ∨ t = s) := by
  have hw := h.wf
  have hep := eps_pos
  rw [List.head?_eq_getElem?, List.getElem?_eq_getElem hw.pos] at h0
  rw [List.getLast?_eq_some_getLast hw.ne] at hl
  rw [List.getLast?_eq_some_getLast hw.vne] at hvl
  injection h0 with h0; injection hl with hl; injection hvl with hvl
  subst h0; subst hl; subst hvl
  have key : ∀ g : RC, g.WF → g.lo = f.lo → g.hi = f.hi → ∀ t, g.fn t = f.fn t → g.eval t = f.eval t := by
    intro g hg e1 e2 t e
    by_cases hd : f.inDom t
    · have hd' : g.inDom t := by unfold RC.inDom at *; rw [e1, e2]; exact hd
      rw [RC.eval_eq hg hd', RC.eval_eq hw hd, e]
    · have hd' : ¬ g.inDom t := by unfold RC.inDom at *; rw [e1, e2]; exact hd
      rw [RC.eval_err hd', RC.eval_err hd]
  by_cases hv : |f.values.getLast hw.vne - v| ≤ eps
  · refine ⟨f, RC.extend_early hw (by rcases hs with h | h <;> linarith) hv, h, rfl, rfl, fun _ _ _ => rfl, ?_,
      fun t ht => Or.inl ht⟩
    intro t ht hd
    refine ⟨_, RC.eval_eq hw hd, Or.inr ⟨?_, hv⟩⟩
    exact RC.fn_last hw (by rcases hs with h | h <;> linarith)
  · rcases hs with hs | hs
    · obtain ⟨g, e, w, ht, e1, e2, a, b⟩ := RC.extend_replace hw hs hv
      refine ⟨g, e, w.valid, e1, e2, fun t h1 h2 => key g w e1 e2 t (a t h1 h2), ?_, fun t h => Or.inl (by rwa [ht] at h)⟩
      intro t h1 hd
      exact ⟨_, RC.eval_eq w hd, Or.inl (b t h1)⟩
    · obtain ⟨g, e, w, ht, e1, e2, a, b⟩ := RC.extend_append hw hs hhi hv
      refine ⟨g, e, w.valid, e1, e2, fun t h1 h2 => key g w e1 e2 t (a t h2), ?_,
        fun t h => by rw [ht] at h; simpa using h⟩
      intro t h1 hd
      exact ⟨_, RC.eval_eq w hd, Or.inl (b t h1)⟩

/-- C10 (rejection): extending into the past raises. -/
theorem C10_extend_past (f : RC) (s v l : ℚ) (hl : f.times.getLast? = some l) (hs : s < l - eps) :
    f.extend s v = .error .assertion := by
  unfold RC.extend
  simp only [rdLast, hl]
  rw [ok_bind, pyAssert_false (not_le.mpr hs), error_bind]

example : ∃ g, steps.extend 7 3 = .ok g ∧ g.eval 6 = .ok 0 ∧ g.eval 9 = .ok 3 := ⟨⟨[0, 2, 5, 7], [1, 4, 0, 3], (0 : ℚ), ⊤⟩, by decide +kernel⟩
example : steps.extend 4 3 = .error .assertion := by decide +kernel

/-- C11: `f + g` is the pointwise sum on the common domain when distinct break points are more than
eps apart. -/
theorem C11_add (f g : RC) (hf : ValidRC f) (hg : ValidRC g) (hlo : f.lo = g.lo) (hhi : f.hi = g.hi)
    (hsep : Apart eps (f.times ++ g.times)) :
    ∃ s, f.add g = .ok s ∧ ValidRC s ∧ s.lo = f.lo ∧ s.hi = f.hi ∧
      ∀ t a b, f.eval t = .ok a → g.eval t = .ok b → s.eval t = .ok (a + b) := by
  obtain ⟨s, e, w, e1, e2, hfn, _⟩ := RC.add_ok hf.wf hg.wf hlo hhi hsep
  refine ⟨s, e, w.valid, e1, e2, ?_⟩
  intro t a b ha hb
  have hd : f.inDom t := by by_contra hc; rw [RC.eval_err hc] at ha; cases ha
  have hd2 : g.inDom t := by by_contra hc; rw [RC.eval_err hc] at hb; cases hb
  have hd' : s.inDom t := by unfold RC.inDom at *; rw [e1, e2]; exact hd
  rw [RC.eval_eq hf.wf hd] at ha; rw [RC.eval_eq hg.wf hd2] at hb
  injection ha with ha; injection hb with hb
  rw [RC.eval_eq w hd', hfn, ha, hb]

/-- C11: adding functions with different domains raises. -/
theorem C11_add_domains (f g : RC) (h : ¬ (f.lo = g.lo ∧ f.hi = g.hi)) : f.add g = .error .assertion := by
  unfold RC.add
  rw [pyAssert_false h, error_bind]

/-- C11: `-f` is the pointwise negation. -/
theorem C11_neg (f : RC) (hf : ValidRC f) :
    ∃ s, f.neg = .ok s ∧ ValidRC s ∧ s.lo = f.lo ∧ s.hi = f.hi ∧
      ∀ t a, f.eval t = .ok a → s.eval t = .ok (-a) := by
  obtain ⟨s, e, w, _, e1, e2, hfn⟩ := RC.neg_ok hf.wf
  refine ⟨s, e, w.valid, e1, e2, ?_⟩
  intro t a ha
  have hd : f.inDom t := by by_contra hc; rw [RC.eval_err hc] at ha; cases ha
  have hd' : s.inDom t := by unfold RC.inDom at *; rw [e1, e2]; exact hd
  rw [RC.eval_eq hf.wf hd] at ha; injection ha with ha
  rw [RC.eval_eq w hd', hfn, ha]

/-- C11: `f - g` is the pointwise difference. -/
theorem C11_sub (f g : RC) (hf : ValidRC f) (hg : ValidRC g) (hlo : f.lo = g.lo) (hhi : f.hi = g.hi)
    (hsep : Apart eps (f.times ++ g.times)) :
    ∃ s, f.sub g = .ok s ∧ ValidRC s ∧ s.lo = f.lo ∧ s.hi = f.hi ∧
      ∀ t a b, f.eval t = .ok a → g.eval t = .ok b → s.eval t = .ok (a - b) := by
  obtain ⟨s, e, w, e1, e2, hfn, _⟩ := RC.sub_ok hf.wf hg.wf hlo hhi hsep
  refine ⟨s, e, w.valid, e1, e2, ?_⟩
  intro t a b ha hb
  have hd : f.inDom t := by by_contra hc; rw [RC.eval_err hc] at ha; cases ha
  have hd2 : g.inDom t := by by_contra hc; rw [RC.eval_err hc] at hb; cases hb
  have hd' : s.inDom t := by unfold RC.inDom at *; rw [e1, e2]; exact hd
  rw [RC.eval_eq hf.wf hd] at ha; rw [RC.eval_eq hg.wf hd2] at hb
  injection ha with ha; injection hb with hb
  rw [RC.eval_eq w hd', hfn, ha, hb]

/-- C11: `RightConstant.sum` of any number of functions is the pointwise sum. -/
theorem C11_sum (fs : List RC) (lo : WithBot ℚ) (hi : WithTop ℚ) (hne : fs ≠ [])
    (hf : ∀ f ∈ fs, ValidRC f ∧ f.lo = lo ∧ f.hi = hi)
    (hsep : Apart eps (fs.map RC.times).flatten) :
    ∃ s, RC.sum fs lo hi = .ok s ∧ ValidRC s ∧ s.lo = lo ∧ s.hi = hi ∧
      ∀ (t : ℚ) (vs : List ℚ), fs.map (fun f => f.eval t) = vs.map Except.ok → s.eval t = .ok vs.sum := by
  obtain ⟨s, e, w, e1, e2, hfn, _⟩ := RC.sum_ok (fs := fs) (lo := lo) (hi := hi) (fun f h => (hf f h).1.wf) hne
    (fun f h t ht => by have := (hf f h).1.dom t ht; rwa [(hf f h).2.1, (hf f h).2.2] at this) hsep
  refine ⟨s, e, w.valid, e1, e2, ?_⟩
  intro t vs hvs
  have hd : ∀ f ∈ fs, f.inDom t := by
    intro f hff; by_contra hc
    have : f.eval t ∈ vs.map Except.ok := by rw [← hvs]; exact List.mem_map.mpr ⟨f, hff, rfl⟩
    rw [RC.eval_err hc] at this
    simp at this
  have hvs' : vs = fs.map (fun f => f.fn t) := by
    have : fs.map (fun f => f.eval t) = (fs.map (fun f => f.fn t)).map Except.ok := by
      rw [List.map_map]; apply List.map_congr_left
      intro f hff; exact RC.eval_eq (hf f hff).1.wf (hd f hff)
    rw [this] at hvs
    exact (List.map_injective_iff.mpr (fun a b h => by injection h) hvs).symm
  obtain ⟨f, hff⟩ := List.exists_mem_of_ne_nil _ hne
  have hd' : s.inDom t := by
    have := hd f hff
    unfold RC.inDom at *; rw [e1, e2, ← (hf f hff).2.1, ← (hf f hff).2.2]; exact this
  rw [RC.eval_eq w hd', hfn, hvs']

/-- C11: the empty sum is the zero function. -/
theorem C11_sum_empty : ∃ s, RC.sum [] ((0 : ℚ) : WithBot ℚ) ⊤ = .ok s ∧ ∀ t : ℚ, 0 ≤ t → s.eval t = .ok 0 := by
  have hw : RC.WF ⟨[0], [0], ((0 : ℚ) : WithBot ℚ), ⊤⟩ := ⟨by decide, by decide, by decide, by decide +kernel⟩
  refine ⟨_, RC.new_ok hw, ?_⟩
  intro t ht
  rw [RC.eval_eq hw ⟨WithBot.coe_le_coe.mpr ht, le_top⟩, RC.fn_last hw (by simpa using ht)]; rfl

def steps2 : RC := ⟨[0, 3, 5], [2, 1, 7], (0 : ℚ), ⊤⟩
theorem steps2_valid : ValidRC steps2 := ⟨by decide, by decide, by decide +kernel, by decide +kernel⟩
theorem steps_apart : Apart eps (steps.times ++ steps2.times) := by unfold Apart eps; decide +kernel

example : ∃ s, steps.add steps2 = .ok s ∧ s.eval 4 = .ok 5 := by
  obtain ⟨s, e, _, _, _, h⟩ := C11_add _ _ steps_valid steps2_valid rfl rfl steps_apart
  exact ⟨s, e, by rw [h 4 4 1 (by decide +kernel) (by decide +kernel)]; norm_num⟩

example : ∃ s, RC.sum [steps, steps2, steps] ((0 : ℚ) : WithBot ℚ) ⊤ = .ok s ∧ s.eval 4 = .ok 9 := by
  obtain ⟨s, e, _, _, _, h⟩ := C11_sum [steps, steps2, steps] ((0 : ℚ) : WithBot ℚ) ⊤ (by simp)
    (by intro f hf; simp at hf; rcases hf with rfl | rfl | rfl
        · exact ⟨steps_valid, rfl, rfl⟩
        · exact ⟨steps2_valid, rfl, rfl⟩
        · exact ⟨steps_valid, rfl, rfl⟩)
    (by unfold Apart eps; decide +kernel)
  exact ⟨s, e, by rw [h 4 [4, 1, 4] (by decide +kernel)]; norm_num⟩

/-- C12: `integral()` vanishes at the first break point, and over every interval that contains no
break point in its interior it grows by the length times the value of the step function there. (These
two facts determine it: it is the integral of `f` from `times[0]`.) The assertions of `integral`
require the domain to start at `times[0]` and to reach one past the last break point, and its result
requires break points more than eps apart. -/
theorem C12_integral (f : RC) (h : ValidRC f) (hg : f.times.Pairwise (fun a b => a < b - eps)) (t0 l : ℚ)
    (h0 : f.times.head? = some t0) (hl : f.times.getLast? = some l)
    (hlo : f.lo = (t0 : WithBot ℚ)) (hhi : ((l + 1 : ℚ) : WithTop ℚ) ≤ f.hi) :
    ∃ F : PL, f.integral = .ok F ∧ F.lo = f.lo ∧ F.hi = f.hi ∧ F.eval t0 = .ok 0 ∧
      ∀ a b v, f.inDom a → f.inDom b → a ≤ b → (∀ t ∈ f.times, ¬ (a < t ∧ t < b)) → f.eval a = .ok v →
        ∃ Fa Fb, F.eval a = .ok Fa ∧ F.eval b = .ok Fb ∧ Fb - Fa = v * (b - a) := by
  have hw := h.wf
  rw [List.head?_eq_getElem?, List.getElem?_eq_getElem hw.pos] at h0
  rw [List.getLast?_eq_some_getLast hw.ne] at hl
  injection h0 with h0; injection hl with hl
  subst h0; subst hl
  obtain ⟨F, e, w, e1, e2, _, z, step⟩ := RC.integral_ok hw hg hlo hhi
  have hd : ∀ t, f.inDom t → F.inDom t := by intro t ht; unfold PL.inDom RC.inDom at *; rw [e1, e2]; exact ht
  refine ⟨F, e, e1, e2, ?_, ?_⟩
  · rw [PL.eval_eq w (hd _ (hw.dom _ (List.getElem_mem _))), z]
  · intro a b v ha hb hab hno hv
    refine ⟨_, _, PL.eval_eq w (hd a ha), PL.eval_eq w (hd b hb), ?_⟩
    rw [RC.eval_eq hw ha] at hv; injection hv with hv
    rw [step a b (by have := ha.1; rw [hlo] at this; exact WithBot.coe_le_coe.mp this) hab hno, hv]

/-- C12 (rejection): a domain that does not start at the first break point raises. -/
theorem C12_integral_rejects (f : RC) (t0 l : ℚ) (h0 : f.times.head? = some t0) (hl : f.times.getLast? = some l)
    (hlo : f.lo ≠ (t0 : WithBot ℚ)) : f.integral = .error .assertion := by
  unfold RC.integral
  rw [List.head?_eq_getElem?] at h0
  simp only [rdLast, rd, hl, h0]
  rw [ok_bind, ok_bind, pyAssert_false (fun h => hlo h.1.symm), error_bind]

example : ∃ F, steps.integral = .ok F ∧ F.eval 4 = .ok 10 := ⟨⟨[0, 2, 5], [0, 2, 14], 1, 0, (0 : ℚ), ⊤⟩, by decide +kernel⟩

/-- C22 (step functions): `simplify` keeps the function at every argument when neighbouring values are
equal or differ by at least the tolerance; it only drops break points and keeps the first. -/
theorem C22_simplify_step (f : RC) (h : ValidRC f)
    (hE : ∀ (i : Nat) (u w : ℚ), f.values[i]? = some u → f.values[i + 1]? = some w → u = w ∨ 1000 * eps ≤ |u - w|) :
    ∃ g, f.simplify = .ok g ∧ ValidRC g ∧ g.lo = f.lo ∧ g.hi = f.hi ∧ g.times.Sublist f.times ∧
      g.times.head? = f.times.head? ∧ ∀ t, g.eval t = f.eval t := by
  have hw := h.wf
  obtain ⟨g, e, w, e1, e2, sub, hd, hfn⟩ := RC.simplify_ok hw (fun i hi => hE i _ _ (List.getElem?_eq_getElem _) (List.getElem?_eq_getElem hi))
  refine ⟨g, e, w.valid, e1, e2, sub, hd, ?_⟩
  intro t
  by_cases hd : f.inDom t
  · have hd' : g.inDom t := by unfold RC.inDom at *; rw [e1, e2]; exact hd
    rw [RC.eval_eq w hd', RC.eval_eq hw hd, hfn]
  · have hd' : ¬ g.inDom t := by unfold RC.inDom at *; rw [e1, e2]; exact hd
    rw [RC.eval_err hd', RC.eval_err hd]

example : RC.simplify ⟨[0, 2, 5], [1, 1, 0], (0 : ℚ), ⊤⟩ = .ok ⟨[0, 5], [1, 0], (0 : ℚ), ⊤⟩ := by decide +kernel

end Verif.Props
