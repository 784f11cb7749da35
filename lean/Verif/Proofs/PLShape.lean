import Verif.Proofs.BuilderCosts
import Verif.Proofs.PLMono

/-! Bounds on piecewise linear functions from bounds at the break points. -/

namespace Verif
namespace PL

/-- `f` with slope `c` added. -/
def tilt (f : PL) (c : ℚ) : PL := ⟨f.times, List.zipWith (fun v t => v + c * t) f.values f.times, f.first + c, f.last + c, f.lo, f.hi⟩

theorem tilt_wf {f : PL} (h : f.WF) (c : ℚ) : (f.tilt c).WF :=
  ⟨by unfold tilt; simp [h.len], h.ne, h.gap, h.dom⟩

theorem tilt_fn {f : PL} (h : f.WF) (c x : ℚ) : (f.tilt c).fn x = f.fn x + c * x := by
  have hi := interpolates h
  refine (interpolates_unique (tilt_wf h c) (F := fun x => f.fn x + c * x) ⟨?_, ?_, ?_, ?_⟩ x).symm
  · intro i t v ht hv
    unfold tilt at ht hv
    simp only at ht hv
    obtain ⟨i1, rfl⟩ := List.getElem?_eq_some_iff.mp ht
    obtain ⟨i2, rfl⟩ := List.getElem?_eq_some_iff.mp hv
    rw [List.getElem_zipWith, fn_time h i i1]
  · intro i s t hs ht y h1 h2
    unfold tilt at hs ht
    simp only at hs ht ⊢
    have hlt : s < t := by
      obtain ⟨i1, rfl⟩ := List.getElem?_eq_some_iff.mp hs
      obtain ⟨i2, rfl⟩ := List.getElem?_eq_some_iff.mp ht
      exact List.pairwise_iff_getElem.mp h.lt _ _ _ _ (Nat.lt_succ_self i)
    rw [hi.between i s t hs ht y h1 h2]
    have : t - s ≠ 0 := by linarith [sub_pos.mpr hlt]
    field_simp
    ring
  · intro t ht y hy
    unfold tilt at ht ⊢
    simp only at ht ⊢
    rw [hi.before t ht y hy]; ring
  · intro t ht y hy
    unfold tilt at ht ⊢
    simp only at ht ⊢
    rw [hi.after t ht y hy]; ring

/-- A function whose values fall by at most `c` per time from break point to break point falls by at most `c` per time. -/
theorem fn_drain {f : PL} (h : f.WF) {c : ℚ} (hv : ∀ (i : Nat) (s t a b : ℚ), f.times[i]? = some s → f.times[i + 1]? = some t →
    f.values[i]? = some a → f.values[i + 1]? = some b → a - b ≤ c * (t - s)) (h1 : -c ≤ f.first) (h2 : -c ≤ f.last)
    {x y : ℚ} (hxy : x ≤ y) : f.fn x - f.fn y ≤ c * (y - x) := by
  have hm := fn_mono (tilt_wf h c) ?_ (by unfold tilt; simp only; linarith) (by unfold tilt; simp only; linarith) hxy
  · rw [tilt_fn h, tilt_fn h] at hm
    linarith
  · rw [← List.isChain_iff_pairwise, List.isChain_iff_getElem]
    intro i hi
    have hi' : i + 1 < f.times.length := by unfold tilt at hi; simp [h.len] at hi; exact hi
    have e1 := List.getElem?_eq_getElem (l := f.times) (by omega : i < f.times.length)
    have e2 := List.getElem?_eq_getElem hi'
    have e3 := List.getElem?_eq_getElem (l := f.values) (by rw [h.len]; omega : i < f.values.length)
    have e4 := List.getElem?_eq_getElem (l := f.values) (by rw [h.len]; omega : i + 1 < f.values.length)
    have := hv i _ _ _ _ e1 e2 e3 e4
    have g : (f.tilt c).values[i] = f.values[i]'(by rw [h.len]; omega) + c * f.times[i] := by
      exact List.getElem_zipWith
    have g' : (f.tilt c).values[i + 1] = f.values[i + 1]'(by rw [h.len]; omega) + c * f.times[i + 1] := by
      exact List.getElem_zipWith
    rw [g, g']
    linarith

/-- A function with non-negative values at the break points and slope at least 0 at the end is non-negative from the first break point on. -/
theorem fn_nonneg {f : PL} (h : f.WF) (hv : ∀ v ∈ f.values, 0 ≤ v) (hl : 0 ≤ f.last) {x : ℚ} (hx : f.times[0]'h.pos ≤ x) : 0 ≤ f.fn x := by
  by_cases hlx : f.times.getLast h.ne ≤ x
  · rw [fn_right h hlx]
    have := hv _ (List.getLast_mem h.vne)
    have := mul_nonneg hl (sub_nonneg.mpr hlx)
    linarith
  · have hc := inPiece_lrank h x
    have key := fun i hi => lt_countP_le_iff h.le x i hi
    generalize f.times.countP (· ≤ x) = c at *
    have c0 : 0 < c := by rw [key 0 h.pos]; exact hx
    have cl : c < f.times.length := by
      by_contra hcc
      apply hlx
      rw [List.getLast_eq_getElem, ← key _ (by have := h.pos; omega)]
      have := h.pos; omega
    obtain ⟨i, rfl⟩ : ∃ i, c = i + 1 := ⟨c - 1, by omega⟩
    have h1 := hc.1 i (by omega) (by omega)
    have h2 := hc.2 (i + 1) cl (by omega)
    rw [fn_mid h i cl h1 h2]
    have hlt := getElem_lt_of h.lt (show i < i + 1 by omega) cl
    have a := hv _ (List.getElem_mem (l := f.values) (n := i) (by rw [h.len]; omega))
    have b := hv _ (List.getElem_mem (l := f.values) (n := i + 1) (by rw [h.len]; omega))
    have hd : 0 < f.times[i + 1] - f.times[i] := sub_pos.mpr hlt
    have e : ∀ (u v s t : ℚ), 0 < t - s → u + (x - s) * ((v - u) / (t - s)) = (u * (t - x) + v * (x - s)) / (t - s) := by
      intro u v s t ht
      have : t - s ≠ 0 := ne_of_gt ht
      field_simp; ring
    rw [e _ _ _ _ hd]
    exact div_nonneg (add_nonneg (mul_nonneg a (by linarith)) (mul_nonneg b (by linarith))) (le_of_lt hd)

end PL
end Verif
