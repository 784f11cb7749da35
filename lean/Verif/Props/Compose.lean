import Verif.Proofs.PLCompose
import Verif.Props.PiecewiseLinear

/-! C17: `compose` of `PiecewiseLinear`. -/

namespace Verif
namespace Props

/-- No slope of `f` exceeds `L` in absolute value. -/
def SlopesWithin (f : PL) (L : ℚ) : Prop := ∀ i m, f.gradient i = .ok m → |m| ≤ L

/-- `f` maps its domain into the domain of `g`. -/
def MapsInto (f g : PL) : Prop := ∀ t v, f.eval t = .ok v → g.inDom v

/-- `f` does not start with a value before its domain, such as an arrival before the departure. -/
def StartsNotBefore (f : PL) : Prop := ∀ a v : ℚ, f.lo = (a : WithBot ℚ) → f.eval a = .ok v → a ≤ v

/-- A point where `g ∘ f` may bend: a break point of `f`, the start of the domain, or the only point that `f` maps to a certain break point of `g`. -/
def ComposeBend (g f : PL) (t : ℚ) : Prop :=
  t ∈ f.times ∨ f.lo = (t : WithBot ℚ) ∨ ∃ v ∈ g.times, f.eval t = .ok v ∧ ∀ s, f.eval s = .ok v → s = t

theorem bend_iff {g f : PL} (hf : f.WF) (t : ℚ) : PL.Cand g f t ↔ ComposeBend g f t := by
  unfold PL.Cand ComposeBend
  refine or_congr_right (or_congr_right ⟨?_, ?_⟩)
  · rintro ⟨h1, h2, h3⟩
    refine ⟨_, h2, PL.eval_eq hf h1, fun s hs => ?_⟩
    by_cases hd : f.inDom s
    · rw [PL.eval_eq hf hd] at hs
      injection hs with hs
      exact h3 s hd hs
    · rw [PL.eval_err hd] at hs; cases hs
  · rintro ⟨v, h1, h2, h3⟩
    by_cases hd : f.inDom t
    · rw [PL.eval_eq hf hd] at h2
      injection h2 with h2
      subst h2
      exact ⟨hd, h1, fun s hs e => h3 s (by rw [PL.eval_eq hf hs, e])⟩
    · rw [PL.eval_err hd] at h2; cases h2

theorem MapsInto.fn {f g : PL} (hf : f.WF) (h : MapsInto f g) : ∀ t, f.inDom t → g.inDom (f.fn t) := fun t ht => h t _ (PL.eval_eq hf ht)

theorem StartsNotBefore.fn {f : PL} (hf : f.WF) (h : StartsNotBefore f) : ∀ a : ℚ, f.lo = a → a ≤ f.fn a := by
  intro a e
  refine h a _ e (PL.eval_eq hf ⟨le_of_eq e, ?_⟩)
  have h1 : f.lo ≤ _ ∧ _ ≤ f.hi := hf.dom _ (List.getElem_mem hf.pos)
  refine le_trans ?_ h1.2
  rw [e] at h1
  exact WithTop.coe_le_coe.mpr (WithBot.coe_le_coe.mp h1.1)

/-- C17, up to the machine precision: `g.compose(f)` succeeds for every non-decreasing `f` that maps into the domain of `g` (and does not start below its domain), has the
domain of `f`, is `g ∘ f` at each of its break points, and differs from `g ∘ f` by at most `2 · Lg · Lf · eps` everywhere. The full statement (equality everywhere, without
`StartsNotBefore`) is false, see `C17_bend_dropped` and `C17_assertion`. -/
theorem C17_compose_partial (g f : PL) (hg : ValidPL g) (hf : ValidPL f) (hm : NonDecreasing f) (him : MapsInto f g) (hst : StartsNotBefore f) (Lf Lg : ℚ)
    (hLf : SlopesWithin f Lf) (hLg : SlopesWithin g Lg) :
    ∃ h, g.compose f = .ok h ∧ ValidPL h ∧ h.lo = f.lo ∧ h.hi = f.hi ∧
      ∀ t, f.inDom t → ∃ v w x, f.eval t = .ok v ∧ g.eval v = .ok w ∧ h.eval t = .ok x ∧ |x - w| ≤ 2 * (Lg * Lf) * eps ∧ (t ∈ h.times → x = w) := by
  obtain ⟨h, h1, h2, h3, h4, h5, h6⟩ := PL.compose_ok hg.wf hf.wf (hm.monoOn hf) (him.fn hf.wf) (hst.fn hf.wf) eps_pos.le (δ := eps) (fun s t _ _ _ e => e) hLf hLg
  refine ⟨h, h1, h2.valid, h3, h4, fun t ht => ⟨_, _, _, PL.eval_eq hf.wf ht, PL.eval_eq hg.wf (him.fn hf.wf t ht), PL.eval_eq h2 ?_, h6 t ht, fun hmem => h5 t hmem⟩⟩
  unfold PL.inDom; rw [h3, h4]; exact ht

/-- C17, exactly: if the points where `g ∘ f` may bend are more than eps apart, then `g.compose(f)(t) = g(f(t))` for every `t` of the domain of `f`. -/
theorem C17_compose_exact (g f : PL) (hg : ValidPL g) (hf : ValidPL f) (hm : NonDecreasing f) (him : MapsInto f g) (hst : StartsNotBefore f)
    (hsep : ∀ s t, ComposeBend g f s → ComposeBend g f t → s < t → s + eps < t) :
    ∃ h, g.compose f = .ok h ∧ ValidPL h ∧ h.lo = f.lo ∧ h.hi = f.hi ∧
      ∀ t, f.inDom t → ∃ v w, f.eval t = .ok v ∧ g.eval v = .ok w ∧ h.eval t = .ok w := by
  obtain ⟨Lf, hLf⟩ := PL.slopes_exist f hf.wf
  obtain ⟨Lg, hLg⟩ := PL.slopes_exist g hg.wf
  have near : PL.Near g f 0 := by
    intro s t hs ht hst he
    rcases lt_or_eq_of_le hst with h | h
    · have := hsep s t ((bend_iff hf.wf s).mp hs) ((bend_iff hf.wf t).mp ht) h
      linarith
    · linarith
  obtain ⟨h, h1, h2, h3, h4, h5, h6⟩ := PL.compose_ok hg.wf hf.wf (hm.monoOn hf) (him.fn hf.wf) (hst.fn hf.wf) le_rfl near hLf hLg
  refine ⟨h, h1, h2.valid, h3, h4, fun t ht => ⟨_, _, PL.eval_eq hf.wf ht, PL.eval_eq hg.wf (him.fn hf.wf t ht), ?_⟩⟩
  rw [PL.eval_eq h2 (by unfold PL.inDom; rw [h3, h4]; exact ht)]
  have := h6 t ht
  rw [mul_zero, abs_nonpos_iff] at this
  rw [sub_eq_zero.mp this]; rfl

/-- A function with a bend between and behind the values of `stairs`. -/
def hook : PL := ⟨[1, 3, 10], [5, 0, 2], 1, 2, ⊥, ⊤⟩

theorem hook_valid : ValidPL hook := ⟨by decide, by decide, by unfold eps; decide +kernel, by decide +kernel⟩

theorem stairs_into_hook : MapsInto stairs hook ∧ StartsNotBefore stairs := ⟨fun _ _ _ => ⟨bot_le, le_top⟩, fun a v e => by cases e⟩

theorem stairs_slopes : SlopesWithin stairs 2 ∧ SlopesWithin hook 4 := by
  have key : ∀ i ∈ [(-1 : Int), 0, 1, 2], (∀ m ∈ (stairs.gradient i).toOption, |m| ≤ 2) ∧ ∀ m ∈ (hook.gradient i).toOption, |m| ≤ 4 := by decide +kernel
  constructor
  · intro i m h
    have hr := PL.gradient_range h
    have hi : i ∈ [(-1 : Int), 0, 1, 2] := by
      have : stairs.times.length = 3 := rfl
      simp only [List.mem_cons, List.not_mem_nil, or_false]; omega
    refine (key i hi).1 m ?_
    rw [h]; rfl
  · intro i m h
    have hr := PL.gradient_range h
    have hi : i ∈ [(-1 : Int), 0, 1, 2] := by
      have : hook.times.length = 3 := rfl
      simp only [List.mem_cons, List.not_mem_nil, or_false]; omega
    refine (key i hi).2 m ?_
    rw [h]; rfl

theorem stairs_bends : ∀ s t, ComposeBend hook stairs s → ComposeBend hook stairs t → s < t → s + eps < t := by
  have key : ∀ t, ComposeBend hook stairs t → t ∈ [(0 : ℚ), 1 / 2, 3 / 2, 2, 5, 8] := by
    rintro t (h | h | ⟨v, h1, h2, h3⟩)
    · have : t ∈ [(0 : ℚ), 2, 5] := h
      simp only [List.mem_cons, List.not_mem_nil, or_false] at this ⊢
      tauto
    · cases h
    · have : v ∈ [(1 : ℚ), 3, 10] := h1
      simp only [List.mem_cons, List.not_mem_nil, or_false] at this ⊢
      rcases this with rfl | rfl | rfl
      · rw [← h3 (1 / 2) (by decide +kernel)]; tauto
      · rw [← h3 (3 / 2) (by decide +kernel)]; tauto
      · rw [← h3 8 (by decide +kernel)]; tauto
  intro s t hs ht hst
  have all : ∀ s ∈ [(0 : ℚ), 1 / 2, 3 / 2, 2, 5, 8], ∀ t ∈ [(0 : ℚ), 1 / 2, 3 / 2, 2, 5, 8], s < t → s + eps < t := by unfold eps; decide +kernel
  exact all s (key s hs) t (key t ht) hst

-- both theorems apply to `hook` after `stairs`, and this is what the call returns
example := C17_compose_partial hook stairs hook_valid stairs_ok.1 stairs_ok.2 stairs_into_hook.1 stairs_into_hook.2 2 4 stairs_slopes.1 stairs_slopes.2
example := C17_compose_exact hook stairs hook_valid stairs_ok.1 stairs_ok.2 stairs_into_hook.1 stairs_into_hook.2 stairs_bends
example : hook.compose stairs = .ok ⟨[0, 1 / 2, 3 / 2, 2, 5, 8], [4, 5, 0, 2 / 7, 2 / 7, 2], 1, 4, ⊥, ⊤⟩ := by decide +kernel

/-- C17 is false in general: `compose` leaves out a bend that is within eps of the one before. -/
theorem C17_bend_dropped : ∃ g f h : PL, ∃ t v w x, ValidPL g ∧ ValidPL f ∧ NonDecreasing f ∧ MapsInto f g ∧ StartsNotBefore f ∧ g.compose f = .ok h ∧
    f.eval t = .ok v ∧ g.eval v = .ok w ∧ h.eval t = .ok x ∧ x ≠ w := by
  have hv : ValidPL ⟨[0], [0], 1, 1, ⊥, ⊤⟩ := ⟨by decide, by decide, by unfold eps; decide +kernel, by decide +kernel⟩
  refine ⟨⟨[eps / 2, 1], [0, 1], 0, 1, ⊥, ⊤⟩, ⟨[0], [0], 1, 1, ⊥, ⊤⟩, ⟨[0, 1], [0, 1], 0, 1, ⊥, ⊤⟩, eps / 2, eps / 2, 0, eps / 2, ?_, hv, ?_, ?_, ?_, ?_, ?_, ?_, ?_, ?_⟩
  · refine ⟨by decide, by simp, by unfold eps; decide +kernel, fun _ _ => ⟨bot_le, le_top⟩⟩
  · intro x y a b hxy ha hb
    rw [PL.eval_eq hv.wf ⟨bot_le, le_top⟩] at ha hb
    injection ha with ha; injection hb with hb
    rw [← ha, ← hb]
    exact PL.fn_mono hv.wf (by decide +kernel) (by decide) (by decide) hxy
  · exact fun _ _ _ => ⟨bot_le, le_top⟩
  · exact fun a v e => by cases e
  all_goals unfold eps; decide +kernel

/-- C17 is false without `StartsNotBefore`: the assertion in front of the loop compares the start of the domain of `f`, instead of the start of its image, with the break points of `g`,
and fails although `g ∘ f` is defined. -/
theorem C17_assertion : ∃ g f : PL, ValidPL g ∧ ValidPL f ∧ NonDecreasing f ∧ MapsInto f g ∧ g.compose f = .error .assertion := by
  have hv : ValidPL ⟨[20], [10], 1, 1, (20 : ℚ), ⊤⟩ := ⟨by decide, by decide, by unfold eps; decide +kernel, by decide +kernel⟩
  refine ⟨⟨[0, 5, 15], [0, 5, 15], 1, 1, ⊥, ⊤⟩, ⟨[20], [10], 1, 1, (20 : ℚ), ⊤⟩, ?_, hv, ?_, ?_, ?_⟩
  · exact ⟨by decide, by decide, by unfold eps; decide +kernel, by decide +kernel⟩
  · intro x y a b hxy ha hb
    have hd : ∀ t v, PL.eval ⟨[20], [10], 1, 1, (20 : ℚ), ⊤⟩ t = .ok v → v = PL.fn ⟨[20], [10], 1, 1, (20 : ℚ), ⊤⟩ t := by
      intro t v he
      by_cases hc : PL.inDom ⟨[20], [10], 1, 1, (20 : ℚ), ⊤⟩ t
      · rw [PL.eval_eq hv.wf hc] at he; injection he with he; exact he.symm
      · rw [PL.eval_err hc] at he; exact absurd he (by simp)
    rw [hd x a ha, hd y b hb]
    exact PL.fn_mono hv.wf (by decide +kernel) (by decide) (by decide) hxy
  · exact fun _ _ _ => ⟨bot_le, le_top⟩
  · decide +kernel

end Props
end Verif
