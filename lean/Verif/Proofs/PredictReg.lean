import Verif.Proofs.PredictML
import Verif.Proofs.PLInt

/-! The regression predictors. -/

namespace Verif
open Spec

namespace PL

/-- `simplify` keeps some of the break points, the first one among them, and the values there. -/
theorem simplifyLoop_keeps {f : PL} (h : f.WF) : ∀ (n i : Nat) (ts vs : List ℚ), i + n + 1 = f.times.length →
    ∃ R, simplifyLoop f n i ts vs = .ok (ts ++ R, vs ++ R.map f.fn) ∧ R.Sublist (f.times.drop (i + 1)) := by
  have hvl := h.len
  intro n
  induction n with
  | zero => intro i ts vs hn; exact ⟨[], by simp [simplifyLoop], by simp⟩
  | succ n ih =>
    intro i ts vs hn
    rw [simplifyLoop]
    obtain ⟨g0, hg0⟩ := gradient_ok h (r := (i : Int)) (by omega) (by omega)
    obtain ⟨g1, hg1⟩ := gradient_ok h (r := (i : Int) + 1) (by omega) (by omega)
    rw [hg0, ok_bind, hg1, ok_bind]
    have hi1 : i + 1 < f.times.length := by omega
    by_cases c : |g0 - g1| ≥ 1000 * eps
    · rw [if_pos c, rd_lt _ _ hi1, ok_bind, rd_lt _ _ (by omega), ok_bind]
      obtain ⟨R, a1, a2⟩ := ih (i + 1) (ts ++ [f.times[i + 1]]) (vs ++ [f.values[i + 1]]) (by omega)
      refine ⟨f.times[i + 1] :: R, ?_, ?_⟩
      · rw [a1]; simp [fn_time h]
      · rw [List.drop_eq_getElem_cons hi1]; exact a2.cons_cons _
    · rw [if_neg c]
      obtain ⟨R, a1, a2⟩ := ih (i + 1) ts vs (by omega)
      refine ⟨R, a1, ?_⟩
      rw [List.drop_eq_getElem_cons hi1]; exact a2.cons _

theorem simplify_keeps {f : PL} (h : f.WF) : ∃ g, f.simplify = .ok g ∧ g.WF ∧ g.lo = f.lo ∧ g.hi = f.hi ∧ g.first = f.first ∧ g.last = f.last ∧
    g.times.Sublist f.times ∧ g.times[0]? = f.times[0]? ∧ g.values = g.times.map f.fn := by
  have hp := h.pos
  have hvl := h.len
  obtain ⟨R, a1, a2⟩ := simplifyLoop_keeps h (f.times.length - 1) 0 [f.times[0]] [f.values[0]] (by omega)
  have hcons : f.times = f.times[0] :: f.times.drop 1 := by
    have := List.drop_eq_getElem_cons hp
    simpa using this
  have hsub : (f.times[0] :: R).Sublist f.times := by
    have := a2.cons_cons f.times[0]
    simp only [Nat.zero_add] at this
    rw [← hcons] at this
    exact this
  have hw : WF ⟨f.times[0] :: R, f.values[0] :: R.map f.fn, f.first, f.last, f.lo, f.hi⟩ :=
    ⟨by simp, by simp, h.gap.sublist hsub, fun t ht => h.dom t (hsub.subset ht)⟩
  refine ⟨_, ?_, hw, rfl, rfl, rfl, rfl, hsub, by simp, ?_⟩
  · unfold simplify
    rw [rd_lt _ 0 hp, ok_bind, rd_lt _ 0 (by omega), ok_bind, a1, ok_bind]
    exact new_ok hw
  · simp [fn_time h]

/-- A simplified physical prediction is physical. -/
theorem simplify_physical {f : PL} (h : f.WF) {cap t cur : ℚ} (hcap : 0 ≤ cap) (h0 : f.times[0]'h.pos = t) (h1 : f.first = 0) (h2 : f.last = 0)
    (hp : Physical cap t cur f.fn) : ∃ g, f.simplify = .ok g ∧ g.WF ∧ g.lo = f.lo ∧ g.hi = f.hi ∧ (∀ x ∈ g.times, t ≤ x) ∧ Physical cap t cur g.fn := by
  obtain ⟨g, g1, g2, g3, g4, g5, g6, g7, g8, g9⟩ := simplify_keeps h
  have hle : ∀ x ∈ g.times, t ≤ x := fun x hx => by rw [← h0]; exact head_le h.lt h.pos (g7.subset hx)
  have hg0 : g.times[0]'g2.pos = t := by
    rw [List.getElem?_eq_getElem h.pos, List.getElem?_eq_getElem g2.pos] at g8
    injection g8 with g8; rw [g8, h0]
  have hval : ∀ (i : Nat) (s a : ℚ), g.times[i]? = some s → g.values[i]? = some a → a = f.fn s := by
    intro i s a hs ha
    rw [g9, List.getElem?_map, hs] at ha
    injection ha with ha; exact ha.symm
  refine ⟨g, g1, g2, g3, g4, hle, ?_, ?_, ?_⟩
  · rw [← hp.start]
    have := fn_time g2 0 g2.pos
    rw [hg0] at this
    rw [this]
    exact hval 0 t _ (by rw [List.getElem?_eq_getElem g2.pos, hg0]) (List.getElem?_eq_getElem (by rw [g2.len]; exact g2.pos))
  · intro x hx
    refine fn_nonneg g2 ?_ (by rw [g6, h2]) (by rw [hg0]; exact hx)
    intro v hv
    rw [g9] at hv
    obtain ⟨s, hs, rfl⟩ := List.mem_map.mp hv
    exact hp.nonneg s (hle s hs)
  · intro x y _ hxy
    refine fn_drain g2 ?_ (by rw [g5, h1]; linarith) (by rw [g6, h2]; linarith) hxy
    intro i s u a b k1 k2 k3 k4
    rw [hval i s a k1 k3, hval (i + 1) u b k2 k4]
    obtain ⟨i1, rfl⟩ := List.getElem?_eq_some_iff.mp k1
    obtain ⟨i2, rfl⟩ := List.getElem?_eq_some_iff.mp k2
    exact hp.drain _ _ (hle _ (List.getElem_mem _)) (le_of_lt (getElem_lt_of g2.lt (by omega) i2))

end PL

namespace Predictors

theorem perEdgeValues_length (av : Bool) (cap : ℚ) : ∀ (l : List ℚ) (c : ℚ), (perEdgeValues av cap c l).length = l.length + 1 := by
  intro l
  induction l with
  | nil => intro c; rfl
  | cons v l ih => intro c; simp [perEdgeValues, ih]

theorem perEdgeValues_head (av : Bool) (cap : ℚ) (l : List ℚ) (c : ℚ) : (perEdgeValues av cap c l)[0]? = some c := by
  cases l <;> simp [perEdgeValues]

theorem perEdgeValues_step (av : Bool) (cap : ℚ) : ∀ (l : List ℚ) (c : ℚ) (i : Nat) (a b : ℚ), (perEdgeValues av cap c l)[i]? = some a →
    (perEdgeValues av cap c l)[i + 1]? = some b → a - b ≤ cap := by
  intro l
  induction l with
  | nil => intro c i a b _ h; simp [perEdgeValues] at h
  | cons v l ih =>
    intro c i a b h1 h2
    unfold perEdgeValues at h1 h2
    simp only [List.getElem?_cons_succ] at h2
    cases i with
    | zero =>
      rw [perEdgeValues_head] at h2
      simp only [List.getElem?_cons_zero] at h1
      injection h1 with h1; injection h2 with h2
      subst h1; subst h2
      have := le_trans (le_max_right (if av = true then 2 * v - c else v) (c - cap)) (le_max_left _ 0)
      linarith
    | succ i => exact ih _ i a b (by simpa using h1) h2

theorem perEdgeValues_nonneg (av : Bool) (cap : ℚ) : ∀ (l : List ℚ) (c : ℚ), 0 ≤ c → ∀ v ∈ perEdgeValues av cap c l, 0 ≤ v := by
  intro l
  induction l with
  | nil => intro c hc v hv; simp [perEdgeValues] at hv; rw [hv]; exact hc
  | cons w l ih =>
    intro c hc v hv
    unfold perEdgeValues at hv
    rcases List.mem_cons.mp hv with rfl | hv
    · exact hc
    · exact ih _ (le_max_right _ _) v hv

/-- The function of one edge of the per-edge predictor, before it is simplified. -/
theorem perEdge_fn {av : Bool} {cap t cur : ℚ} {future : Nat} {raw : List ℚ} (hcap : 0 ≤ cap) (hc : 0 ≤ cur) (hl : raw.length = future) :
    ∃ p, PL.new (futureTimes t 1 future) (perEdgeValues av cap cur raw) 0 0 ⊥ ⊤ = .ok p ∧ ∃ h : p.WF, p.times[0]'h.pos = t ∧ p.first = 0 ∧ p.last = 0 ∧
      p.lo = ⊥ ∧ p.hi = ⊤ ∧ Physical cap t cur p.fn := by
  have hwf : PL.WF ⟨futureTimes t 1 future, perEdgeValues av cap cur raw, 0, 0, ⊥, ⊤⟩ :=
    ⟨by simp [perEdgeValues_length, hl, futureTimes_length], by simp [futureTimes], futureTimes_gap (by unfold eps; norm_num) _, fun _ _ => ⟨bot_le, le_top⟩⟩
  have h0 : (futureTimes t 1 future)[0]'hwf.pos = t := by
    have : (futureTimes t 1 future)[0]? = some ((futureTimes t 1 future)[0]'hwf.pos) := List.getElem?_eq_getElem _
    have := (futureTimes_get this).1
    simpa using this
  refine ⟨_, PL.new_ok hwf, hwf, h0, rfl, rfl, rfl, rfl, ?_, ?_, ?_⟩
  · have e1 := PL.fn_time hwf 0 hwf.pos
    simp only [h0] at e1
    rw [e1]
    have : (perEdgeValues av cap cur raw)[0]? = some ((perEdgeValues av cap cur raw)[0]'(by rw [perEdgeValues_length]; omega)) := List.getElem?_eq_getElem _
    rw [perEdgeValues_head] at this
    injection this with this
    exact this.symm
  · intro x hx
    exact PL.fn_nonneg hwf (perEdgeValues_nonneg _ _ _ _ hc) le_rfl (by simp only [h0]; exact hx)
  · intro x y _ hxy
    refine PL.fn_drain hwf ?_ (by simp only; linarith) (by simp only; linarith) hxy
    intro i s u a b g1 g2 g3 g4
    simp only at g1 g2 g3 g4
    rw [(futureTimes_get g1).1, (futureTimes_get g2).1]
    have := perEdgeValues_step _ _ _ _ i a b g3 g4
    push_cast
    linarith

theorem wekaEdge_ok {t q0 q1 q2 q3 q4 : ℚ} (n0 : 0 ≤ q0) (n1 : 0 ≤ q1) (n2 : 0 ≤ q2) (n3 : 0 ≤ q3) (n4 : 0 ≤ q4) :
    ∃ p, wekaEdge ⟨[t], [0], 0, 0, ⊥, ⊤⟩ t q0 q1 q2 q3 q4 = .ok p ∧ Evals p p.fn ∧ p.fn t = q0 ∧ ∀ x, t ≤ x → 0 ≤ p.fn x := by
  have he : eps < 1 := by unfold eps; norm_num
  unfold wekaEdge
  split
  · next hz =>
    refine ⟨_, rfl, PL.evals (PL.wf_const t 0) rfl rfl, ?_, fun x _ => by rw [PL.fn_const]⟩
    have : q0 ≤ 0 := by
      rw [← hz]
      exact le_trans (le_trans (le_trans (le_max_left _ _) (le_max_left _ _)) (le_max_left _ _)) (le_max_left _ _)
    rw [PL.fn_const]; linarith
  · have hg : ([t, t + 1, t + 2, t + 3, t + 4, t + 5, t + 6, t + 7, t + 8, t + 9] : List ℚ).Pairwise (fun a b => a < b - eps) := by
      have : ([t, t + 1, t + 2, t + 3, t + 4, t + 5, t + 6, t + 7, t + 8, t + 9] : List ℚ) = futureTimes t 1 9 := by
        simp [futureTimes, List.range_succ]
      rw [this]; exact futureTimes_gap he 9
    have hw : PL.WF ⟨[t, t + 1, t + 2, t + 3, t + 4, t + 5, t + 6, t + 7, t + 8, t + 9],
      [q0, q0 + 268 / 100, 101 / 100 * q0 + 536 / 100, 101 / 100 * q0 + 847 / 100, 102 / 100 * q0 + 1167 / 100,
      102 / 100 * q4 + 1467 / 100, 102 / 100 * q3 + 1467 / 100, 102 / 100 * q2 + 1467 / 100, 102 / 100 * q1 + 1467 / 100, 102 / 100 * q0 + 1467 / 100],
      0, 0, ⊥, ⊤⟩ := ⟨rfl, by simp, hg, fun _ _ => ⟨bot_le, le_top⟩⟩
    refine ⟨_, PL.new_ok hw, PL.evals hw rfl rfl, ?_, fun x hx => PL.fn_nonneg hw ?_ le_rfl hx⟩
    · exact (PL.interpolates hw).at_break 0 t _ rfl rfl
    · intro v hv
      simp only [List.mem_cons, List.not_mem_nil, or_false] at hv
      rcases hv with rfl | rfl | rfl | rfl | rfl | rfl | rfl | rfl | rfl | rfl <;> linarith

end Predictors
end Verif
