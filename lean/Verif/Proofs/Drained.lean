import Verif.Proofs.BFHorizon
import Verif.Props.Evaluate
import Verif.Props.Predictors
import Verif.Spec.Drained

/-! Costs of edges whose queues do not change from a time on. -/

namespace Verif
namespace Drained
open Verif.Spec Verif.BF

theorem free_right (ts : List ℚ) {a b : ℚ} (h : a < b) : ∃ c, a < c ∧ c ≤ b ∧ ∀ t ∈ ts, ¬ (a < t ∧ t < c) := by
  induction ts with
  | nil => exact ⟨b, h, le_refl _, by simp⟩
  | cons s ts ih =>
    obtain ⟨c, h1, h2, h3⟩ := ih
    by_cases hs : a < s
    · refine ⟨min s c, lt_min hs h1, le_trans (min_le_right _ _) h2, fun t ht hh => ?_⟩
      rcases List.mem_cons.mp ht with rfl | ht
      · exact absurd hh.2 (not_lt.mpr (min_le_left _ _))
      · exact h3 t ht ⟨hh.1, lt_of_lt_of_le hh.2 (min_le_right _ _)⟩
    · refine ⟨c, h1, h2, fun t ht hh => ?_⟩
      rcases List.mem_cons.mp ht with rfl | ht
      · exact hs hh.1
      · exact h3 t ht hh

/-- The slopes of a scaled function with fewer break points. -/
theorem slope_of {f q : PL} (hf : f.WF) (hq : q.WF) {tau nu : ℚ} (hnu : 0 < nu) (hfirst : f.first = q.first / nu) (hfn : ∀ t, f.fn t = tau + q.fn t / nu) {i : Int} {m : ℚ}
    (hm : f.gradient i = .ok m) : ∃ j m', q.gradient j = .ok m' ∧ m = m' / nu := by
  obtain ⟨r1, r2⟩ := PL.gradient_range hm
  by_cases c : i = -1
  · subst c
    rw [PL.gradient_first hf] at hm
    injection hm with hm
    exact ⟨-1, q.first, PL.gradient_first hq, by rw [← hm, hfirst]⟩
  obtain ⟨k, rfl⟩ : ∃ k : Nat, i = k := ⟨i.toNat, by omega⟩
  have hk : k < f.times.length := by omega
  obtain ⟨b, hb, hb'⟩ : ∃ b, f.times[k] < b ∧ ∀ (h : k + 1 < f.times.length), b ≤ f.times[k + 1] := by
    by_cases c : k + 1 < f.times.length
    · exact ⟨f.times[k + 1], PL.getElem_lt_of hf.lt (by omega) c, fun _ => le_refl _⟩
    · exact ⟨f.times[k] + 1, by linarith, fun h => absurd h c⟩
  obtain ⟨c, c1, c2, c3⟩ := free_right q.times hb
  obtain ⟨j, m', j1, j2⟩ := piece_slope hq c3
  refine ⟨j, m', j1, ?_⟩
  have e1 : f.fn c = f.fn f.times[k] + m * (c - f.times[k]) := by
    refine PL.fn_piece hf hm ⟨?_, ?_⟩ (PL.inPiece_time_left hf k hk)
    · intro j hj e
      have : j = k := by omega
      subst this; exact c1.le
    · intro j hj e
      have : j = k + 1 := by omega
      subst this; exact le_trans c2 (hb' hj)
  have e2 := j2 c c1.le (le_refl _)
  rw [hfn, hfn, e2] at e1
  have hpos : c - f.times[k] ≠ 0 := (sub_pos.mpr c1).ne'
  have : m * (c - f.times[k]) = m' / nu * (c - f.times[k]) := by
    have : (q.fn f.times[k] + m' * (c - f.times[k])) / nu = q.fn f.times[k] / nu + m' / nu * (c - f.times[k]) := by ring
    linarith
  exact mul_right_cancel₀ hpos this


variable {P : Type} {n : Network P} {flow : DFlow} {arr : Nat → ℚ → ℚ} {sink : Nat} {H0 horizon : ℚ} {lines : List (ℚ × ℚ)} {kinks : List ℚ}

/-- The cost of an edge. -/
theorem cost_ok (hn : InputOk n) (hr : Reached n.data flow) (harr : TravelsAlways n flow arr) (hd : Drained n flow arr sink H0 horizon lines kinks) (hphi : H0 ≤ flow.phi) (hH : H0 < horizon)
    (h0 : 0 ≤ H0) {r : Nat} (hre : r ∈ n.graph.edges) :
    ∃ f, Evaluate.queueCost n horizon (flow.queues (n.graph.edge r).id) (n.graph.edge r).id = .ok f ∧ CostOk 0 f.free ∧ f.WF ∧ (horizon : WithTop ℚ) ≤ f.hi ∧ (∀ t ∈ f.times, t ≤ H0 ∧ t ∈ kinks) ∧
      ∀ t, 0 ≤ t → f.fn t = arr r t - t := by
  have he := eps_pos
  obtain ⟨tau, nu, x0, h1, h2, _, _⟩ := harr r hre 0 (le_refl _)
  have hnu : 0 < nu := hn.cap _ (List.mem_of_getElem? h2)
  have htau : 0 ≤ tau := hn.tt _ (List.mem_of_getElem? h1)
  have hq := Props.reached_facts hr (n.graph.edge r).id
  set q := flow.queues (n.graph.edge r).id with hqd
  have harr' : ∀ t, 0 ≤ t → arr r t - t = tau + q.fn t / nu := by
    intro t ht
    obtain ⟨tau', nu', x, g1, g2, g3, g4⟩ := harr r hre t ht
    rw [h1] at g1; rw [h2] at g2
    injection g1 with g1; injection g2 with g2
    rw [hq.eval] at g3
    injection g3 with g3
    rw [g4, ← g1, ← g2, ← g3]; ring
  have hturn : ∀ t ∈ q.times, Turn 0 lines kinks t := fun t ht => ⟨hd.start t (hd.bends r hre t ht), Or.inr (Or.inl (hd.bends r hre t ht))⟩
  have htimes : ∀ t ∈ q.times, t ≤ H0 := fun t ht => hd.turns t (hturn t ht)
  have hlast : q.last = 0 := by
    have e1 := hd.const r hre (H0 + 1) (by linarith)
    rw [harr' _ (by linarith), harr' _ h0, PL.fn_right_aff hq.wf (y := H0) (fun s hs => by have := htimes s hs; linarith) htimes] at e1
    have : q.last * (H0 + 1 - H0) / nu = 0 := by
      have : (q.fn H0 + q.last * (H0 + 1 - H0)) / nu = q.fn H0 / nu + q.last * (H0 + 1 - H0) / nu := by ring
      linarith
    rcases div_eq_zero_iff.mp this with h | h
    · linarith
    · exact absurd h hnu.ne'
  have hfirst : q.first = 0 := by
    have hp := hq.wf.pos
    have h3 : 0 ≤ q.times[0] := (hturn _ (List.getElem_mem hp)).1
    have e1 := PL.fn_left hq.wf hp (x := 0) h3
    have e2 := PL.fn_left hq.wf hp (x := -1) (by linarith)
    rw [hq.start 0 (le_refl _)] at e1
    rw [hq.start (-1) (by norm_num)] at e2
    linarith
  have hcap : n.data.capacity (n.graph.edge r).id = nu := by simp [Network.data, h2]
  have hslope := hd.slopes r hre nu h2
  obtain ⟨f, f1, f2, f3, f4, f5, f6, f7, _, f9⟩ := Props.queueCost_spec n horizon q (n.graph.edge r).id tau nu h1 h2 hnu hq.wf.valid (fun t ht => ⟨(hturn t ht).1, by have := htimes t ht; linarith⟩)
    (fun j g0 g1 _ e0 e1 => hslope _ _ _ _ e0 e1)
  have hfar : ∀ t, H0 ≤ t → q.fn t = q.fn H0 := by
    intro t ht
    rw [PL.fn_right_aff hq.wf (y := H0) (fun s hs => le_trans (htimes s hs) ht) htimes, hlast]; ring
  have hnn : ∀ t, 0 ≤ q.fn t := by
    intro t
    rcases le_total t H0 with h | h
    · exact hq.nonneg t (by linarith)
    · rw [hfar t h]; exact hq.nonneg H0 hphi
  have hdrain : ∀ s t, s ≤ t → t ≤ H0 → s + q.fn s / nu ≤ t + q.fn t / nu := by
    intro s t hst ht
    have := hq.drain s t hst (by linarith)
    rw [hcap] at this
    have e : (q.fn s - q.fn t) / nu ≤ t - s := by rw [div_le_iff₀ hnu]; linarith
    rw [sub_div] at e
    linarith
  refine ⟨f, f1, ⟨wf_free f2, by show f.lo ≤ _; rw [f3], rfl, by show f.first = 0; rw [f5, hfirst, zero_div], by show f.last = 0; rw [f6, hlast, zero_div], ?_, ?_, ?_, ?_⟩, f2, by rw [f4],
    fun t ht => ⟨htimes t (f7.subset ht), hd.bends r hre t (f7.subset ht)⟩, fun t ht => by rw [f9, harr' t ht]⟩
  · intro t _
    show 0 ≤ f.fn t
    rw [f9]
    have := div_nonneg (hnn t) hnu.le
    linarith
  · intro s t hs hst
    show s + f.fn s ≤ t + f.fn t
    rw [f9, f9]
    rcases le_total t H0 with h | h
    · have := hdrain s t hst h; linarith
    · rw [hfar t h]
      rcases le_total s H0 with h' | h'
      · have := hdrain s H0 h' (le_refl _); linarith
      · rw [hfar s h']; linarith
  · intro t ht hne
    have ht' := hturn t (f7.subset ht)
    have := hd.clear.turns 0 t ⟨le_refl _, Or.inl rfl⟩ ht' (lt_of_le_of_ne ht'.1 (Ne.symm hne))
    rw [sub_zero, abs_of_nonneg ht'.1]
    linarith
  · intro i j m m' hm hm'
    obtain ⟨i', a, a1, rfl⟩ := slope_of f2 hq.wf hnu f5 f9 (show f.gradient i = .ok m from hm)
    obtain ⟨j', b, b1, rfl⟩ := slope_of f2 hq.wf hnu f5 f9 (show f.gradient j = .ok m' from hm')
    rcases hslope _ _ _ _ a1 b1 with h | h
    · exact Or.inl (by rw [h])
    · right
      rw [← sub_div, abs_div, abs_of_pos hnu, le_div_iff₀ hnu]
      exact h

end Drained
end Verif
