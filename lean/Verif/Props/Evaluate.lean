import Verif.Spec.Evaluate
import Verif.Proofs.PLInt
import Verif.Proofs.BuilderCosts
import Verif.Props.BellmanFord

/-! C77: `calculate_optimal_average_travel_time` (src/eval/evaluate.py). -/

namespace Verif
namespace Props
open Verif.Spec Verif.Evaluate

/-- Labels as the search returns them: on a domain from 0 to some end, non-decreasing, never earlier than the departure; break points are not within eps of the ends of the domain or of 0. -/
structure GoodLabel (p : PL) : Prop where
  valid : ValidPL p
  lo : p.lo = ((0 : ℚ) : WithBot ℚ)
  hi : ∃ e : ℚ, p.hi = (e : WithTop ℚ) ∧ eps < e
  mono : NonDecreasing p
  later : ∀ t v, p.eval t = .ok v → t ≤ v
  apart : ∀ t ∈ p.times, (0 < t → eps < t) ∧ ∀ e : ℚ, p.hi = (e : WithTop ℚ) → t < e → eps < e - t

theorem minusT_fn (t : ℚ) : PL.fn ⟨[0], [0], -1, -1, ⊥, ⊤⟩ t = -t := by
  have hv : PL.WF ⟨[0], [0], -1, -1, ⊥, ⊤⟩ := ⟨rfl, by simp, by simp, by simp [PL.inDom]⟩
  rcases le_total t 0 with h | h
  · rw [PL.fn_left hv (by simp) (by simpa using h)]; simp
  · rw [PL.fn_right hv (by simpa using h)]; simp

/-- C77: for every such label that promises arrival before the horizon at time 0, `integrate_opt` returns the average travel time up to the inflow horizon. -/
theorem C77_average (p : PL) (hp : GoodLabel p) (horizon : ℚ) (inflowHorizon : WithTop ℚ) (hin : (0 : WithTop ℚ) < inflowHorizon) (v : ℚ) (hv : p.eval 0 = .ok v) (hlt : v < horizon) :
    ∃ x, integrateOpt inflowHorizon horizon p = .ok x ∧ AverageTime p horizon (capAt inflowHorizon horizon) x := by
  have hw := hp.valid.wf
  have hm := hp.mono.monoOn hp.valid
  have he := eps_pos
  obtain ⟨e, hhi, he0⟩ := hp.hi
  have hdom : ∀ t, p.inDom t ↔ 0 ≤ t ∧ t ≤ e := by
    intro t
    unfold PL.inDom
    rw [hp.lo, hhi, WithBot.coe_le_coe, WithTop.coe_le_coe]
  have h0 : p.inDom 0 := (hdom 0).mpr ⟨le_refl _, by linarith⟩
  have hv0 : p.fn 0 < horizon := by
    have := (eval_fn hw hv).2
    rw [← this]; exact hlt
  have hlater : ∀ t, p.inDom t → t ≤ p.fn t := fun t ht => hp.later t _ (PL.eval_eq hw ht)
  have hnw : PL.WF ⟨[0], [0], -1, -1, ⊥, ⊤⟩ := ⟨rfl, by simp, by simp, by simp [PL.inDom]⟩
  have hmax : max p.lo (⊥ : WithBot ℚ) = ((0 : ℚ) : WithBot ℚ) := by rw [hp.lo]; exact max_eq_left bot_le
  have hmin : min p.hi (⊤ : WithTop ℚ) = (e : WithTop ℚ) := by rw [hhi]; exact min_eq_left le_top
  obtain ⟨s, s1, s2, s3, s4, _, _, s7, s8, s9⟩ := PL.plus_ok hw hnw (by
      simp only [hmax, hmin]
      show decide ((0 : ℚ) < e) = true
      exact decide_eq_true (by linarith)) (by
    have hmem : ∀ a, a ∈ p.times ++ [0] ++ ends ((0 : ℚ) : WithBot ℚ) (e : WithTop ℚ) → a ∈ p.times ∨ a = 0 ∨ a = e := by
      intro a ha
      rcases List.mem_append.mp ha with h | h
      · rcases List.mem_append.mp h with h | h
        · exact Or.inl h
        · exact Or.inr (Or.inl (by simpa using h))
      · have : a ∈ [0, e] := h
        simp only [List.mem_cons, List.not_mem_nil, or_false] at this
        exact Or.inr this
    intro a ha b hb hab
    simp only [hmax, hmin] at ha hb
    have hle : ∀ t ∈ p.times, 0 ≤ t ∧ t ≤ e := fun t ht => (hdom t).mp (hw.dom t ht)
    replace ha := hmem a ha
    replace hb := hmem b hb
    clear hmem
    rcases ha with ha | rfl | rfl <;> rcases hb with hb | rfl | rfl
    · obtain ⟨i, hi, rfl⟩ := List.getElem_of_mem ha
      obtain ⟨j, hj, rfl⟩ := List.getElem_of_mem hb
      have hij : i < j := by
        by_contra hcon
        have := PL.getElem_le_of hw.lt (show j ≤ i by omega) hi
        linarith
      have := List.pairwise_iff_getElem.mp hw.gap i j hi hj hij
      linarith
    · have := (hle a ha).1; linarith
    · exact (hp.apart a ha).2 b hhi hab
    · have := (hp.apart b hb).1 hab; linarith
    · linarith
    · linarith
    · have := (hle b hb).2; linarith
    · linarith
    · linarith)
  simp only [hmax, hmin] at s3 s4
  have hsdom : ∀ t, s.inDom t ↔ 0 ≤ t ∧ t ≤ e := by
    intro t
    unfold PL.inDom
    rw [s3, s4, WithBot.coe_le_coe, WithTop.coe_le_coe]
  have hsfn : ∀ t, 0 ≤ t → t ≤ e → s.fn t = p.fn t - t := by
    intro t h1 h2
    rw [s7 t ((hsdom t).mpr ⟨h1, h2⟩), minusT_fn]; ring
  obtain ⟨r, r1, r2, r3, r4⟩ := PL.maxTBelow_spec hw hm (b := horizon) none ⟨0, h0, hv0.le⟩
  cases r with
  | top => rw [r3 rfl] at hhi; exact absurd hhi (by simp)
  | coe m =>
    obtain ⟨m1, m2⟩ := r2 m rfl
    have hmpos : 0 < m := by
      rcases lt_or_ge 0 m with h | h
      · exact h
      · exfalso
        -- the label is continuous at 0
        have hm0 : m = 0 := le_antisymm h ((hdom m).mp m1).1
        obtain ⟨i, μ, g1, g2⟩ : ∃ d : ℚ, 0 < d ∧ d ≤ e ∧ ∀ t ∈ p.times, ¬ (0 < t ∧ t < d) := by
          refine ⟨eps, he, he0.le, fun t ht hc => ?_⟩
          have := (hp.apart t ht).1 hc.1
          linarith
        obtain ⟨k, hk⟩ := PL.fn_affine hw (a := 0) (b := i) g2
        have hbig : ∃ t, 0 < t ∧ t ≤ i ∧ k * t ≤ horizon - p.fn 0 := by
          rcases le_or_gt k 0 with hk0 | hk0
          · exact ⟨i, μ, le_refl _, by nlinarith⟩
          · refine ⟨min i ((horizon - p.fn 0) / k), lt_min μ (div_pos (by linarith) hk0), min_le_left _ _, ?_⟩
            have := min_le_right i ((horizon - p.fn 0) / k)
            calc k * min i ((horizon - p.fn 0) / k) ≤ k * ((horizon - p.fn 0) / k) := mul_le_mul_of_nonneg_left this hk0.le
              _ = _ := by field_simp
        obtain ⟨t, t1, t2, t3⟩ := hbig
        have h5 := hk t t1.le t2
        have h6 := (r4 t ((hdom t).mpr ⟨t1.le, by linarith⟩)).mp (by rw [h5]; linarith)
        have h7 : t ≤ m := WithTop.coe_le_coe.mp h6
        linarith
    have hmH : m ≤ horizon := le_trans (hlater m m1) m2
    have hH : 0 < horizon := lt_of_lt_of_le hmpos hmH
    set U := capAt inflowHorizon horizon with hU
    set h := capAt inflowHorizon m with hh
    have hcap : ∀ x, 0 < x → 0 < capAt inflowHorizon x ∧ capAt inflowHorizon x ≤ x := by
      intro x hx
      cases inflowHorizon with
      | top => exact ⟨hx, le_refl _⟩
      | coe b => exact ⟨lt_min (WithTop.coe_lt_coe.mp hin) hx, min_le_right _ _⟩
    have hhU : h ≤ U := by
      rw [hh, hU]
      cases inflowHorizon with
      | top => exact hmH
      | coe b => exact min_le_min (le_refl _) hmH
    have hUpos := (hcap horizon hH).1
    have hhpos := (hcap m hmpos).1
    have hhm := (hcap m hmpos).2
    have hme := ((hdom m).mp m1).2
    have hsv : ∀ x ∈ s.values, 0 ≤ x := by
      intro x hx
      obtain ⟨i, hi, rfl⟩ := List.getElem_of_mem hx
      have hi' : i < s.times.length := by rw [← s2.len]; exact hi
      have hd := (hsdom _).mp (s2.dom _ (List.getElem_mem hi'))
      have e1 := PL.fn_time s2 i hi'
      rw [hsfn _ hd.1 hd.2] at e1
      have := hlater _ ((hdom _).mpr hd)
      linarith
    have hint := PL.integrate_eq s2 hsv ((hsdom 0).mpr ⟨le_refl _, by linarith⟩) ((hsdom h).mpr ⟨hhpos.le, by linarith⟩) hhpos
    have hrun : integrateOpt inflowHorizon horizon p = .ok ((if h < U then (s.prim h - s.prim 0) + (horizon * (U - h) - (U ^ 2 - h ^ 2) / 2) else (s.prim h - s.prim 0)) / U) := by
      unfold integrateOpt
      rw [pyAssert_true ((PL.isMonotone_iff p).mpr (hm.values hw)), ok_bind, PL.new_ok hnw, ok_bind, s1, ok_bind, r1, ok_bind]
      show average s horizon U h = _
      unfold average
      rw [hint, ok_bind]
      unfold pyDiv
      rw [if_neg hUpos.ne']
    refine ⟨_, hrun, h, p.fn, fun t => s.prim t - s.prim 0, hhpos.le, hhU, ?_, ?_, ⟨by simp, s.times, ?_⟩, ?_⟩
    · intro t ht htU
      constructor
      · rintro ⟨x, x1, x2⟩
        obtain ⟨d, rfl⟩ := eval_fn hw x1
        have h1 : t ≤ m := WithTop.coe_le_coe.mp ((r4 t d).mp x2)
        rw [hh]
        rw [hU] at htU
        cases inflowHorizon with
        | top => exact h1
        | coe b => exact le_min (le_trans htU (min_le_left _ _)) h1
      · intro hth
        have d := (hdom t).mpr ⟨ht, by linarith⟩
        exact ⟨_, PL.eval_eq hw d, (r4 t d).mpr (WithTop.coe_le_coe.mpr (by linarith))⟩
    · intro t h1 h2
      exact PL.eval_eq hw ((hdom t).mpr ⟨h1, by linarith⟩)
    · intro a b ha hab hb hno
      have := PL.prim_affine s2 hab (PL.fn_affine s2 hno)
      have e1 := hsfn a ha (by linarith)
      have e2 := hsfn b (by linarith) (by linarith)
      show (s.prim b - s.prim 0) - (s.prim a - s.prim 0) = (p.fn a - a + (p.fn b - b)) / 2 * (b - a)
      rw [← e1, ← e2]
      linarith
    · rw [div_mul_cancel₀ _ hUpos.ne']
      show _ = s.prim h - s.prim 0 + _
      by_cases hlt' : h < U
      · rw [if_pos hlt']; ring
      · have : h = U := le_antisymm hhU (not_lt.mp hlt')
        rw [if_neg hlt', this]; ring

example : GoodLabel ⟨[0], [1], 1, 1, (0 : ℚ), (9 : ℚ)⟩ := by
  have hv : ValidPL ⟨[0], [1], 1, 1, (0 : ℚ), (9 : ℚ)⟩ := ⟨by decide, by decide, by unfold eps; decide +kernel, by decide +kernel⟩
  have hfn : ∀ t, PL.fn ⟨[0], [1], 1, 1, (0 : ℚ), (9 : ℚ)⟩ t = t + 1 := by
    intro t
    rcases le_total t 0 with h | h
    · rw [PL.fn_left hv.wf (by simp) (by simpa using h)]; simp; ring
    · rw [PL.fn_right hv.wf (by simpa using h)]; simp; ring
  refine ⟨hv, rfl, ⟨9, rfl, by unfold eps; norm_num⟩, ?_, ?_, ?_⟩
  · intro s t x y hst hs ht
    rw [(eval_fn hv.wf hs).2, (eval_fn hv.wf ht).2, hfn, hfn]; linarith
  · intro t v hv'
    rw [(eval_fn hv.wf hv').2, hfn]; linarith
  · intro t ht
    simp only [List.mem_cons, List.not_mem_nil, or_false] at ht
    subst ht
    refine ⟨fun h => absurd h (lt_irrefl _), fun e he _ => ?_⟩
    have : (9 : ℚ) = e := WithTop.coe_eq_coe.mp he
    subst this; unfold eps; norm_num

example : integrateOpt (5 : ℚ) 10 ⟨[0], [1], 1, 1, (0 : ℚ), (9 : ℚ)⟩ = .ok 1 ∧ integrateOpt (20 : ℚ) 10 ⟨[0], [1], 1, 1, (0 : ℚ), (9 : ℚ)⟩ = .ok (19 / 20) := by decide +kernel

/-- `queueCost`: the function and its break points. -/
theorem queueCost_spec {P : Type} (n : Network P) (horizon : ℚ) (q : PL) (e : Nat) (tau nu : ℚ) (htau : n.travelTime[e]? = some tau) (hnu : n.capacity[e]? = some nu) (hpos : 0 < nu)
    (hq : ValidPL q) (hin : ∀ t ∈ q.times, 0 ≤ t ∧ t ≤ horizon)
    (hE : ∀ (j : Nat) (g0 g1 : ℚ), j + 1 < q.times.length → q.gradient j = .ok g0 → q.gradient (j + 1) = .ok g1 → g0 = g1 ∨ 1000 * eps * nu ≤ |g0 - g1|) :
    ∃ f, queueCost n horizon q e = .ok f ∧ f.WF ∧ f.lo = ((0 : ℚ) : WithBot ℚ) ∧ f.hi = (horizon : WithTop ℚ) ∧ f.first = q.first / nu ∧ f.last = q.last / nu ∧ f.times.Sublist q.times ∧
      f.times.head? = q.times.head? ∧ ∀ t, f.fn t = tau + q.fn t / nu := by
  have hw := hq.wf
  set g : PL := ⟨q.times, q.values.map (fun v => tau + v / nu), q.first / nu, q.last / nu, ((0 : ℚ) : WithBot ℚ), (horizon : WithTop ℚ)⟩ with hg
  have hgw : g.WF := ⟨by simpa [hg] using hq.len, hq.ne, hq.gap, fun t ht => ⟨WithBot.coe_le_coe.mpr (hin t ht).1, WithTop.coe_le_coe.mpr (hin t ht).2⟩⟩
  have hgrad : ∀ j : Nat, j < q.times.length → ∀ m, g.gradient (j : Int) = .ok m → ∃ m', q.gradient (j : Int) = .ok m' ∧ m = m' / nu := by
    intro j hj m hm
    by_cases hl : j + 1 < q.times.length
    · rw [PL.gradient_mid hgw j hl] at hm
      refine ⟨_, PL.gradient_mid hw j hl, ?_⟩
      injection hm with hm
      rw [← hm]
      simp only [hg, List.getElem_map]
      ring
    · have hj' : (j : Int) = (q.times.length : Int) - 1 := by omega
      rw [hj'] at hm ⊢
      have h1 : g.gradient ((q.times.length : Int) - 1) = .ok g.last := PL.gradient_last hgw
      rw [h1] at hm
      injection hm with hm
      exact ⟨_, PL.gradient_last hw, hm.symm⟩
  obtain ⟨f, f1, f2, f3, f4, f5, f6, f7, f8, f9⟩ := PL.simplify_ok hgw (by
    intro j hj g0 g1 e0 e1
    have hj' : j + 1 < q.times.length := hj
    obtain ⟨m0, a0, rfl⟩ := hgrad j (by omega) g0 e0
    obtain ⟨m1, a1, rfl⟩ := hgrad (j + 1) (by omega) g1 (by push_cast; exact e1)
    push_cast at a1
    rcases hE j m0 m1 hj' a0 a1 with h | h
    · exact Or.inl (by rw [h])
    · right
      rw [← sub_div, abs_div, abs_of_pos hpos, le_div_iff₀ hpos]
      exact h)
  have hm : ∀ (vs : List ℚ), Builder.mapPy (fun v => do
      let x ← pyDiv v nu
      pure (tau + x)) vs = (.ok (vs.map (fun v => tau + v / nu)) : Py (List ℚ)) := by
    intro vs
    induction vs with
    | nil => rfl
    | cons v vs ih =>
      unfold Builder.mapPy
      rw [ih]
      unfold pyDiv
      rw [if_neg hpos.ne']; rfl
  have hd : ∀ v, pyDiv v nu = .ok (v / nu) := by
    intro v; unfold pyDiv; rw [if_neg hpos.ne']
  have hfn : ∀ t, tau + q.fn t / nu = g.fn t := by
    intro t
    have hF := PL.interpolates hw
    refine PL.interpolates_unique (F := fun x => tau + q.fn x / nu) hgw ⟨?_, ?_, ?_, ?_⟩ t
    · intro i s v hs hv
      simp only [hg, List.getElem?_map, Option.map_eq_some_iff] at hv
      obtain ⟨w, hw, rfl⟩ := hv
      rw [hF.at_break i s w hs hw]
    · intro i s u hs hu y g1 g2
      rw [hF.between i s u hs hu y g1 g2]; ring
    · intro s hs y hy
      rw [hF.before s hs y hy]; simp only [hg]; ring
    · intro s hs y hy
      rw [hF.after s hs y hy]; simp only [hg]; ring
  refine ⟨f, ?_, f2, f3, f4, f5, f6, f7, f8, fun t => by rw [hfn, f9]⟩
  unfold queueCost
  rw [rd_eq_ok.mpr htau, ok_bind, rd_eq_ok.mpr hnu, ok_bind, hm, ok_bind, hd, ok_bind, hd, ok_bind]
  show (PL.new g.times g.values g.first g.last g.lo g.hi >>= PL.simplify) = _
  rw [PL.new_ok hgw, ok_bind]
  exact f1

/-- C77: the edge costs handed to the search are the travel times with the queues of the flow, on `[0, horizon]`, if the queue has no break point behind the horizon and its slopes are equal
or clearly different. -/
theorem C77_costs {P : Type} (n : Network P) (horizon : ℚ) (q : PL) (e : Nat) (tau nu : ℚ) (htau : n.travelTime[e]? = some tau) (hnu : n.capacity[e]? = some nu) (hpos : 0 < nu)
    (hq : ValidPL q) (hlo : q.lo = ⊥) (hhi : q.hi = ⊤) (hin : ∀ t ∈ q.times, 0 ≤ t ∧ t ≤ horizon)
    (hE : ∀ (j : Nat) (g0 g1 : ℚ), j + 1 < q.times.length → q.gradient j = .ok g0 → q.gradient (j + 1) = .ok g1 → g0 = g1 ∨ 1000 * eps * nu ≤ |g0 - g1|) :
    ∃ f, queueCost n horizon q e = .ok f ∧ ValidPL f ∧ f.lo = ((0 : ℚ) : WithBot ℚ) ∧ f.hi = (horizon : WithTop ℚ) ∧
      ∀ t, 0 ≤ t → t ≤ horizon → ∃ x, q.eval t = .ok x ∧ f.eval t = .ok (tau + x / nu) := by
  obtain ⟨f, f1, f2, f3, f4, _, _, _, _, f9⟩ := queueCost_spec n horizon q e tau nu htau hnu hpos hq hin hE
  refine ⟨f, f1, f2.valid, f3, f4, fun t h1 h2 => ?_⟩
  refine ⟨q.fn t, PL.eval_eq hq.wf ⟨by rw [hlo]; exact bot_le, by rw [hhi]; exact le_top⟩, ?_⟩
  rw [← f9]
  exact PL.eval_eq f2 ⟨by rw [f3]; exact WithBot.coe_le_coe.mpr h1, by rw [f4]; exact WithTop.coe_le_coe.mpr h2⟩

example : queueCost (P := Unit) { (Network.empty : Network Unit) with travelTime := [2], capacity := [4] } 20 ⟨[0, 1, 5], [0, 8, 0], 0, 0, ⊥, ⊤⟩ 0 =
    .ok ⟨[0, 1, 5], [2, 4, 2], 0, 0, (0 : ℚ), (20 : ℚ)⟩ := by decide +kernel

/-- C77 for a whole call, as far as it is true: if the search returns a label for the only source and this label promises arrival before the horizon at time 0, the result is the average travel
time of that label. Missing: the labels of the search are not the earliest arrival times in general (`C42_horizon_wrong`), and a source without label is not averaged (`C77_no_label_wrong`). -/
theorem C77_optimal_partial {P : Type} (fuel : Nat) (n : Network P) (flow : DFlow) (inflowHorizon : WithTop ℚ) (horizon : ℚ) (c : Commodity P) (source : Nat) (r : RC)
    (hs : c.sources = [(source, r)]) (labels : Nat → Option PL) (hl : optLabels fuel n flow horizon source c.sink = .ok labels) (p : PL) (hp : labels source = some p)
    (hgood : GoodLabel p) (hin : (0 : WithTop ℚ) < inflowHorizon) (v : ℚ) (hv : p.eval 0 = .ok v) (hlt : v < horizon) :
    ∃ x, optimalAverage fuel n flow inflowHorizon horizon c = .ok x ∧ AverageTime p horizon (capAt inflowHorizon horizon) x := by
  obtain ⟨x, x1, x2⟩ := C77_average p hgood horizon inflowHorizon hin v hv hlt
  refine ⟨x, ?_, x2⟩
  unfold optimalAverage
  rw [hs]
  show (do
    let labels ← optLabels fuel n flow horizon source c.sink
    match labels source with
    | some p => integrateOpt inflowHorizon horizon p
    | none => noLabel horizon inflowHorizon) = _
  rw [hl, ok_bind, hp]
  exact x1

/-- Commodities with no or several sources are rejected. -/
theorem C77_one_source {P : Type} (fuel : Nat) (n : Network P) (flow : DFlow) (inflowHorizon : WithTop ℚ) (horizon : ℚ) (c : Commodity P) (h : c.sources.length ≠ 1) :
    optimalAverage fuel n flow inflowHorizon horizon c = .error .value := by
  unfold optimalAverage
  match hc : c.sources, h with
  | [], _ => rfl
  | [a], h => exact absurd rfl h
  | a :: b :: l, _ => rfl

/-- C77 is false for a source without label: the result is the sum of the travel times, not their average, if all count as arriving at the horizon. -/
theorem C77_no_label {P : Type} (fuel : Nat) (n : Network P) (flow : DFlow) (until_ horizon : ℚ) (c : Commodity P) (source : Nat) (r : RC)
    (hs : c.sources = [(source, r)]) (labels : Nat → Option PL) (hl : optLabels fuel n flow horizon source c.sink = .ok labels) (hp : labels source = none) :
    optimalAverage fuel n flow (until_ : ℚ) horizon c = .ok (until_ * (((horizon - 0) + (horizon - until_)) / 2)) := by
  have h : optimalAverage fuel n flow (until_ : ℚ) horizon c = .ok (until_ * horizon - until_ ^ 2 / 2) := by
    unfold optimalAverage
    rw [hs]
    show (do
      let labels ← optLabels fuel n flow horizon source c.sink
      match labels source with
      | some p => integrateOpt (until_ : ℚ) horizon p
      | none => noLabel horizon (until_ : ℚ)) = _
    rw [hl, ok_bind, hp]
    rfl
  rw [h]
  congr 1
  ring

/-- Roads from 0 to 1 and from 2 to 3, no flow, source 2 and sink 1: nobody can travel longer than until the horizon, but the average is said to be 150 with horizon 20. -/
theorem C77_no_label_wrong : ∃ (n : Network Unit) (flow : DFlow), Holds n [⟨0, 1, 1, 1⟩, ⟨2, 3, 1, 1⟩] false ∧ DFlow.init = .ok flow ∧
    optimalAverage 2 n flow (10 : ℚ) 20 ⟨[(2, ⟨[0], [1], (0 : ℚ), ⊤⟩)], 1, ()⟩ = .ok 150 := by
  obtain ⟨n, h1, h2⟩ := C49_aligned (P := Unit) [.add ⟨0, 1, 1, 1⟩, .add ⟨2, 3, 1, 1⟩] (by simp [RoadOpsOk, stepRev])
  have hn := h1
  simp only [runNet, stepNet, ok_bind, Except.ok.injEq] at hn
  obtain ⟨flow, hf⟩ : ∃ f, DFlow.init = .ok f := ⟨_, rfl⟩
  have hq : ∀ e, flow.queues e = ⟨[0], [0], 0, 0, ⊥, ⊤⟩ := by
    intro e
    have : DFlow.init.map (fun f => f.queues e) = .ok ⟨[0], [0], 0, 0, ⊥, ⊤⟩ := rfl
    rw [hf] at this
    injection this
  refine ⟨n, flow, h2, hf, ?_⟩
  have hcost : Builder.mapPy (fun e => queueCost n 20 (flow.queues e) e) (List.range n.graph.edges.length) = .ok [⟨[0], [1], 0, 0, (0 : ℚ), (20 : ℚ)⟩, ⟨[0], [1], 0, 0, (0 : ℚ), (20 : ℚ)⟩] := by
    simp only [hq]
    subst hn; decide +kernel
  have hrest : (do
      let back ← n.graph.nodesReaching 1
      let fwd ← n.graph.reachableNodes 2
      pure (back.filter (· ∈ fwd))) = (.ok [] : Py (List Nat)) := by
    subst hn; decide +kernel
  have hrun : (searchFew 2 n.graph 1 [⟨[0], [1], 0, 0, (0 : ℚ), (20 : ℚ)⟩, ⟨[0], [1], 0, 0, (0 : ℚ), (20 : ℚ)⟩] [] 0 (20 : ℚ)).map (fun l => l 2) = .ok none := by
    subst hn; decide +kernel
  rw [searchFew_eq] at hrun
  obtain ⟨back, b1, b2⟩ := bind_eq_ok.mp hrest
  obtain ⟨fwd, b3, b4⟩ := bind_eq_ok.mp b2
  have b5 : back.filter (· ∈ fwd) = [] := by injection b4
  cases hb : BF.bellmanFord 2 n.graph 1 [⟨[0], [1], 0, 0, (0 : ℚ), (20 : ℚ)⟩, ⟨[0], [1], 0, 0, (0 : ℚ), (20 : ℚ)⟩] [] 0 (20 : ℚ) with
  | error e => rw [hb] at hrun; simp [Except.map] at hrun
  | ok labels =>
    rw [hb] at hrun
    have hl2 : labels 2 = none := by simpa [Except.map] using hrun
    rw [C77_no_label 2 n flow 10 20 ⟨[(2, ⟨[0], [1], (0 : ℚ), ⊤⟩)], 1, ()⟩ 2 _ rfl labels (by
      unfold optLabels
      rw [hcost, ok_bind, b1, ok_bind, b3, ok_bind, b5]
      exact hb) hl2]
    norm_num

/-- The hypotheses of `C77_optimal_partial` on a single road with travel time 1 and horizon 10. -/
example : ∃ (n : Network Unit) (flow : DFlow) (labels : Nat → Option PL), Holds n [⟨0, 1, 1, 1⟩] false ∧ DFlow.init = .ok flow ∧ optLabels 3 n flow 10 0 1 = .ok labels ∧
    labels 0 = some ⟨[0], [1], 1, 1, (0 : ℚ), (9 : ℚ)⟩ := by
  obtain ⟨n, h1, h2⟩ := C49_aligned (P := Unit) [.add ⟨0, 1, 1, 1⟩] (by simp [RoadOpsOk, stepRev])
  have hn := h1
  simp only [runNet, stepNet, ok_bind, Except.ok.injEq] at hn
  obtain ⟨flow, hf⟩ : ∃ f, DFlow.init = .ok f := ⟨_, rfl⟩
  have hq : ∀ e, flow.queues e = ⟨[0], [0], 0, 0, ⊥, ⊤⟩ := by
    intro e
    have : DFlow.init.map (fun f => f.queues e) = .ok ⟨[0], [0], 0, 0, ⊥, ⊤⟩ := rfl
    rw [hf] at this
    injection this
  have hcost : Builder.mapPy (fun e => queueCost n 10 (flow.queues e) e) (List.range n.graph.edges.length) = .ok [⟨[0], [1], 0, 0, (0 : ℚ), (10 : ℚ)⟩] := by
    simp only [hq]
    subst hn; decide +kernel
  have hrest : (do
      let back ← n.graph.nodesReaching 1
      let fwd ← n.graph.reachableNodes 0
      pure (back.filter (· ∈ fwd))) = (.ok [0, 1] : Py (List Nat)) := by
    subst hn; decide +kernel
  have hrun : (searchFew 3 n.graph 1 [⟨[0], [1], 0, 0, (0 : ℚ), (10 : ℚ)⟩] [0, 1] 0 (10 : ℚ)).map (fun l => l 0) = .ok (some ⟨[0], [1], 1, 1, (0 : ℚ), (9 : ℚ)⟩) := by
    subst hn; decide +kernel
  rw [searchFew_eq] at hrun
  obtain ⟨back, b1, b2⟩ := bind_eq_ok.mp hrest
  obtain ⟨fwd, b3, b4⟩ := bind_eq_ok.mp b2
  have b5 : back.filter (· ∈ fwd) = [0, 1] := by injection b4
  cases hb : BF.bellmanFord 3 n.graph 1 [⟨[0], [1], 0, 0, (0 : ℚ), (10 : ℚ)⟩] [0, 1] 0 (10 : ℚ) with
  | error e => rw [hb] at hrun; simp [Except.map] at hrun
  | ok labels =>
    rw [hb] at hrun
    refine ⟨n, flow, labels, h2, hf, ?_, by simpa [Except.map] using hrun⟩
    unfold optLabels
    rw [hcost, ok_bind, b1, ok_bind, b3, ok_bind, b5]
    exact hb

/-- The arrival function `t + d` on `[0, horizon - d]` is a good label. -/
theorem goodLabel_shift {d horizon : ℚ} (hd : 0 ≤ d) (hh : d + eps < horizon) : GoodLabel ⟨[0], [d], 1, 1, (0 : ℚ), ((horizon - d : ℚ) : WithTop ℚ)⟩ ∧
    ∀ t, 0 ≤ t → t ≤ horizon - d → PL.eval ⟨[0], [d], 1, 1, (0 : ℚ), ((horizon - d : ℚ) : WithTop ℚ)⟩ t = .ok (t + d) := by
  have he := eps_pos
  have hw : PL.WF ⟨[0], [d], 1, 1, (0 : ℚ), ((horizon - d : ℚ) : WithTop ℚ)⟩ := BF.one_wf (phi := 0) (by linarith)
  have hfn : ∀ t, PL.fn ⟨[0], [d], 1, 1, (0 : ℚ), ((horizon - d : ℚ) : WithTop ℚ)⟩ t = t + d := by
    intro t
    have := BF.one_fn (phi := 0) (v := d) (h := horizon - d) (by linarith) t
    rw [sub_zero, add_comm] at this
    exact this
  refine ⟨⟨hw.valid, rfl, ⟨horizon - d, rfl, by linarith⟩, ?_, ?_, ?_⟩, ?_⟩
  · intro s t x y hst hs ht
    rw [(eval_fn hw hs).2, (eval_fn hw ht).2, hfn, hfn]; linarith
  · intro t v hv'
    rw [(eval_fn hw hv').2, hfn]; linarith
  · intro t ht
    simp only [List.mem_cons, List.not_mem_nil, or_false] at ht
    subst ht
    refine ⟨fun h => absurd h (lt_irrefl _), fun e he' _ => ?_⟩
    have : horizon - d = e := WithTop.coe_eq_coe.mp he'
    subst this; linarith
  · intro t h1 h2
    rw [← hfn]
    exact PL.eval_eq hw ⟨WithBot.coe_le_coe.mpr h1, WithTop.coe_le_coe.mpr h2⟩

/-- The area under a constant. -/
theorem area_const {h d : ℚ} {A : ℚ → ℚ} (hh : 0 ≤ h) {F : ℚ → ℚ} (hF : ∀ t, 0 ≤ t → t ≤ h → F t = d) (hA : AreaUpTo h F A) : A h = d * h := by
  obtain ⟨h0, T, hT⟩ := hA
  have key : ∀ T : List ℚ, (∀ a b, 0 ≤ a → a ≤ b → b ≤ h → (∀ t ∈ T, ¬ (a < t ∧ t < b)) → A b - A a = d * (b - a)) → ∀ a b, 0 ≤ a → a ≤ b → b ≤ h → A b - A a = d * (b - a) := by
    intro T
    induction T with
    | nil => intro hT a b h1 h2 h3; exact hT a b h1 h2 h3 (by simp)
    | cons t T ih =>
      intro hT
      refine ih (fun a b h1 h2 h3 hno => ?_)
      by_cases hc : a < t ∧ t < b
      · have e1 := hT a t h1 hc.1.le (by linarith) (by
          intro s hs hs'
          rcases List.mem_cons.mp hs with rfl | hs
          · linarith [hs'.2]
          · exact hno s hs ⟨hs'.1, by linarith [hs'.2]⟩)
        have e2 := hT t b (by linarith) hc.2.le h3 (by
          intro s hs hs'
          rcases List.mem_cons.mp hs with rfl | hs
          · linarith [hs'.1]
          · exact hno s hs ⟨by linarith [hs'.1], hs'.2⟩)
        linarith
      · refine hT a b h1 h2 h3 (fun s hs hs' => ?_)
        rcases List.mem_cons.mp hs with rfl | hs
        · exact hc hs'
        · exact hno s hs hs'
  have := key T (fun a b h1 h2 h3 hno => by
    rw [hT a b h1 h2 h3 hno, hF a h1 (by linarith), hF b (by linarith) h3]; ring) 0 h (le_refl _) hh (le_refl _)
  rw [h0] at this
  linarith

/-- Trips can use more nodes. -/
theorem ride_more {g : Graph} {arr : Nat → ℚ → ℚ} {nodes nodes' : List Nat} {sink k v : Nat} {t y : ℚ} (h : Ride g arr nodes sink k v t y) (hsub : ∀ u ∈ nodes, u ∈ nodes') : Ride g arr nodes' sink k v t y := by
  induction h with
  | here t => exact .here t
  | drive e he hv _ ih => exact .drive e he (hsub _ hv) ih

/-- Trips to the sink pass only nodes between. -/
theorem ride_between {g : Graph} {arr : Nat → ℚ → ℚ} {nodes nodes' : List Nat} {sink source k v : Nat} {t y : ℚ} (h : Ride g arr nodes sink k v t y) (hp : Path g source v)
    (hin : ∀ u, Path g source u → Path g u sink → u ∈ nodes') : Path g v sink ∧ Ride g arr nodes' sink k v t y := by
  induction h with
  | here t => exact ⟨Relation.ReflTransGen.refl, .here t⟩
  | drive e he hv _ ih =>
    obtain ⟨a, b⟩ := ih (hp.tail ⟨e, he, rfl, rfl⟩)
    have c := Relation.ReflTransGen.head ⟨e, he, rfl, rfl⟩ a
    exact ⟨c, .drive e he (hin _ hp c) b⟩

/-- C77 for flows without queues, as a whole call: if the sink can be reached and all trips with at most as many edges as there are nodes arrive before the horizon and are equally long or
clearly different, the result is the average travel time of those who leave in `[0, min(inflow_horizon, horizon)]` and take a shortest way of length `d`: those who leave until `h` need `d`, the
others count as arriving at the horizon. -/
theorem C77_free_flow {P : Type} (n : Network P) (hn : InputOk n) (flow : DFlow) (hq : ∀ e, e < n.graph.edges.length → flow.queues e = ⟨[0], [0], 0, 0, ⊥, ⊤⟩) (horizon : ℚ) (hH : 0 < horizon)
    (inflowHorizon : WithTop ℚ) (hin : (0 : WithTop ℚ) < inflowHorizon) (c : Commodity P) (source : Nat) (r : RC) (hs : c.sources = [(source, r)]) (hsource : source ∈ n.graph.nodes)
    (hsink : c.sink ∈ n.graph.nodes) (hpath : Path n.graph source c.sink) (tau : Nat → ℚ) (htau : ∀ e ∈ n.graph.edges, n.travelTime[(n.graph.edge e).id]? = some (tau e))
    (hclear : ClearTrips n.graph (fun e t => t + tau e) n.graph.nodes c.sink 0 horizon n.graph.nodes.length) (fuel : Nat) (hfuel : n.graph.nodes.length + 1 ≤ fuel) :
    ∃ d x h, GetsTo n.graph (fun e t => t + tau e) n.graph.nodes c.sink source 0 d ∧ (∀ y, GetsTo n.graph (fun e t => t + tau e) n.graph.nodes c.sink source 0 y → d ≤ y) ∧
      h = min (capAt inflowHorizon horizon) (horizon - d) ∧ optimalAverage fuel n flow inflowHorizon horizon c = .ok x ∧
      x * capAt inflowHorizon horizon = d * h + ((horizon - h) + (horizon - capAt inflowHorizon horizon)) / 2 * (capAt inflowHorizon horizon - h) := by
  have he := eps_pos
  obtain ⟨back, b1, _, b3⟩ := Graph.nodesReaching_spec hn.graph hsink
  obtain ⟨fwd, f1, _, f3⟩ := Graph.reachableNodes_spec hn.graph hsource
  set nodes := back.filter (· ∈ fwd) with hnodes
  have hmem : ∀ u, u ∈ nodes ↔ Path n.graph source u ∧ Path n.graph u c.sink := by
    intro u
    rw [hnodes, List.mem_filter, b3, decide_eq_true_eq, f3]
    exact and_comm
  have hpn : ∀ u, Path n.graph source u → u ∈ n.graph.nodes := by
    intro u hu
    rcases Relation.ReflTransGen.cases_tail hu with h | ⟨w, _, e, he, _, h⟩
    · rw [h]; exact hsource
    · rw [← h]; exact (hn.graph.ends e he).2
  have hsub : ∀ u ∈ nodes, u ∈ n.graph.nodes := fun u hu => hpn u ((hmem u).mp hu).1
  have hcard : (c.sink :: nodes).toFinset.card ≤ n.graph.nodes.length := by
    rw [← List.toFinset_card_of_nodup hn.graph.nodes]
    refine Finset.card_le_card (fun u hu => ?_)
    rw [List.mem_toFinset] at hu ⊢
    rcases List.mem_cons.mp hu with rfl | hu
    · exact hsink
    · exact hsub u hu
  have htt0 : ∀ e ∈ n.graph.edges, 0 ≤ tau e := fun e he => hn.tt _ (List.mem_of_getElem? (htau e he))
  have hcost : Builder.mapPy (fun e => queueCost n horizon (flow.queues e) e) (List.range n.graph.edges.length) =
      .ok (n.travelTime.map (fun x => ⟨[0], [x], 0, 0, ((0 : ℚ) : WithBot ℚ), (horizon : WithTop ℚ)⟩)) := by
    obtain ⟨costs, c1, c2, c3⟩ := Builder.mapPy_ok (fun e => queueCost n horizon (flow.queues e) e) (List.range n.graph.edges.length) (by
      intro e he
      have he' := List.mem_range.mp he
      have h1 : e < n.travelTime.length := by rw [hn.ttLen]; exact he'
      have h2 : e < n.capacity.length := by rw [hn.capLen]; exact he'
      obtain ⟨f, f1, _⟩ := C77_costs n horizon ⟨[0], [0], 0, 0, ⊥, ⊤⟩ e _ _ (List.getElem?_eq_getElem h1) (List.getElem?_eq_getElem h2) (hn.cap _ (List.getElem_mem h2))
        ⟨rfl, by simp, by simp, by simp⟩ rfl rfl (by simp [hH.le]) (by simp)
      exact ⟨f, by rw [hq e he']; exact f1⟩)
    rw [c1]
    congr 1
    refine List.ext_getElem? (fun i => ?_)
    have hlen : costs.length = n.graph.edges.length := by rw [c2, List.length_range]
    by_cases hi : i < n.graph.edges.length
    · obtain ⟨f, g1, g2⟩ := c3 i i (List.getElem?_range hi)
      rw [g1]
      have h1 : i < n.travelTime.length := by rw [hn.ttLen]; exact hi
      have h2 : i < n.capacity.length := by rw [hn.capLen]; exact hi
      have hcap := hn.cap _ (List.getElem_mem h2)
      rw [List.getElem?_map, List.getElem?_eq_getElem h1]
      show some f = some _
      congr 1
      have hrun : queueCost n horizon ⟨[0], [0], 0, 0, ⊥, ⊤⟩ i = .ok ⟨[0], [n.travelTime[i]], 0, 0, ((0 : ℚ) : WithBot ℚ), (horizon : WithTop ℚ)⟩ := by
        unfold queueCost
        have hd : pyDiv 0 n.capacity[i] = .ok 0 := by unfold pyDiv; rw [if_neg hcap.ne', zero_div]
        rw [rd_lt _ _ h1, ok_bind, rd_lt _ _ h2, ok_bind]
        simp only [Builder.mapPy, hd, ok_bind, py_pure, add_zero]
        have hw : PL.WF ⟨[0], [n.travelTime[i]], 0, 0, ((0 : ℚ) : WithBot ℚ), (horizon : WithTop ℚ)⟩ := ⟨rfl, by simp, by simp, by
          intro t ht
          have : t = 0 := by simpa using ht
          subst this; exact ⟨le_refl _, WithTop.coe_le_coe.mpr hH.le⟩⟩
        rw [PL.new_ok hw, ok_bind]
        exact PL.new_ok hw
      rw [hq i hi] at g2
      rw [hrun] at g2
      injection g2 with g2
      exact g2.symm
    · rw [List.getElem?_eq_none (by omega), List.getElem?_eq_none (by rw [List.length_map, hn.ttLen]; omega)]
  obtain ⟨labels, l1, l2⟩ := BF.search_const (fuel := fuel) (g := n.graph) (nodes := nodes) (sink := c.sink) (c := tau) (phi := 0) (H := horizon) (by
    intro w hw
    rcases List.mem_cons.mp hw with rfl | hw
    · exact hn.graph.inc _ hsink
    · exact hn.graph.inc _ (hsub w hw)) hH htt0 n.travelTime rfl htau (by omega)
    ⟨fun k v y hk h => hclear.before k v y (by omega) (ride_more h hsub), fun k l v y z hk hl h h' => hclear.apart k l v y z (by omega) (by omega) (ride_more h hsub) (ride_more h' hsub)⟩
  have hgets : ∀ y, GetsTo n.graph (fun e t => t + tau e) n.graph.nodes c.sink source 0 y ↔ GetsTo n.graph (fun e t => t + tau e) nodes c.sink source 0 y := by
    intro y
    constructor
    · rintro ⟨k, h⟩
      exact ⟨k, (ride_between h Relation.ReflTransGen.refl (fun u h1 h2 => (hmem u).mpr ⟨h1, h2⟩)).2⟩
    · rintro ⟨k, h⟩
      exact ⟨k, ride_more h hsub⟩
  have hex : ∃ y, GetsTo n.graph (fun e t => t + tau e) nodes c.sink source 0 y := by
    have : ∀ u, Path n.graph u c.sink → ∀ t, ∃ y k, Ride n.graph (fun e t => t + tau e) n.graph.nodes c.sink k u t y := by
      intro u hu
      induction hu using Relation.ReflTransGen.head_induction_on with
      | refl => intro t; exact ⟨t, 0, .here t⟩
      | head h _ ih =>
        obtain ⟨e, e1, rfl, rfl⟩ := h
        intro t
        obtain ⟨y, k, hy⟩ := ih (t + tau e)
        exact ⟨y, k + 1, .drive e e1 (hn.graph.ends e e1).1 hy⟩
    obtain ⟨y, k, h⟩ := this source hpath 0
    exact ⟨y, (hgets y).mp ⟨k, h⟩⟩
  rcases l2 source with ⟨_, a⟩ | ⟨d, d0, d1, d2, d3, d4⟩
  · obtain ⟨y, hy⟩ := hex
    exact absurd hy (a y)
  · rw [zero_add] at d1 d3
    have hlab : optLabels fuel n flow horizon source c.sink = .ok labels := by
      unfold optLabels
      rw [hcost, ok_bind, b1, ok_bind, f1, ok_bind]
      exact l1
    have hls : labels source = some ⟨[0], [d], 1, 1, (0 : ℚ), ((horizon - d : ℚ) : WithTop ℚ)⟩ := by
      rw [d2]; unfold BF.one; rw [zero_add]
    obtain ⟨hgood, hev⟩ := goodLabel_shift d0 d1
    obtain ⟨x, x1, h, F, A, x2, x3, x4, x5, x6, x7⟩ := C77_optimal_partial fuel n flow inflowHorizon horizon c source r hs labels hlab _ hls hgood hin d (by
      have := hev 0 (le_refl _) (by linarith)
      rwa [zero_add] at this) (by linarith)
    have hUpos : 0 ≤ capAt inflowHorizon horizon := by linarith
    have hh : h = min (capAt inflowHorizon horizon) (horizon - d) := by
      refine le_antisymm (le_min x3 ?_) ?_
      · obtain ⟨v, v1, v2⟩ := (x4 h x2 x3).mpr (le_refl _)
        have hd := (eval_fn hgood.valid.wf v1).1
        exact WithTop.coe_le_coe.mp hd.2
      · refine (x4 _ (le_min hUpos (by linarith)) (min_le_left _ _)).mp ⟨_, hev _ (le_min hUpos (by linarith)) (min_le_right _ _), ?_⟩
        have := min_le_right (capAt inflowHorizon horizon) (horizon - d)
        linarith
    have hle : h ≤ horizon - d := by rw [hh]; exact min_le_right _ _
    have hA := area_const x2 (d := d) (F := fun t => F t - t) (fun t h1 h2 => by
      have e1 := x5 t h1 h2
      rw [hev t h1 (by linarith)] at e1
      injection e1 with e1
      show F t - t = d
      linarith) x6
    refine ⟨d, x, h, (hgets d).mpr d3, fun y hy => ?_, hh, x1, by rw [x7, hA]⟩
    have := d4 y ((hgets y).mp hy)
    linarith

/-- The hypotheses of `C77_free_flow` for two parallel roads, see `pair_clear`: the average with horizon 10 and inflow until 5 is the travel time 1 of the faster road. -/
example : ∃ (n : Network Unit) (flow : DFlow), InputOk n ∧ DFlow.init = .ok flow ∧ (∀ e, e < n.graph.edges.length → flow.queues e = ⟨[0], [0], 0, 0, ⊥, ⊤⟩) ∧ Path n.graph 0 1 ∧
    (∀ e ∈ n.graph.edges, n.travelTime[(n.graph.edge e).id]? = some (if e = 0 then 1 else 3)) ∧
    ClearTrips n.graph (fun e t => t + (if e = 0 then 1 else 3)) n.graph.nodes 1 0 10 n.graph.nodes.length := by
  obtain ⟨n, h1, h2, h3, h4, h5, h6, h7, h8, h9, h10⟩ := pair_clear
  obtain ⟨flow, hf⟩ : ∃ f, DFlow.init = .ok f := ⟨_, rfl⟩
  have hcom : n.commodities = [] := by
    simp only [pairRoads, runNet, stepNet, ok_bind, Except.ok.injEq] at h1
    subst h1; rfl
  refine ⟨n, flow, ⟨h2.graph, by rw [h6, h4]; rfl, by rw [h5, h4]; rfl, by rw [h6]; simp, by rw [h5]; simp, by simp [hcom], by simp [hcom], by simp [hcom], by simp [hcom], by simp [hcom]⟩, hf, ?_, h9, ?_, h10 _⟩
  · intro e _
    have : DFlow.init.map (fun f => f.queues e) = .ok ⟨[0], [0], 0, 0, ⊥, ⊤⟩ := rfl
    rw [hf] at this
    injection this
  · intro e he
    rw [h4] at he
    simp only [List.mem_cons, List.not_mem_nil, or_false] at he
    rcases he with rfl | rfl
    · rw [h7, h5]; rfl
    · rw [h8, h5]; rfl

end Props
end Verif
