import Verif.Proofs.SampleStudy
import Verif.Props.Evaluation
import Verif.Props.Demands

/-! Property theorems C106: the study of the sample network. -/

namespace Verif.Props
open Verif.Spec Verif.SampleStudy Verif.SingleRun Verif.Evaluation Verif.AvgTravelTime Verif.Evaluate
open Builder (mapPy)

/-- **C106.** If every run that returns gives six numbers (those of the five predictors, and the optimum), then what `eval_sample` writes, if it returns, is this: the curves are those of the 120 runs with demands 0.25, 0.5, …, 30,
each point at the demand of its run; the `i`-th curve has the `i`-th label and colour; and the regrets are divided by the optimum of the same run. -/
theorem C106_written {run : ℚ → Py (List ℚ)} (hsix : ∀ k < 120, ∀ ts, run (demandOf k) = .ok ts → ts.length = 6) {lists : List (List ℚ)} {times regrets_ : Picture} (h : evalSample run = .ok (lists, times, regrets_)) :
    ∃ ts, StudyOf run ts ∧ (∀ k < 120, (ts k).getD 5 0 ≠ 0) ∧ times.legend = styles.map Style.label ∧ regrets_.legend = regretStyles.map Style.label ∧
      times.curves.length = 6 ∧ (∀ i s, styles[i]? = some s → times.curves[i]? = some (s.color, s.dashed, timeCurve ts i)) ∧
      regrets_.curves.length = 5 ∧ (∀ i s, regretStyles[i]? = some s → regrets_.curves[i]? = some (s.color, s.dashed, regretCurve ts i)) := by
  unfold evalSample at h
  obtain ⟨l, h1, h⟩ := bind_eq_ok.mp h
  obtain ⟨p, h2, h⟩ := bind_eq_ok.mp h
  obtain ⟨r, h3, h⟩ := bind_eq_ok.mp h
  injection h with h
  injection h with h4 h
  injection h with h5 h6
  subst h4 h5 h6
  have hr := avgTimes_runs h1
  choose! ts hts using hr
  have hS : StudyOf run ts := fun k hk => ⟨hts k hk, hsix k hk _ (hts k hk)⟩
  rw [avgTimes_ok hS] at h1
  injection h1 with h1
  subst h1
  have hz : ∀ k < 120, (ts k).getD 5 0 ≠ 0 := by
    intro k hk hz
    unfold regrets at h3
    obtain ⟨cs, h3, _⟩ := bind_eq_ok.mp h3
    rw [dropLast_range 5, zipIdx_range] at h3
    obtain ⟨_, h3⟩ := Builder.mapPy_inv h3
    obtain ⟨b, _, h3⟩ := h3 0 ((List.range 120).map (fun k => (ts k).getD 0 0), 0) rfl
    obtain ⟨s, _, h3⟩ := bind_eq_ok.mp h3
    obtain ⟨ps, h3, _⟩ := bind_eq_ok.mp h3
    simp only at h3
    rw [zipIdx_range] at h3
    obtain ⟨_, h3⟩ := Builder.mapPy_inv h3
    obtain ⟨b, _, h3⟩ := h3 k ((ts k).getD 0 0, k) (by rw [List.getElem?_map, List.getElem?_range hk]; rfl)
    rw [regretPoint_zero ts hk _ hz] at h3
    cases h3
  rw [picture_ok] at h2
  rw [regrets_ok ts hz] at h3
  injection h2 with h2
  injection h3 with h3
  subst h2 h3
  refine ⟨ts, hS, hz, rfl, rfl, by simp, ?_, by simp, ?_⟩
  · intro i s hs
    have hi : i < 6 := (List.getElem?_eq_some_iff.mp hs).1
    simp only
    rw [List.getElem?_map, List.getElem?_range hi]
    simp only [Option.map_some, List.getD_eq_getElem?_getD, hs, Option.getD_some]
  · intro i s hs
    have hi : i < 5 := (List.getElem?_eq_some_iff.mp hs).1
    simp only
    rw [List.getElem?_map, List.getElem?_range hi]
    simp only [Option.map_some, List.getD_eq_getElem?_getD, hs, Option.getD_some]

/-- **C106.** It returns if all runs return six numbers, the last of which is not zero. -/
theorem C106_returns {run : ℚ → Py (List ℚ)} {ts : Nat → List ℚ} (h : StudyOf run ts) (hz : ∀ k < 120, (ts k).getD 5 0 ≠ 0) : ∃ out, evalSample run = .ok out := by
  unfold evalSample
  rw [avgTimes_ok h, ok_bind, picture_ok, ok_bind, regrets_ok ts hz]
  exact ⟨_, rfl⟩

/-- **C106.** If one of the 120 runs raises, the whole study raises: nothing is written before all runs have returned. -/
theorem C106_one_fails {run : ℚ → Py (List ℚ)} {k : Nat} (hk : k < 120) (h : ∀ ts, run (demandOf k) ≠ .ok ts) (lists : List (List ℚ)) : avgTimes run ≠ .ok lists := by
  intro ha
  obtain ⟨ts, h1⟩ := avgTimes_runs ha k hk
  exact h ts h1

/-- **C106.** With a sixth predictor, the study raises after its first run. -/
theorem C106_more_predictors {run : ℚ → Py (List ℚ)} {ts : List ℚ} (h : run (demandOf 0) = .ok ts) (hm : 6 < ts.length) : evalSample run = .error .index := by
  unfold evalSample avgTimes
  rw [show (200 : Nat) = 199 + 1 from rfl]
  unfold loop
  rw [if_pos (by norm_num), show (0 + 1 / 4 : ℚ) = demandOf 0 by unfold demandOf; norm_num, h, ok_bind, appendEach_long [[], [], [], [], [], []] ts (by simpa using hm)]
  rfl

/-- **C106.** With fewer predictors, the first picture shows the optimum as the curve of a predictor, and then the study raises. -/
theorem C106_fewer_predictors {run : ℚ → Py (List ℚ)} {m : Nat} (hm : m + 1 < 6) {ts : Nat → List ℚ} (h : ∀ k < 120, run (demandOf k) = .ok (ts k) ∧ (ts k).length = m + 1) :
    evalSample run = .error .index ∧ ∃ lists p s, avgTimes run = .ok lists ∧ picture lists = .ok p ∧ styles[m]? = some s ∧ p.legend[m]? = some s.label ∧ s.label ≠ "$\\text{OPT}$" ∧
      p.curves[m]? = some (s.color, s.dashed, (List.range 120).map (fun k => (demandOf k, (ts k).getD m 0))) := by
  have ha := avgTimes_few (ts := ts) (fun k hk => ⟨(h k hk).1, by rw [(h k hk).2]; omega⟩)
  have hp := picture_gen (fun i => (List.range 120).flatMap (fun k => (ts k)[i]?.toList)) (le_refl 6)
  constructor
  · unfold evalSample
    rw [ha, ok_bind, hp, ok_bind]
    have : regrets ((List.range 6).map (fun i => (List.range 120).flatMap (fun k => (ts k)[i]?.toList))) = .error .index := by
      have h5 : (List.range 120).flatMap (fun k => (ts k)[5]?.toList) = [] := flatMap_none (fun k hk => by rw [(h k hk).2]; omega)
      have h0 : (List.range 120).flatMap (fun k => (ts k)[0]?.toList) = (List.range 120).map (fun k => (ts k).getD 0 0) := flatMap_full (fun k hk => by rw [(h k hk).2]; omega)
      have hpt : regretPoint ((List.range 6).map (fun i => (List.range 120).flatMap (fun k => (ts k)[i]?.toList))) ((ts 0).getD 0 0, 0) = .error .index := by
        unfold regretPoint
        rw [rdLast_range 5 (fun i => (List.range 120).flatMap (fun k => (ts k)[i]?.toList)), ok_bind]
        simp only
        rw [h5]
        rfl
      unfold regrets
      rw [dropLast_range 5, zipIdx_range, show List.range 5 = 0 :: [1, 2, 3, 4] from rfl, List.map_cons]
      unfold Builder.mapPy
      simp only
      rw [rd_lt _ _ (by decide), ok_bind, h0, zipIdx_range]
      rw [show mapPy (regretPoint _) _ = .error .index from by
        rw [show ((List.range 120).map (fun k => ((ts k).getD 0 0, k))) = ((ts 0).getD 0 0, 0) :: ((List.range 119).map Nat.succ).map (fun k => ((ts k).getD 0 0, k)) by
          rw [show (120 : Nat) = 119 + 1 from rfl, List.range_succ_eq_map, List.map_cons]]
        unfold Builder.mapPy
        rw [hpt]
        rfl]
      rfl
    rw [this]
    rfl
  · have hm' : m < styles.length := by show m < 6; omega
    refine ⟨_, _, styles[m], ha, hp, List.getElem?_eq_getElem hm', ?_, ?_, ?_⟩
    · simp only
      rw [List.getElem?_map, List.getElem?_eq_getElem hm']
      rfl
    · match m, hm with
      | 0, _ => exact (by decide : (styles[0]'(by decide)).label ≠ "$\\text{OPT}$")
      | 1, _ => exact (by decide : (styles[1]'(by decide)).label ≠ "$\\text{OPT}$")
      | 2, _ => exact (by decide : (styles[2]'(by decide)).label ≠ "$\\text{OPT}$")
      | 3, _ => exact (by decide : (styles[3]'(by decide)).label ≠ "$\\text{OPT}$")
      | 4, _ => exact (by decide : (styles[4]'(by decide)).label ≠ "$\\text{OPT}$")
    · simp only
      rw [List.getElem?_map, List.getElem?_range (by omega)]
      simp only [Option.map_some]
      rw [flatMap_full (fun k hk => by rw [(h k hk).2]; omega), points_eq, List.getD_eq_getElem?_getD, List.getElem?_eq_getElem hm']
      rfl

/-- The demand of a run. -/
def studyInflow (demand : ℚ) : RC := ⟨[0, 25], [demand, 0], ((0 : ℚ) : WithBot ℚ), ⊤⟩

theorem sample_consistent : Consistent (sampleNetwork (P := Unit)).graph := by
  refine ⟨by decide +kernel, by decide +kernel, by decide +kernel, by decide +kernel, by decide +kernel, by decide +kernel, ?_⟩
  have : ∀ i : Fin 5, ((sampleNetwork (P := Unit)).graph.edge ((sampleNetwork (P := Unit)).graph.edges[i.1]'(by have := i.2; exact this))).id = i.1 := by decide +kernel
  intro i h
  exact this ⟨i, h⟩

/-- The network of a run is valid. -/
theorem study_input {P : Type} [DecidableEq P] {ord : List Nat → List Nat} (ho : OrderOk ord) (zero : P) {keys : List P} (hk : keys ≠ []) {demand : ℚ} (hd : 0 ≤ demand) :
    ∃ n : Network P, studyNetwork zero demand = .ok n ∧ n.graph = (sampleNetwork (P := P)).graph ∧ n.capacity = [2, 1, 2, 1, 1] ∧ n.travelTime = [1, 3, 1, 1, 1] ∧ n.commodities = [⟨[(0, studyInflow demand)], 2, zero⟩] ∧
      RunInput ord n (fun _ => ⟨[(0, studyInflow demand)], 2, zero⟩) [0] keys 0 true 25 0 0 (studyInflow demand) := by
  have hn : ∀ v ∈ [0, 2], v ∈ (sampleNetwork (P := P)).graph.nodes := by
    show ∀ v ∈ [0, 2], v ∈ (sampleNetwork (P := Unit)).graph.nodes
    decide +kernel
  have hpath : Path (sampleNetwork (P := P)).graph 0 2 := by
    have e02 : Path (sampleNetwork (P := Unit)).graph 0 2 := Relation.ReflTransGen.single ⟨1, by decide +kernel, rfl, rfl⟩
    exact e02
  refine ⟨{ (sampleNetwork : Network P) with commodities := [⟨[(0, studyInflow demand)], 2, zero⟩] }, ?_, rfl, rfl, rfl, rfl, ?_, ho, rfl, by decide, rfl, rfl, hk, by simp [sampleNetwork, Network.addEdge], fun h => by cases h⟩
  · have h1 : RC.new [0, 25] [demand, 0] ((0 : ℚ) : WithBot ℚ) ⊤ = .ok (studyInflow demand) := by
      unfold RC.new
      rw [pyAssert_true (by rfl), ok_bind, pyAssert_true (by
        intro t ht
        simp only [List.mem_cons, List.not_mem_nil, or_false] at ht
        rcases ht with rfl | rfl
        · exact ⟨le_rfl, le_top⟩
        · exact ⟨WithBot.coe_le_coe.mpr (by norm_num), le_top⟩), ok_bind]
      rfl
    unfold studyNetwork
    rw [h1, ok_bind]
    unfold Network.addCommodity
    rw [pyAssert_true (by
      intro s hs
      obtain rfl := List.mem_singleton.mp hs
      exact hn 0 (by simp)), ok_bind, pyAssert_true (hn 2 (by simp)), ok_bind]
    rfl
  · have hi := (const_inflow hd (h := 25) (by norm_num)).1
    have hg : Consistent (sampleNetwork (P := P)).graph := sample_consistent
    have hl : (sampleNetwork (P := P)).graph.edges.length = 5 := by
      show (sampleNetwork (P := Unit)).graph.edges.length = 5
      decide +kernel
    refine ⟨hg, hl.symm, hl.symm, ?_, ?_, ?_, ?_, ?_, ?_, ?_⟩
    · show ∀ c ∈ ([2, 1, 2, 1, 1] : List ℚ), 0 < c
      decide +kernel
    · show ∀ c ∈ ([1, 3, 1, 1, 1] : List ℚ), 0 ≤ c
      decide +kernel
    · intro c hc
      obtain rfl := List.mem_singleton.mp hc
      exact hn 2 (by simp)
    · intro c hc
      obtain rfl := List.mem_singleton.mp hc
      simp
    · intro c hc s hs
      obtain rfl := List.mem_singleton.mp hc
      obtain rfl := List.mem_singleton.mp hs
      exact ⟨hn 0 (by simp), hpath, hi⟩
    · intro c hc s hs
      obtain rfl := List.mem_singleton.mp hc
      obtain rfl := List.mem_singleton.mp hs
      exact ⟨_, List.mem_singleton.mpr rfl, _, List.mem_singleton.mpr rfl, rfl, by simp [studyInflow]⟩
    · intro c hc s hs c' hc' s' hs' _ a ha b hb hab
      obtain rfl := List.mem_singleton.mp hc
      obtain rfl := List.mem_singleton.mp hs
      obtain rfl := List.mem_singleton.mp hc'
      obtain rfl := List.mem_singleton.mp hs'
      simp only [studyInflow, List.mem_cons, List.not_mem_nil, or_false] at ha hb
      unfold eps
      rcases ha with rfl | rfl <;> rcases hb with rfl | rfl
      · exact absurd hab (lt_irrefl _)
      · norm_num
      · exact absurd hab (by norm_num)
      · exact absurd hab (lt_irrefl _)

variable {P : Type} [DecidableEq P] {ord : List Nat → List Nat} {zero : P} {keys : List P} {preds : ℚ → P → Predictor} {batch : ℚ → P → List ℚ → DFlow → Py (List (List PL))} {tick : Nat → Bool}
  {fuel search : Nat} {demand : ℚ}

/-- **C106.** What a single run of the study returns, if it returns: the flow is built on the sample network with one commodity per predictor from node 0 to node 2, each with an equal share of the demand until time 25, at least
up to time 500. The returned numbers are, in the order of the predictors, the average travel times of their commodities, and last the optimal average travel time in this flow. -/
theorem C106_run (ho : OrderOk ord) (hk : keys ≠ []) (hd : 0 ≤ demand) {ts : List ℚ} (h : studyRun ord zero keys preds batch tick fuel search demand = .ok ts) :
    ts.length = keys.length + 1 ∧
    ∃ n' : Network P, n'.graph = (sampleNetwork (P := P)).graph ∧ n'.capacity = [2, 1, 2, 1, 1] ∧ n'.travelTime = [1, 3, 1, 1, 1] ∧ n'.commodities.length = keys.length ∧
      (∀ (j : Nat) (p : P), keys[j]? = some p → ∃ c d, n'.commodities[j]? = some c ∧ c.predictor = p ∧ c.sink = 2 ∧ c.sources = [(0, d)] ∧ ∀ t, 0 ≤ t → stepValue d t = if t < 25 then demand / keys.length else 0) ∧
      (PredictorsOk n' (preds demand) →
        (∀ b, Builder.init n' (some (1 / 4)) = .ok b → ∀ k, (∀ m < k, ∃ c, rounds ord (preds demand) m { b with built := true } = .ok c ∧ c.flow.phi < 500) → ClearRounds ord (preds demand) { b with built := true } k) →
        ∃ b0 k b, Building n' ord (preds demand) (1 / 4) b0 k ∧ rounds ord (preds demand) k b0 = .ok b ∧ 500 ≤ b.flow.phi ∧
          (∀ (j : Nat) (c : Commodity P), n'.commodities[j]? = some c → ∃ a, ts[j]? = some a ∧
            (Apart eps (0 :: ((sinkOutflows n' b.flow j c).map RC.times).flatten) → MeanTravelTime n' b.flow j c 500 a)) ∧
          ∃ x, ts[keys.length]? = some x ∧ optimalAverage search n' b.flow ((25 : ℚ) : WithTop ℚ) 500 ⟨[(0, studyInflow demand)], 2, zero⟩ = .ok x) := by
  obtain ⟨n, n1, n2, n3, n4, n5, hin⟩ := study_input ho zero hk hd
  unfold studyRun at h
  rw [n1, ok_bind, n5, rd_lt _ _ (by simp), ok_bind] at h
  obtain ⟨rep, hrun, h⟩ := bind_eq_ok.mp h
  injection h with h
  subst h
  simp only [List.getElem_cons_zero] at hrun
  obtain ⟨n', m0, hset, _, _, _, _, hlen, _, _, _, hkeys⟩ := C79_split hin.input ho hin.objects hin.distinct hin.focus (by rfl) hk 25
  have hm0 : m0 = 0 := by
    by_contra hne
    have hpos : 0 < (n'.commodities.take m0).length := by rw [List.length_take]; omega
    obtain ⟨x, hx1, hx2, _⟩ := (hkeys ((n'.commodities.take m0)[0].predictor, (n'.commodities.take m0)[0].sink)).mp (List.mem_map.mpr ⟨_, List.getElem_mem hpos, rfl⟩)
    exact hx2 (List.mem_singleton.mp hx1)
  subst hm0
  obtain ⟨m, s1, s2, s3, s4, s5, s6, s7⟩ := run_setup hin hset
  have hm : m = 0 := by omega
  subst hm
  have hl : rep.travelTimes.length = keys.length + 1 := by
    unfold evaluateSingleRun at hrun
    rw [rd_eq_ok.mpr hin.focus, ok_bind, hset, ok_bind] at hrun
    obtain ⟨flow, _, g2⟩ := bind_eq_ok.mp hrun
    exact (assess_inv s1 g2).2.1
  have hnew : ∀ (j : Nat) (p : P), keys[j]? = some p → ∃ c d, n'.commodities[j]? = some c ∧ c.predictor = p ∧ c.sink = 2 ∧ c.sources = [(0, d)] ∧ ∀ t, 0 ≤ t → stepValue d t = if t < 25 then demand / keys.length else 0 := by
    intro j p hj
    obtain ⟨c, d, c1, c2, c3, c4, c5, _⟩ := s7 j p hj
    rw [Nat.zero_add] at c1
    refine ⟨c, d, c1, c2, c3, c4, fun t ht => ?_⟩
    rw [c5 rfl t ht, show stepValue (studyInflow demand) t = _ from (const_inflow hd (h := 25) (by norm_num)).2 t ht]
    split
    · rfl
    · simp
  refine ⟨hl, n', s3.trans n2, s4.trans n3, s5.trans n4, by omega, hnew, ?_⟩
  intro hp hclear
  obtain ⟨m, b0, k, b, r1, r2, r3, r4, r5, _, r7, r8, _⟩ := C99_report hin hset hp (by norm_num) (by norm_num) hclear hrun
  have hm : m = 0 := by omega
  subst hm
  rw [r4] at r5 r7 r8
  refine ⟨b0, k, b, r2, r3, r5, ?_, r8⟩
  intro j c hc
  have hj : j < keys.length := by
    have := (List.getElem?_eq_some_iff.mp hc).1
    omega
  obtain ⟨c', a, d, c1, _, _, _, c5, c6⟩ := r7 j keys[j] (List.getElem?_eq_getElem hj)
  rw [Nat.zero_add] at c1 c6
  rw [hc] at c1
  injection c1 with c1
  subst c1
  exact ⟨a, c5, c6⟩

/-- **C106.** The study with five predictors, if it returns: in the pictures, the point of the `i`-th curve at demand 0.25, 0.5, …, 30 is the `i`-th number of the run with this demand, see `C106_run`, or this number over the optimum. -/
theorem C106_study (ho : OrderOk ord) (hk : keys.length = 5) {lists : List (List ℚ)} {times regrets_ : Picture} (h : evalSample (studyRun ord zero keys preds batch tick fuel search) = .ok (lists, times, regrets_)) :
    ∃ ts, StudyOf (studyRun ord zero keys preds batch tick fuel search) ts ∧ (∀ k < 120, (ts k).getD 5 0 ≠ 0) ∧
      times.curves.length = 6 ∧ (∀ i s, styles[i]? = some s → times.legend[i]? = some s.label ∧ times.curves[i]? = some (s.color, s.dashed, timeCurve ts i)) ∧
      regrets_.curves.length = 5 ∧ (∀ i s, regretStyles[i]? = some s → regrets_.legend[i]? = some s.label ∧ regrets_.curves[i]? = some (s.color, s.dashed, regretCurve ts i)) := by
  obtain ⟨ts, t1, t2, t3, t4, t5, t6, t7, t8⟩ := C106_written (fun k _ ts hts => by
    rw [(C106_run ho (by intro e; rw [e] at hk; cases hk) (by unfold demandOf; positivity) hts).1, hk]) h
  refine ⟨ts, t1, t2, t5, fun i s hs => ⟨?_, t6 i s hs⟩, t7, fun i s hs => ⟨?_, t8 i s hs⟩⟩
  · rw [t3, List.getElem?_map, hs]; rfl
  · rw [t4, List.getElem?_map, hs]; rfl

/-- The hypotheses of `C106_written` and `C106_returns` hold for runs whose `i`-th travel time is `i + 1`; the regrets of the second predictor are 1/3. -/
example : ∃ lists times regrets_, evalSample (fun _ => .ok [1, 2, 3, 4, 5, 6]) = .ok (lists, times, regrets_) ∧
    regrets_.curves[1]? = some ("red", false, (List.range 120).map (fun k => (demandOf k, (1 / 3 : ℚ)))) := by
  have hS : StudyOf (fun _ => .ok [1, 2, 3, 4, 5, 6]) (fun _ => [1, 2, 3, 4, 5, 6]) := fun k _ => ⟨rfl, rfl⟩
  obtain ⟨⟨l, t, r⟩, h⟩ := C106_returns hS (fun k _ => by norm_num)
  obtain ⟨ts, t1, _, _, _, _, _, _, t8⟩ := C106_written (fun k _ ts hts => by injection hts with hts; subst hts; rfl) h
  refine ⟨l, t, r, h, ?_⟩
  rw [t8 1 ⟨"$\\hat q^{\\text{C}}$", "red", false⟩ rfl]
  congr 3
  apply List.map_congr_left
  intro k hk
  have := (t1 k (List.mem_range.mp hk)).1
  injection this with this
  simp only [← this]
  norm_num

/-- The hypotheses of `C106_fewer_predictors` and `C106_more_predictors` hold for runs with four predictors, and with six. -/
example : evalSample (fun _ => .ok [1, 2, 3, 4, 5]) = .error .index ∧ evalSample (fun _ => .ok [1, 2, 3, 4, 5, 6, 7]) = .error .index :=
  ⟨(C106_fewer_predictors (m := 4) (by norm_num) (ts := fun _ => [1, 2, 3, 4, 5]) (fun k _ => ⟨rfl, rfl⟩)).1, C106_more_predictors rfl (by norm_num)⟩

/-- The input of `C106_run` is valid for demand 30. -/
example : ∃ n : Network (Fin 5), studyNetwork 0 30 = .ok n ∧ RunInput List.dedup n (fun _ => ⟨[(0, studyInflow 30)], 2, 0⟩) [0] [0, 1, 2, 3, 4] 0 true 25 0 0 (studyInflow 30) := by
  obtain ⟨n, h1, _, _, _, _, h2⟩ := study_input dedup_order (0 : Fin 5) (keys := [0, 1, 2, 3, 4]) (by decide) (demand := 30) (by norm_num)
  exact ⟨n, h1, h2⟩

end Verif.Props
