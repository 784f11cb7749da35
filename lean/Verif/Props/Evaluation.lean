import Verif.Model.Evaluation
import Verif.Spec.Evaluation
import Verif.Props.SingleRun
import Verif.Props.Terminates
import Verif.Props.Drained
import Verif.Props.MeanError
import Verif.Props.PredictedDelay

/-! Property theorems C99: whole evaluation runs. -/

namespace Verif.Props
open Verif Verif.Spec Verif.SingleRun Verif.Evaluation Verif.AvgTravelTime Verif.Evaluate

variable {P : Type} [DecidableEq P] {n n' : Network P} {ord : List Nat → List Nat} {obj : Nat → Commodity P} {refs : List Nat} {keys : List P} {focused r source : Nat} {split : Bool}
  {inflowHorizon : ℚ} {f : RC} {new : List Nat}

/-- The network of a run, as the parts that follow need it. -/
theorem run_setup (h : RunInput ord n obj refs keys focused split inflowHorizon r source f) (hset : setup ord n obj refs keys focused split inflowHorizon = .ok (n', new)) :
    ∃ m, new = (List.range keys.length).map (fun i => m + i) ∧ InputOk n' ∧ n'.graph = n.graph ∧ n'.capacity = n.capacity ∧ n'.travelTime = n.travelTime ∧
      n'.commodities.length = m + keys.length ∧
      ∀ (j : Nat) (p : P), keys[j]? = some p → ∃ c d, n'.commodities[m + j]? = some c ∧ c.predictor = p ∧ c.sink = (obj r).sink ∧ c.sources = [(source, d)] ∧
        (split = true → ∀ t, 0 ≤ t → stepValue d t = stepValue f t / keys.length) ∧
        (split = false → ∃ v, 0 < v ∧ ∀ t, 0 ≤ t → stepValue d t = if t < inflowHorizon then v else 0) := by
  have hone : ∀ c : Commodity P, c.sources.map Prod.fst = [source] → ∃ d, c.sources = [(source, d)] ∧ ∀ t, sourceRate c source t = stepValue d t := by
    intro c hc
    match hs : c.sources, hc with
    | [(u, d)], hc =>
      have : u = source := by simpa using hc
      subst this
      exact ⟨d, rfl, fun t => by unfold sourceRate; rw [hs]; simp⟩
  have hfr : ∀ t, sourceRate (obj r) source t = stepValue f t := by
    intro t
    unfold sourceRate; rw [h.single]; simp
  cases hsp : split with
  | true =>
    subst hsp
    obtain ⟨n1, m, a1, a2, a3, a4, a5, a6, a7, _⟩ := C79_split h.input h.order h.objects h.distinct h.focus (by rw [h.single]; rfl) h.some_ inflowHorizon
    rw [hset] at a1
    injection a1 with a1
    injection a1 with a1 a1'
    subst a1
    refine ⟨m, a1', a2, a3, a4, a5, a6, fun j p hj => ?_⟩
    obtain ⟨c, c1, c2, c3, c4, c5⟩ := a7 j p hj
    obtain ⟨d, d1, d2⟩ := hone c (by rw [c4, h.single]; rfl)
    exact ⟨c, d, c1, c2, c3, d1, fun _ t ht => by rw [← d2, ← hfr]; exact c5 source t ht, fun hc => by cases hc⟩
  | false =>
    subst hsp
    have hf : InflowOk f := (h.input.source _ (by rw [h.objects]; exact List.mem_map.mpr ⟨r, List.mem_of_getElem? h.focus, rfl⟩) (source, f) (by rw [h.single]; simp)).2.2
    obtain ⟨v0, hv0⟩ : ∃ v0, f.values.head? = some v0 := by
      have := hf.len
      have h2 := hf.ne
      match hv : f.values with
      | [] => rw [hv] at this; exact absurd (List.length_eq_zero_iff.mp (by simpa using this.symm)) h2
      | v :: _ => exact ⟨v, rfl⟩
    obtain ⟨mn, hmn⟩ : ∃ mn, n.capacity.min? = some mn := by
      match hm : n.capacity.min? with
      | none => exact absurd (List.min?_eq_none_iff.mp hm) h.roads
      | some mn => exact ⟨mn, rfl⟩
    have hmn := List.min?_eq_some_iff.mp hmn
    obtain ⟨n1, m, a1, a2, a3, a4, a5, a6, a7, _⟩ := C79_added h.input h.order h.objects h.distinct h.focus h.single h.some_ (h.test rfl).1 (h.test rfl).2 hmn hv0
    rw [hset] at a1
    injection a1 with a1
    injection a1 with a1 a1'
    subst a1
    refine ⟨m, a1', a2, a3, a4, a5, a6, fun j p hj => ?_⟩
    obtain ⟨c, c1, c2, c3, c4, c5⟩ := a7 j p hj
    obtain ⟨d, d1, d2⟩ := hone c c4
    refine ⟨c, d, c1, c2, c3, d1, (fun hc => by cases hc), fun _ => ⟨max (mn / 256) (v0 / 16 / keys.length), ?_, fun t ht => by rw [← d2]; exact c5 t ht⟩⟩
    have := h.input.cap mn hmn.1
    exact lt_max_of_lt_left (by positivity)

omit [DecidableEq P] in
/-- The inflow of a commodity with one source has break points that are clearly apart. -/
theorem single_apart (hn : InputOk n) {c : Commodity P} (hc : c ∈ n.commodities) {d : RC} (hs : c.sources = [(source, d)]) : Apart eps (0 :: (c.sources.map (fun s => s.2.times)).flatten) := by
  have hm : (source, d) ∈ c.sources := by rw [hs]; simp
  obtain ⟨c', k1, s', k2, k3, k4⟩ := hn.start c hc _ hm
  have hpos := (hn.source c hc _ hm).2.2.pos
  rw [hs]
  simp only [List.map_cons, List.map_nil, List.flatten_cons, List.flatten_nil, List.append_nil]
  intro a ha b hb hab
  rcases List.mem_cons.mp ha with rfl | ha <;> rcases List.mem_cons.mp hb with rfl | hb
  · exact absurd hab (lt_irrefl _)
  · exact hn.apart _ k1 _ k2 c hc _ hm k3.symm 0 k4 b hb hab
  · exact absurd hab (not_lt.mpr (hpos a ha))
  · exact hn.apart c hc _ hm c hc _ hm rfl a ha b hb hab

omit [DecidableEq P] in
/-- What an evaluation of a flow consists of. -/
theorem assess_inv {batch : P → List ℚ → DFlow → Py (List (List PL))} {commodity : Commodity P} {horizon reroute interval : ℚ} {future search : Nat} {flow : DFlow} {rep : Report P} {m : Nat}
    (hnew : new = (List.range keys.length).map (fun i => m + i)) (h : assess n' keys batch new commodity inflowHorizon horizon reroute interval future search flow = .ok rep) :
    rep.flow = flow ∧ rep.travelTimes.length = keys.length + 1 ∧ (∀ j < keys.length, ∃ a, rep.travelTimes[j]? = some a ∧ avgTravelTime n' flow (m + j) horizon = .ok a) ∧
      (∃ x, rep.travelTimes[keys.length]? = some x ∧ optimalAverage search n' flow (inflowHorizon : WithTop ℚ) horizon commodity = .ok x) ∧
      (∃ res, MAE.meanAbsoluteErrors n'.graph.edges.length flow (keys.map (fun p => (p, batch p))) future reroute interval horizon = .ok res ∧ rep.errors = res.map Prod.snd ∧ res.map Prod.fst = keys) ∧
      rep.delays.length = n'.commodities.length ∧
      ∀ (i : Nat) (c : Commodity P), n'.commodities[i]? = some c → ∃ d, rep.delays[i]? = some (d, c.predictor, new.contains i) ∧ Delay.delayOf flow n' batch future reroute interval horizon i = .ok d := by
  unfold assess at h
  obtain ⟨times, h1, h⟩ := bind_eq_ok.mp h
  obtain ⟨best, h2, h⟩ := bind_eq_ok.mp h
  obtain ⟨delays, h3, h⟩ := bind_eq_ok.mp h
  obtain ⟨errors, h4, h⟩ := bind_eq_ok.mp h
  injection h with h
  subst h
  obtain ⟨t1, t2⟩ := Builder.mapPy_inv h1
  have t1' : times.length = keys.length := by rw [t1, hnew]; simp
  refine ⟨rfl, by simp [t1'], ?_, ⟨best, by simp [← t1'], h2⟩, ⟨errors, h4, rfl, ?_⟩, ?_⟩
  · intro j hj
    obtain ⟨a, a1, a2⟩ := t2 j (m + j) (by rw [hnew]; simp [hj])
    exact ⟨a, by simp only; rw [List.getElem?_append_left (by omega)]; exact a1, a2⟩
  · unfold MAE.meanAbsoluteErrors at h4
    obtain ⟨_, _, h4⟩ := bind_eq_ok.mp h4
    obtain ⟨_, _, h4⟩ := bind_eq_ok.mp h4
    obtain ⟨_, _, h4⟩ := bind_eq_ok.mp h4
    obtain ⟨l1, l2⟩ := Builder.mapPy_inv h4
    refine List.ext_getElem? (fun j => ?_)
    rw [List.getElem?_map]
    rcases lt_or_ge j keys.length with hj | hj
    · obtain ⟨b, b1, b2⟩ := l2 j (keys[j], batch keys[j]) (by rw [List.getElem?_map, List.getElem?_eq_getElem hj]; rfl)
      obtain ⟨x, _, b2⟩ := bind_eq_ok.mp b2
      injection b2 with b2
      rw [b1, ← b2, List.getElem?_eq_getElem hj]; rfl
    · rw [List.getElem?_eq_none hj, List.getElem?_eq_none (by rw [l1]; simpa using hj)]; rfl
  · unfold Delay.approximateMax at h3
    obtain ⟨l1, l2⟩ := Builder.mapPy_range h3
    refine ⟨l1, fun i c hc => ?_⟩
    obtain ⟨hi, _⟩ := List.getElem?_eq_some_iff.mp hc
    obtain ⟨b, b1, b2⟩ := l2 i hi
    obtain ⟨d, d1, b2⟩ := bind_eq_ok.mp b2
    rw [rd_eq_ok.mpr hc, ok_bind] at b2
    injection b2 with b2
    exact ⟨d, by rw [b1, ← b2], d1⟩

/-- **C99.** What `evaluate_single_run` returns and saves, if it returns and has no stored flow: the flow is built for the network with one new commodity per predictor, at least up to the horizon. The
travel times are, in the order of the predictors, the average travel times of their commodities in this flow, and last the optimal average travel time in this flow. The errors are those of the predictors
in the same order. There is one predicted delay per commodity, marked as new exactly for the new commodities. -/
theorem C99_report (h : RunInput ord n obj refs keys focused split inflowHorizon r source f) (hset : setup ord n obj refs keys focused split inflowHorizon = .ok (n', new)) {preds : P → Predictor}
    (hp : PredictorsOk n' preds) {batch : P → List ℚ → DFlow → Py (List (List PL))} {horizon reroute interval : ℚ} (hr : 0 < reroute) (hh : 0 < horizon) {future fuel search : Nat} {suppress : Bool} {tick : Nat → Bool}
    (hclear : ∀ b, Builder.init n' (some reroute) = .ok b → ∀ k, (∀ m < k, ∃ c, rounds ord preds m { b with built := true } = .ok c ∧ c.flow.phi < horizon) → ClearRounds ord preds { b with built := true } k)
    {rep : Report P} (hrun : evaluateSingleRun ord n obj refs keys preds batch focused split horizon reroute inflowHorizon future interval none suppress tick fuel search = .ok rep) :
    ∃ m b0 k b, n'.commodities.length = m + keys.length ∧ Building n' ord preds reroute b0 k ∧ rounds ord preds k b0 = .ok b ∧ rep.flow = b.flow ∧ horizon ≤ rep.flow.phi ∧
      rep.travelTimes.length = keys.length + 1 ∧
      (∀ (j : Nat) (p : P), keys[j]? = some p → ∃ c a d, n'.commodities[m + j]? = some c ∧ c.predictor = p ∧ c.sink = (obj r).sink ∧ c.sources = [(source, d)] ∧ rep.travelTimes[j]? = some a ∧
        (Apart eps (0 :: ((sinkOutflows n' rep.flow (m + j) c).map RC.times).flatten) → MeanTravelTime n' rep.flow (m + j) c horizon a)) ∧
      (∃ x, rep.travelTimes[keys.length]? = some x ∧ optimalAverage search n' rep.flow (inflowHorizon : WithTop ℚ) horizon (obj r) = .ok x) ∧
      (∃ res, MAE.meanAbsoluteErrors n'.graph.edges.length rep.flow (keys.map (fun p => (p, batch p))) future reroute interval horizon = .ok res ∧ rep.errors = res.map Prod.snd ∧ res.map Prod.fst = keys) ∧
      rep.delays.length = n'.commodities.length ∧
      ∀ (i : Nat) (c : Commodity P), n'.commodities[i]? = some c → ∃ d, rep.delays[i]? = some (d, c.predictor, decide (m ≤ i)) ∧ Delay.delayOf rep.flow n' batch future reroute interval horizon i = .ok d := by
  obtain ⟨m, s1, s2, _, _, _, s6, s7⟩ := run_setup h hset
  unfold evaluateSingleRun at hrun
  rw [rd_eq_ok.mpr h.focus, ok_bind, hset, ok_bind] at hrun
  obtain ⟨flow, g1, g2⟩ := bind_eq_ok.mp hrun
  unfold buildOrLoad at g1
  obtain ⟨b, i1, g1⟩ := bind_eq_ok.mp g1
  split at g1
  swap
  · cases g1
  obtain ⟨⟨fl, b'⟩, w1, w2⟩ := bind_eq_ok.mp g1
  injection w2 with w2
  subst w2
  obtain ⟨_, N, n1, n2, n3, n4⟩ := C48_reaches w1
  have hB : Building n' ord preds reroute { b with built := true } N := ⟨s2, h.order, hp, hr, ⟨b, i1, rfl⟩, hclear b i1 N n4⟩
  obtain ⟨r1, r2, r3, r4, r5, r6, r7⟩ := assess_inv s1 g2
  subst r1
  refine ⟨m, _, N, b', s6, hB, n1, n2, n3, r2, ?_, r4, r5, r6, ?_⟩
  · intro j p hj
    obtain ⟨c, d, c1, c2, c3, c4, _⟩ := s7 j p hj
    obtain ⟨a, a1, a2⟩ := r3 j (List.getElem?_eq_some_iff.mp hj).1
    refine ⟨c, a, d, c1, c2, c3, c4, a1, fun hout => ?_⟩
    obtain ⟨In, Out, A, k1, k2, k3, k4⟩ := C64_avg s2 (by rw [n2]; exact building_reached hB n1) c1 hh (single_apart s2 (List.mem_of_getElem? c1) c4) hout
    rw [a2] at k4
    split at k4
    · cases k4
    · rename_i hne
      injection k4 with k4
      exact ⟨In, Out, A, k1, k2, k3, hne, k4⟩
  · intro i c hc
    obtain ⟨d, d1, d2⟩ := r7 i c hc
    refine ⟨d, ?_, d2⟩
    rw [d1]
    congr 3
    have hi : i < m + keys.length := by
      obtain ⟨h1, _⟩ := List.getElem?_eq_some_iff.mp hc
      omega
    rw [s1, Bool.eq_iff_iff]
    simp only [List.contains_iff_mem, List.mem_map, List.mem_range, decide_eq_true_eq]
    constructor
    · rintro ⟨x, _, rfl⟩; omega
    · intro hm; exact ⟨i - m, by omega, by omega⟩

/-- **C99.** A run that finds the flow of an earlier run of the same evaluation on disk reports the same, whatever it logs. -/
theorem C99_stored {preds : P → Predictor} {batch : P → List ℚ → DFlow → Py (List (List PL))} {horizon reroute interval : ℚ} {future fuel search : Nat} {stored : Option DFlow} {suppress : Bool} {tick : Nat → Bool}
    {rep : Report P} (hrun : evaluateSingleRun ord n obj refs keys preds batch focused split horizon reroute inflowHorizon future interval stored suppress tick fuel search = .ok rep) (suppress' : Bool) (tick' : Nat → Bool) (fuel' : Nat) :
    evaluateSingleRun ord n obj refs keys preds batch focused split horizon reroute inflowHorizon future interval (some rep.flow) suppress' tick' fuel' search = .ok rep := by
  unfold evaluateSingleRun at hrun ⊢
  obtain ⟨r, h1, hrun⟩ := bind_eq_ok.mp hrun
  obtain ⟨⟨n', new⟩, h2, hrun⟩ := bind_eq_ok.mp hrun
  obtain ⟨flow, _, hrun⟩ := bind_eq_ok.mp hrun
  have : rep.flow = flow := by
    unfold assess at hrun
    obtain ⟨times, _, hrun⟩ := bind_eq_ok.mp hrun
    obtain ⟨best, _, hrun⟩ := bind_eq_ok.mp hrun
    obtain ⟨delays, _, hrun⟩ := bind_eq_ok.mp hrun
    obtain ⟨errors, _, hrun⟩ := bind_eq_ok.mp hrun
    injection hrun with hrun
    rw [← hrun]
  rw [h1, ok_bind, h2, ok_bind, this]
  exact hrun

/-- **C99.** A run without stored flow returns, and the optimal travel time that it reports is at most each of the other travel times: if the predictors are valid, all travel times of the roads are positive,
the focused commodity has a constant positive inflow until `inflow_horizon`, the prediction interval is a multiple of the reroute interval, the horizon is long enough for a prediction, and if the first
flow that reaches the horizon has queues that are worked off in time (`Drained`). Not proved for flows with queues at the horizon. -/
theorem C99_runs_partial (h : RunInput ord n obj refs keys focused split inflowHorizon r source f) (hset : setup ord n obj refs keys focused split inflowHorizon = .ok (n', new)) {preds : P → Predictor}
    (hp : PredictorsOk n' preds) (hev : ∀ p t fl ps, (preds p).predict t fl = .ok ps → ∀ q ∈ ps, ∃ F, Evals q F) (hkeys : ∀ c ∈ n'.commodities, c.predictor ∈ keys)
    (hpos : ∀ t ∈ n.travelTime, 0 < t) (hin : 0 < inflowHorizon) (hrate : split = true → ∃ v, 0 < v ∧ ∀ t, 0 ≤ t → stepValue f t = if t < inflowHorizon then v else 0)
    {horizon reroute : ℚ} (hr : 0 < reroute) (hh : 0 < horizon) {future s : Nat} (hF : 0 < future) (hlong : 0 ≤ horizon - (future + 1) * (s * reroute)) (suppress : Bool) (tick : Nat → Bool)
    (hclear : ∀ b, Builder.init n' (some reroute) = .ok b → ∀ k, (∀ m < k, ∃ c, rounds ord preds m { b with built := true } = .ok c ∧ c.flow.phi < horizon) → ClearRounds ord preds { b with built := true } k)
    (hobs : ∀ b, Builder.init n' (some reroute) = .ok b → suppress = false → ∀ m c, 0 < m → (∀ j < m, ∃ c', rounds ord preds j { b with built := true } = .ok c' ∧ c'.flow.phi < horizon) →
      rounds ord preds m { b with built := true } = .ok c → ∀ i ∈ new, ∃ a, avgTravelTime n' c.flow i c.flow.phi = .ok a)
    (hfin : ∀ b k c, Builder.init n' (some reroute) = .ok b → rounds ord preds k { b with built := true } = .ok c → horizon ≤ c.flow.phi →
      (∀ m < k, ∃ c, rounds ord preds m { b with built := true } = .ok c ∧ c.flow.phi < horizon) →
      (∀ i ∈ new, ∀ cm, n'.commodities[i]? = some cm → Apart eps (0 :: ((sinkOutflows n' c.flow i cm).map RC.times).flatten)) ∧
      ∃ arr H0 lines kinks, TravelsAlways n' c.flow arr ∧ Drained n' c.flow arr (obj r).sink H0 horizon lines kinks)
    {search : Nat} (hsearch : n.graph.nodes.length + 1 ≤ search) :
    ∃ fuel rep x, evaluateSingleRun ord n obj refs keys preds (fun p => Predictors.batch (preds p)) focused split horizon reroute inflowHorizon future (s * reroute) none suppress tick fuel search = .ok rep ∧
      rep.travelTimes.length = keys.length + 1 ∧ rep.travelTimes[keys.length]? = some x ∧ ∀ (j : Nat) (a : ℚ), rep.travelTimes[j]? = some a → x ≤ a := by
  obtain ⟨m, s1, s2, s3, s4, s5, s6, s7⟩ := run_setup h hset
  obtain ⟨b, _, i1, _⟩ := Builder.init_spec s2 (some reroute)
  obtain ⟨fuel, k, c, b', t1, t2, t3, t3', t4⟩ := terminates_building s2 h.order hp hr (by rw [s5]; exact hpos) i1 (interval := reroute) (ne_of_gt hr) hh (some new) suppress tick (hclear b i1)
    (fun hs l hl m' c' m1 m2 m3 => by injection hl with hl; subst hl; exact hobs b i1 hs m' c' m1 m2 m3)
  obtain ⟨hout, arr, H0, lines, kinks, harr, hdr⟩ := hfin b k c i1 t2 t3 t3'
  have hreach := building_reached t1 t2
  have hrm : obj r ∈ n.commodities := by rw [h.objects]; exact List.mem_map.mpr ⟨r, List.mem_of_getElem? h.focus, rfl⟩
  have hfs := h.input.source _ hrm (source, f) (by rw [h.single]; simp)
  have hK : (0 : ℚ) < keys.length := by exact_mod_cast List.length_pos_iff.mpr h.some_
  have hcapAt : capAt ((inflowHorizon : ℚ) : WithTop ℚ) horizon = min inflowHorizon horizon := rfl
  have hnewc : ∀ (j : Nat) (p : P), keys[j]? = some p → ∃ cm d v, n'.commodities[m + j]? = some cm ∧ cm.sink = (obj r).sink ∧ cm.sources = [(source, d)] ∧ 0 < v ∧
      ∀ t, 0 ≤ t → stepValue d t = if t < inflowHorizon then v else 0 := by
    intro j p hj
    obtain ⟨cm, d, c1, _, c3, c4, c5, c6⟩ := s7 j p hj
    cases hsp : split with
    | true =>
      obtain ⟨v, v1, v2⟩ := hrate hsp
      refine ⟨cm, d, v / keys.length, c1, c3, c4, by positivity, fun t ht => ?_⟩
      rw [c5 hsp t ht, v2 t ht]
      split <;> simp
    | false =>
      obtain ⟨v, v1, v2⟩ := c6 hsp
      exact ⟨cm, d, v, c1, c3, c4, v1, v2⟩
  have hidx : ∀ j < keys.length, m + j ∈ new := fun j hj => by rw [s1]; exact List.mem_map.mpr ⟨j, List.mem_range.mpr hj, rfl⟩
  -- the average travel times
  have havg : ∀ j < keys.length, ∃ a, avgTravelTime n' c.flow (m + j) horizon = .ok a := by
    intro j hj
    obtain ⟨cm, d, v, c1, c2, c3, c4, c5⟩ := hnewc j _ (List.getElem?_eq_getElem hj)
    have hcm := List.mem_of_getElem? c1
    obtain ⟨In, Out, A, k1, _, _, k4⟩ := C64_avg s2 hreach c1 hh (single_apart s2 hcm c3) (hout _ (hidx j hj) cm c1)
    have hent : ∀ t, 0 ≤ t → enters cm t = if t < inflowHorizon then v else 0 := by
      intro t ht
      unfold enters
      rw [c3]
      simpa using c5 t ht
    have hmin : 0 < min inflowHorizon horizon := lt_min hin hh
    have h1 := k1.const le_rfl hmin.le (c := v) (fun x hx hx' => by rw [hent x hx, if_pos (lt_of_lt_of_le hx' (min_le_left _ _))])
    have h2 := k1.mono (fun x hx => by rw [hent x hx]; split <;> linarith) hmin.le (min_le_right inflowHorizon horizon)
    have h3 : 0 < In horizon := by
      have := mul_pos c4 hmin
      rw [k1.1] at h1
      linarith
    exact ⟨_, by rw [k4, if_neg (ne_of_gt h3)]⟩
  obtain ⟨times, m1, m2, m3⟩ := Builder.mapPy_ok (fun i => avgTravelTime n' c.flow i horizon) new (fun i hi => by
    rw [s1] at hi
    obtain ⟨j, hj, rfl⟩ := List.mem_map.mp hi
    exact havg j (List.mem_range.mp hj))
  have m2' : times.length = keys.length := by rw [m2, s1]; simp
  -- the optimal one
  have hin' : (0 : WithTop ℚ) < ((inflowHorizon : ℚ) : WithTop ℚ) := WithTop.coe_lt_coe.mpr hin
  have hle : ∀ (j : Nat) (a : ℚ), times[j]? = some a → ∃ x, optimalAverage search n' c.flow ((inflowHorizon : ℚ) : WithTop ℚ) horizon (obj r) = .ok x ∧ x ≤ a := by
    intro j a ha
    have hj : j < keys.length := by rw [← m2']; exact (List.getElem?_eq_some_iff.mp ha).1
    obtain ⟨cm, d, v, c1, c2, c3, c4, c5⟩ := hnewc j _ (List.getElem?_eq_getElem hj)
    obtain ⟨a', a1, a2⟩ := m3 j (m + j) (by rw [s1]; simp [hj])
    rw [ha] at a1
    injection a1 with a1
    subst a1
    refine C93_drained_partial t1 t2 c1 c3 hin' (r := v) t3 (fun x hx hx' => ?_) (fun x hx hx' => ?_) harr (by rw [c2]; exact hdr) h.single c2.symm (by rw [s3]; exact hsearch)
      (single_apart s2 (List.mem_of_getElem? c1) c3) (hout _ (hidx j hj) cm c1) a2
    · rw [hcapAt] at hx'
      rw [c5 x hx, if_pos (lt_of_lt_of_le hx' (min_le_left _ _))]
    · rw [hcapAt] at hx
      rcases min_le_iff.mp hx with h1 | h1
      · rw [c5 x (by linarith), if_neg (not_lt.mpr h1)]
      · linarith
  obtain ⟨a0, ha0⟩ : ∃ a0, times[0]? = some a0 := by
    have : 0 < times.length := by rw [m2']; exact List.length_pos_iff.mpr h.some_
    exact ⟨_, List.getElem?_eq_getElem this⟩
  obtain ⟨x, x1, _⟩ := hle 0 a0 ha0
  -- delays and errors
  obtain ⟨delays, d1, _⟩ := C63_all new (fun i cm hc => C63_built t1 t2 hp (future := future) (predInterval := s * reroute) (horizon := horizon) hr hlong (by
    have : (0 : ℚ) ≤ (future + 1) * (s * reroute) := by positivity
    linarith) hc)
  have hedges : 0 < n'.graph.edges.length := by
    rw [← s2.capLen, s4]
    exact List.length_pos_iff.mpr h.roads
  obtain ⟨b2, hb2, f0, cs, _, hf0, hcs, hrun, _⟩ := C43_conservation t1
  rw [t2] at hb2; injection hb2 with hb2; subst hb2
  obtain ⟨errors, e1, _⟩ := C78_returns hreach n'.graph.edges.length future s reroute horizon hr hedges hF hlong (by
    have : (0 : ℚ) ≤ (future + 1) * (s * reroute) := by positivity
    linarith) (keys.map (fun p => (p, preds p))) (by
      intro q hq t ht ht'
      obtain ⟨p, _, rfl⟩ := List.mem_map.mp hq
      obtain ⟨ps, p1, p2⟩ := hp p f0 c.flow cs t hf0 hcs hrun ht ht'
      exact ⟨ps, p1, p2.len, hev p t c.flow ps p1⟩)
  refine ⟨fuel, ⟨times ++ [x], c.flow, errors.map Prod.snd, delays⟩, x, ?_, by simp [m2'], by simp [← m2'], ?_⟩
  · unfold evaluateSingleRun
    rw [rd_eq_ok.mpr h.focus, ok_bind, hset, ok_bind]
    show (do
      let flow ← buildOrLoad ord keys preds reroute horizon new suppress tick fuel n' none
      assess n' keys (fun p => Predictors.batch (preds p)) new (obj r) inflowHorizon horizon reroute (s * reroute) future search flow : Py (Report P)) = _
    have hb : buildOrLoad ord keys preds reroute horizon new suppress tick fuel n' none = .ok c.flow := by
      unfold buildOrLoad
      rw [i1, ok_bind, if_pos (List.all_eq_true.mpr (fun c hc => decide_eq_true (hkeys c hc))), t4]
      rfl
    rw [hb, ok_bind]
    unfold assess
    rw [m1, ok_bind, x1, ok_bind, d1, ok_bind]
    have : keys.map (fun p => (p, Predictors.batch (preds p))) = (keys.map (fun p => (p, preds p))).map (fun p => (p.1, Predictors.batch p.2)) := by simp
    rw [this, e1]
    rfl
  · intro j a ha
    simp only at ha
    rcases lt_or_ge j times.length with hj | hj
    · rw [List.getElem?_append_left hj] at ha
      obtain ⟨x', y1, y2⟩ := hle j a ha
      rw [x1] at y1
      injection y1 with y1
      rw [y1]; exact y2
    · rw [List.getElem?_append_right hj] at ha
      match hjj : j - times.length, ha with
      | 0, ha => simp at ha; rw [ha]
      | _ + 1, ha => simp at ha

/-- One commodity on one road, to be split between two predictors. -/
def runObj : Nat → Commodity (Fin 2) := fun _ => ⟨[(0, ⟨[0, 1], [2, 0], ((0 : ℚ) : WithBot ℚ), ⊤⟩)], 1, 0⟩

def runNet : Network (Fin 2) := { ((Network.empty : Network (Fin 2)).addEdge 0 1 1 1) with commodities := [0].map runObj }

/-- The network of the run. -/
def runNet' : Network (Fin 2) :=
  { runNet with commodities := [⟨[(0, ⟨[0, 1], [1, 0], ((0 : ℚ) : WithBot ℚ), ⊤⟩)], 1, 0⟩, ⟨[(0, ⟨[0, 1], [1, 0], ((0 : ℚ) : WithBot ℚ), ⊤⟩)], 1, 1⟩] }

theorem runNet_ok : InputOk runNet := by
  have hg : Consistent runNet.graph := emptiedNet_ok.graph
  have e01 : Path runNet.graph 0 1 := Relation.ReflTransGen.single ⟨0, by decide +kernel, rfl, rfl⟩
  have i1 : InflowOk ⟨[0, 1], [2, 0], ((0 : ℚ) : WithBot ℚ), ⊤⟩ := ⟨rfl, by simp, by decide +kernel, by decide +kernel, rfl, rfl, by decide +kernel⟩
  refine ⟨hg, rfl, rfl, by decide +kernel, by decide +kernel, by decide +kernel, by decide +kernel, ?_, ?_, ?_⟩
  · intro c hc s hs
    simp only [runNet, runObj, List.map_cons, List.map_nil, List.mem_cons, List.not_mem_nil, or_false] at hc
    subst hc
    simp only [List.mem_cons, List.not_mem_nil, or_false] at hs
    subst hs
    exact ⟨by decide +kernel, e01, i1⟩
  · decide +kernel
  · unfold eps
    have : ∀ c ∈ runNet.commodities, ∀ s ∈ c.sources, ∀ c' ∈ runNet.commodities, ∀ s' ∈ c'.sources,
      ∀ a ∈ s.2.times, ∀ b ∈ s'.2.times, (a < b → (1 : ℚ) / 10000000000 < b - a) := by decide +kernel
    exact fun c hc s hs c' hc' s' hs' _ => this c hc s hs c' hc' s' hs'

theorem run_input : RunInput List.dedup runNet runObj [0] [0, 1] 0 true 1 0 0 ⟨[0, 1], [2, 0], ((0 : ℚ) : WithBot ℚ), ⊤⟩ :=
  ⟨runNet_ok, dedup_order, rfl, by decide, rfl, rfl, by decide, by decide +kernel, fun h => by cases h⟩

theorem run_set : setup List.dedup runNet runObj [0] [0, 1] 0 true 1 = .ok (runNet', [0, 1]) := by
  obtain ⟨n1, m, a1, _, a3, a4, a5, a6, _⟩ := C79_split runNet_ok dedup_order (obj := runObj) (refs := [0]) rfl (by decide) (focused := 0) (r := 0) rfl rfl (preds := [(0 : Fin 2), 1]) (by decide) 1
  have key : (match setup List.dedup runNet runObj [0] [0, 1] 0 true 1 with
    | .ok (n', _) => decide (n'.commodities.map (fun c => (c.sources, c.sink, c.predictor)) = runNet'.commodities.map (fun c => (c.sources, c.sink, c.predictor)))
    | _ => false) = true := by decide +kernel
  rw [a1] at key
  have key := of_decide_eq_true key
  have hinj : Function.Injective (fun c : Commodity (Fin 2) => (c.sources, c.sink, c.predictor)) := by
    rintro ⟨a, b, c⟩ ⟨a', b', c'⟩ h
    simp only [Prod.mk.injEq] at h
    rw [h.1, h.2.1, h.2.2]
  have hc := List.map_injective_iff.mpr hinj key
  have hm : m = 0 := by
    have : n1.commodities.length = 2 := by rw [hc]; rfl
    rw [this] at a6
    simpa using a6.symm
  subst hm
  rw [a1]
  obtain ⟨g, cap, tt, cs⟩ := n1
  simp only at a3 a4 a5 hc
  subst a3 a4 a5 hc
  rfl

theorem Drained.congr {P Q : Type} {n : Network P} {n' : Network Q} (hg : n'.graph = n.graph) (hc : n'.capacity = n.capacity) {flow : DFlow} {arr : Nat → ℚ → ℚ} {sink : Nat} {H0 horizon : ℚ}
    {lines : List (ℚ × ℚ)} {kinks : List ℚ} (h : Drained n flow arr sink H0 horizon lines kinks) : Drained n' flow arr sink H0 horizon lines kinks := by
  refine ⟨?_, ?_, h.start, ?_, ?_, h.clear, h.turns, ?_⟩
  · rw [hg]; exact h.const
  · rw [hg]; exact h.bends
  · rw [hg, hc]; exact h.slopes
  · rw [hg]; exact h.onLines
  · rw [hg]; exact h.before

/-- The hypotheses of `C99_runs_partial` hold for this run with horizon 5: it returns two travel times and the optimal one. -/
theorem run_example : ∃ fuel rep x, evaluateSingleRun List.dedup runNet runObj [0] [0, 1] (fun _ => Predictors.zero 1) (fun _ => Predictors.batch (Predictors.zero 1)) 0 true 5 2 1 1 ((1 : Nat) * 2) none true
      (fun _ => true) fuel 3 = .ok rep ∧ rep.travelTimes.length = 2 + 1 ∧ rep.travelTimes[2]? = some x ∧ ∀ (j : Nat) (a : ℚ), rep.travelTimes[j]? = some a → x ≤ a := by
  obtain ⟨b1, u1, u2, c1, u3, u4⟩ := Builder.buildB_sound (show Builder.buildB List.dedup (fun _ => Predictors.zero 1) runNet' 2 5 (fun b => decide (b.flow.phi = 6) &&
    (decide (b.flow.queues 0 = ⟨[0, 1, 2], [0, 1, 0], 0, 0, ⊥, ⊤⟩) && (decide (((sinkOutflows runNet' b.flow 0 ⟨[(0, ⟨[0, 1], [1, 0], ((0 : ℚ) : WithBot ℚ), ⊤⟩)], 1, 0⟩).map RC.times).flatten = [0, 1, 3]) &&
      decide (((sinkOutflows runNet' b.flow 1 ⟨[(0, ⟨[0, 1], [1, 0], ((0 : ℚ) : WithBot ℚ), ⊤⟩)], 1, 1⟩).map RC.times).flatten = [0, 1, 3])))) = true by decide +kernel)
  have hall : ∀ k : Fin 5, Builder.buildB List.dedup (fun _ : Fin 2 => Predictors.zero 1) runNet' 2 k.1 (fun b => decide (b.flow.phi = (k.1 : ℚ))) = true := by decide +kernel
  simp only [Bool.and_eq_true, decide_eq_true_eq] at u4
  have hok : InputOk runNet' := (run_setup run_input run_set).choose_spec.2.1
  have hmax : ∀ k, (∀ m < k, ∃ c, rounds List.dedup (fun _ : Fin 2 => Predictors.zero 1) m { b1 with built := true } = .ok c ∧ c.flow.phi < 5) → k ≤ 5 := by
    intro k hk
    by_contra hge
    obtain ⟨c', w1, w2⟩ := hk 5 (by omega)
    rw [u3] at w1
    injection w1 with w1
    subst w1
    rw [u4.1] at w2
    norm_num at w2
  refine C99_runs_partial run_input run_set (preds := fun _ => Predictors.zero 1) (fun p f0 f calls t h0 hc hr _ ht => Predictors.zero_ok hok t f) ?_ ?_ (by decide +kernel) one_pos ?_ two_pos
    (by norm_num) one_pos (by norm_num) true _ ?_ (fun _ _ h => by cases h) ?_ (by decide +kernel)
  · intro p t fl ps hps q hq
    obtain ⟨_, ps', z1, _, z2⟩ := C54_zero 1 t fl
    rw [hps] at z1
    injection z1 with z1
    subst z1
    exact ⟨fun _ => 0, z2 q hq⟩
  · decide +kernel
  · refine fun _ => ⟨2, two_pos, fun t ht => ?_⟩
    rw [Builder.stepValue_fn ⟨rfl, by simp, by decide +kernel, by decide +kernel, rfl, rfl, by decide +kernel⟩ ht]
    unfold RC.fn RC.idx RC.cnt
    by_cases h1 : t < 1
    · have h2 : ¬ (1 : ℚ) ≤ t := not_le.mpr h1
      simp [ht, h1, h2]
    · have h2 : (1 : ℚ) ≤ t := not_lt.mp h1
      simp [ht, h1, h2]
  · intro b hb k hk m hm
    rw [u1] at hb
    injection hb with hb
    subst hb
    exact u2 m (lt_of_lt_of_le hm (hmax k hk))
  · intro b k c hb hc hphi hlow
    rw [u1] at hb
    injection hb with hb
    subst hb
    have hk : k = 5 := by
      have h1 := hmax k hlow
      by_contra hne
      have h2 : ∀ k' < 5, ∃ c', rounds List.dedup (fun _ : Fin 2 => Predictors.zero 1) k' { b1 with built := true } = .ok c' ∧ c'.flow.phi < 5 := by
        intro k' hk'
        obtain ⟨b2, v1, _, c2, v3, v4⟩ := Builder.buildB_sound (hall ⟨k', hk'⟩)
        rw [u1] at v1
        injection v1 with v1
        subst v1
        refine ⟨c2, v3, ?_⟩
        rw [of_decide_eq_true v4]
        exact_mod_cast hk'
      obtain ⟨c', w1, w2⟩ := h2 k (by omega)
      rw [hc] at w1
      injection w1 with w1
      subst w1
      linarith
    subst hk
    rw [u3] at hc
    injection hc with hc
    subst hc
    refine ⟨?_, emptiedArr, 3, emptiedLines, [0, 1, 2], (emptied_drained u4.2.1).1, Drained.congr (n := emptiedNet) (n' := runNet') rfl rfl (show Drained emptiedNet _ _ 1 _ _ _ _ from (emptied_drained u4.2.1).2)⟩
    intro i hi cm hcm
    simp only [List.mem_cons, List.not_mem_nil, or_false] at hi
    rcases hi with rfl | rfl
    · have : (⟨[(0, ⟨[0, 1], [1, 0], ((0 : ℚ) : WithBot ℚ), ⊤⟩)], 1, 0⟩ : Commodity (Fin 2)) = cm := Option.some.inj hcm
      subst this
      rw [u4.2.2.1]
      unfold Apart eps
      decide +kernel
    · have : (⟨[(0, ⟨[0, 1], [1, 0], ((0 : ℚ) : WithBot ℚ), ⊤⟩)], 1, 1⟩ : Commodity (Fin 2)) = cm := Option.some.inj hcm
      subst this
      rw [u4.2.2.2]
      unfold Apart eps
      decide +kernel

/-- The hypotheses of `C99_report` and `C99_stored` hold for this run, too. -/
example : ∃ fuel rep, evaluateSingleRun List.dedup runNet runObj [0] [0, 1] (fun _ => Predictors.zero 1) (fun _ => Predictors.batch (Predictors.zero 1)) 0 true 5 2 1 1 ((1 : Nat) * 2) none true
    (fun _ => true) fuel 3 = .ok rep := by
  obtain ⟨fuel, rep, _, h, _⟩ := run_example
  exact ⟨fuel, rep, h⟩

/-- **C48.** With logging on, a line that is logged before an observed commodity enters the network raises `ZeroDivisionError`: here after the first round, for the only observed commodity. -/
theorem C48_log_fails {preds : P → Predictor} {d : ℚ} {b : Builder P} (h : Building n ord preds d { b with built := true } 1) (hb : b.built = false) {interval horizon : ℚ} (hi : interval ≠ 0) (hh : 0 < horizon)
    {c : Builder P} (hc : rounds ord preds 1 { b with built := true } = .ok c) {i : Nat} {cm : Commodity P} (hcm : n.commodities[i]? = some cm)
    (hin : Apart eps (0 :: (cm.sources.map (fun s => s.2.times)).flatten)) (hout : Apart eps (0 :: ((sinkOutflows n c.flow i cm).map RC.times).flatten))
    (hpos : 0 < c.flow.phi) (hlate : ∀ t, 0 ≤ t → t < c.flow.phi → enters cm t = 0) {tick : Nat → Bool} (ht : tick 0 = true) (fuel : Nat) :
    Builder.buildWithTimes ord preds interval horizon (some [i]) false tick (fuel + 1) b = .error .zeroDiv := by
  have hphi0 : b.flow.phi = 0 := by
    obtain ⟨b0, h1, h2⟩ := h.made
    obtain ⟨b', f0, i1, i2, _, _, _, _, _, i3, _⟩ := Builder.init_spec h.input (some d)
    rw [h1] at i1
    injection i1 with i1
    subst i1
    obtain ⟨s, j1, j2, _⟩ := DFlow.init_ok (Builder.netOk h.input)
    rw [i2] at j1
    injection j1 with j1
    subst j1
    have : ({ b with built := true } : Builder P).flow = ({ b0 with built := true } : Builder P).flow := by rw [h2]
    have hbf : b.flow = b0.flow := this
    rw [hbf, i3, j2]
  have hlog : Builder.observeTimes c.net c.flow (some [i]) = .error .zeroDiv := by
    obtain ⟨In, Out, A, k1, _, _, k4⟩ := C64_avg h.input (building_reached h hc) hcm hpos hin hout
    have := k1.const le_rfl hpos.le (c := 0) hlate
    rw [k1.1] at this
    rw [if_pos (by linarith)] at k4
    unfold Builder.observeTimes Builder.mapPy
    rw [building_net h le_rfl hc]
    simp only [k4]
    rfl
  have hstep : Builder.step ord preds { b with built := true } = .ok c := by
    rw [Builder.rounds_succ'] at hc
    obtain ⟨c', s1, s2⟩ := bind_eq_ok.mp hc
    injection s2 with s2
    rw [s1, s2]
  unfold Builder.buildWithTimes Builder.buildLoop
  simp only [Builder.next, hb, Bool.false_eq_true, if_false, hphi0, if_pos hh, hstep]
  rw [Builder.mark_ok hi, if_pos (show c.flow.phi ≥ 0 from hpos.le)]
  simp only [ok_bind, ht, Builder.logTime, and_self, if_true, hlog]
  rfl

/-- A commodity that enters between times 1 and 2 only. -/
def lateNet : Network (Fin 1) :=
  { ((Network.empty : Network (Fin 1)).addEdge 0 1 1 1) with
    commodities := [⟨[(0, ⟨[0, 1, 2], [0, 1, 0], ((0 : ℚ) : WithBot ℚ), ⊤⟩)], 1, 0⟩] }

theorem lateNet_ok : InputOk lateNet := by
  have hg : Consistent lateNet.graph := emptiedNet_ok.graph
  have e01 : Path lateNet.graph 0 1 := Relation.ReflTransGen.single ⟨0, by decide +kernel, rfl, rfl⟩
  have i1 : InflowOk ⟨[0, 1, 2], [0, 1, 0], ((0 : ℚ) : WithBot ℚ), ⊤⟩ := ⟨rfl, by simp, by decide +kernel, by decide +kernel, rfl, rfl, by decide +kernel⟩
  refine ⟨hg, rfl, rfl, by decide +kernel, by decide +kernel, by decide +kernel, by decide +kernel, ?_, ?_, ?_⟩
  · intro c hc s hs
    simp only [lateNet, List.mem_cons, List.not_mem_nil, or_false] at hc
    subst hc
    simp only [List.mem_cons, List.not_mem_nil, or_false] at hs
    subst hs
    exact ⟨by decide +kernel, e01, i1⟩
  · decide +kernel
  · unfold eps
    have : ∀ c ∈ lateNet.commodities, ∀ s ∈ c.sources, ∀ c' ∈ lateNet.commodities, ∀ s' ∈ c'.sources,
      ∀ a ∈ s.2.times, ∀ b ∈ s'.2.times, (a < b → (1 : ℚ) / 10000000000 < b - a) := by decide +kernel
    exact fun c hc s hs c' hc' s' hs' _ => this c hc s hs c' hc' s' hs'

/-- **C48**: the hypotheses of `C48_log_fails` hold for a commodity that enters at time 1 only, if the first line is logged after the first round. -/
example : ∃ b, Builder.init lateNet (some 2) = .ok b ∧
    Builder.buildWithTimes List.dedup (fun _ => Predictors.zero 1) 2 10 (some [0]) false (fun _ => true) 100 b = .error .zeroDiv := by
  obtain ⟨b, h1, h2, c, h3, h4⟩ := Builder.buildB_sound (show Builder.buildB List.dedup (fun _ => Predictors.zero 1) lateNet 2 1 (fun b => decide (b.flow.phi = 1) &&
    decide (((sinkOutflows lateNet b.flow 0 ⟨[(0, ⟨[0, 1, 2], [0, 1, 0], ((0 : ℚ) : WithBot ℚ), ⊤⟩)], 1, 0⟩).map RC.times).flatten = [])) = true by decide +kernel)
  simp only [Bool.and_eq_true, decide_eq_true_eq] at h4
  have hB : Building lateNet List.dedup (fun _ => Predictors.zero 1) 2 { b with built := true } 1 :=
    ⟨lateNet_ok, dedup_order, fun p f0 f calls t _ _ _ _ _ => Predictors.zero_ok lateNet_ok t f, by norm_num, ⟨b, h1, rfl⟩, h2⟩
  have hbuilt : b.built = false := by
    obtain ⟨b', f0, i1, _, _, _, _, i2, _⟩ := Builder.init_spec lateNet_ok (some 2)
    rw [h1] at i1
    injection i1 with i1
    rw [i1]; exact i2
  refine ⟨b, h1, C48_log_fails hB hbuilt two_ne_zero (by norm_num) h3 (i := 0) rfl (by unfold Apart eps; decide +kernel) (by rw [h4.2]; unfold Apart eps; decide +kernel) (by rw [h4.1]; norm_num) ?_ rfl 99⟩
  intro t ht ht'
  rw [h4.1] at ht'
  have hok := (lateNet_ok.source _ (List.mem_singleton.mpr rfl) _ (List.mem_singleton.mpr rfl)).2.2
  unfold enters
  simp only [List.map_cons, List.map_nil, List.sum_cons, List.sum_nil, add_zero]
  rw [Builder.stepValue_fn hok ht]
  have h1 : ¬ (1 : ℚ) ≤ t := not_le.mpr ht'
  have h2 : ¬ (2 : ℚ) ≤ t := not_le.mpr (by linarith)
  unfold RC.fn RC.idx RC.cnt
  simp [ht, h1, h2]

end Verif.Props
