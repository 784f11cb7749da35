import Verif.Props.PredictorsTime
import Verif.Props.Regression

/-! Property theorems C127: trained models are asked with the past values they were trained on, and their answers become the values of the prediction
(src/core/predictors/sk_full_net_predictor.py:42-103, src/core/predictors/sk_neighborhood_predictor.py:49-112,
src/core/predictors/per_edge_linear_regression_predictor.py:32-71). -/

namespace Verif.Props
open Verif Spec Predictors Builder

/-- The last `past` times up to `t`, `step` apart. -/
def lastTimes (t step : ℚ) (past : Nat) : List ℚ := (List.range past).map (fun (k : Nat) => t - ((past : ℚ) - 1 - k) * step)

/-- `p` takes the values `v 0`, ..., `v n` at `t`, `t + step`, ..., `t + n * step`. -/
def Takes (p : PL) (t step : ℚ) (n : Nat) (v : Nat → ℚ) : Prop := ∀ k : Nat, k ≤ n → p.eval (t + k * step) = .ok (v k)

/-- `F` are the queues and `G` the loads of the roads below `m`. -/
structure Shows (s : DFlow) (m : Nat) (F G : Nat → ℚ → ℚ) : Prop where
  queue : ∀ e < m, ∀ x, (s.queues e).eval x = .ok (F e x)
  load : ∀ e < m, ∃ p, s.edgeLoad e = .ok p ∧ ∀ x, p.eval x = .ok (G e x)

/-- Road by road, time by time. -/
def byRoad (F : Nat → ℚ → ℚ) (times : List ℚ) (edges : List Nat) : List ℚ := edges.flatMap (fun e => times.map (F e))

/-- Time by time, road by road. -/
def byTime (F : Nat → ℚ → ℚ) (times : List ℚ) (edges : List Nat) : List ℚ := times.flatMap (fun x => edges.map (fun e => F e x))

theorem pastTimes_lastTimes (t step : ℚ) (past : Nat) : pastTimes t step past = lastTimes t step past := by
  unfold pastTimes lastTimes
  refine List.map_congr_left fun k _ => ?_
  ring

theorem rowOf_byRoad {F F' : Nat → ℚ → ℚ} {times : List ℚ} {edges : List Nat} (h : ∀ e ∈ edges, ∀ x, F e x = F' e x) : rowOf F times edges = byRoad F' times edges := by
  unfold rowOf byRoad
  rw [List.flatMap_def]
  congr 1
  exact List.map_congr_left fun e he => List.map_congr_left fun x _ => h e he x

theorem takes_of {p : PL} (hw : p.WF) (h1 : p.lo = ⊥) (h2 : p.hi = ⊤) {t step : ℚ} {n : Nat} (ht : p.times = futureTimes t step n) : Takes p t step n (fun k => p.values.getD k 0) := by
  intro k hk
  have hlen : p.times.length = n + 1 := by rw [ht, futureTimes_length]
  have e1 : p.times[k]'(by omega) = t + k * step := by
    have h := List.getElem?_eq_getElem (l := p.times) (i := k) (by omega)
    conv at h => lhs; rw [ht]
    exact (futureTimes_get h).1
  rw [PL.evals hw h1 h2, ← e1, PL.fn_time hw k (by omega)]
  have hv : k < p.values.length := by rw [hw.len]; omega
  simp only [List.getD_eq_getElem?_getD, List.getElem?_eq_getElem hv, Option.getD_some]

theorem repair_follow (d : ℚ) : ∀ (l : List ℚ) (c : ℚ) (k : Nat), k < l.length → ∃ r, l[k]? = some r ∧ (repair d c l).getD (k + 1) 0 = max r ((repair d c l).getD k 0 - d) := by
  intro l
  induction l with
  | nil => intro c k hk; simp at hk
  | cons v l ih =>
    intro c k hk
    cases k with
    | zero =>
      refine ⟨v, rfl, ?_⟩
      unfold repair
      simp [List.getD_eq_getElem?_getD, repair_head]
    | succ k =>
      obtain ⟨r, h1, h2⟩ := ih (max v (c - d)) k (by simpa using hk)
      refine ⟨r, by simpa using h1, ?_⟩
      unfold repair
      simpa [List.getD_eq_getElem?_getD] using h2

theorem perEdge_follow (av : Bool) (cap : ℚ) : ∀ (l : List ℚ) (c : ℚ) (k : Nat), k < l.length → ∃ r, l[k]? = some r ∧
    (perEdgeValues av cap c l).getD (k + 1) 0 = max (max (if av then 2 * r - (perEdgeValues av cap c l).getD k 0 else r) ((perEdgeValues av cap c l).getD k 0 - cap)) 0 := by
  intro l
  induction l with
  | nil => intro c k hk; simp at hk
  | cons v l ih =>
    intro c k hk
    cases k with
    | zero =>
      refine ⟨v, rfl, ?_⟩
      unfold perEdgeValues
      simp [List.getD_eq_getElem?_getD, perEdgeValues_head]
    | succ k =>
      obtain ⟨r, h1, h2⟩ := ih (max (max (if av then 2 * v - c else v) (c - cap)) 0) k (by simpa using hk)
      refine ⟨r, by simpa using h1, ?_⟩
      unfold perEdgeValues
      simpa [List.getD_eq_getElem?_getD] using h2

theorem edgeFn_takes {c : Setup} {step t cur : ℚ} {raw : List ℚ} {e : Nat} {p : PL} (hp : edgeFn c step t cur raw e = .ok p) :
    raw.length = c.future ∧ ∃ v : Nat → ℚ, Takes p t step c.future v ∧ v 0 = cur ∧ ∀ k < c.future, ∃ r, raw[k]? = some r ∧ v (k + 1) = max r (v k - c.interval * c.capacity e) := by
  unfold edgeFn at hp
  obtain ⟨hp, hwf⟩ := PL.new_eq_ok.mp hp
  have hlen : raw.length = c.future := by
    have := hwf.len
    rw [hp] at this
    simp only [repair_length, futureTimes_length] at this
    omega
  have hve : p.values = repair (c.interval * c.capacity e) cur raw := by rw [hp]
  refine ⟨hlen, _, takes_of hwf (by rw [hp]) (by rw [hp]) (by rw [hp]), ?_, ?_⟩
  · rw [hve, List.getD_eq_getElem?_getD, repair_head]; rfl
  · intro k hk
    rw [hve]
    exact repair_follow _ _ _ _ (by omega)

theorem clip_get {raw : List ℚ} {k : Nat} {r : ℚ} (h : (clip raw)[k]? = some r) : ∃ r', raw[k]? = some r' ∧ r = max r' 0 := by
  unfold clip at h
  rw [List.getElem?_map, Option.map_eq_some_iff] at h
  obtain ⟨r', h1, h2⟩ := h
  exact ⟨r', h1, h2.symm⟩

theorem slice_get {raw : List ℚ} {i n k : Nat} {r : ℚ} (h : (slice i n raw)[k]? = some r) : raw[i * n + k]? = some r := by
  unfold slice at h
  rw [List.getElem?_take] at h
  split at h
  · rw [List.getElem?_drop] at h; exact h
  · cases h

variable {net : EdgeData} {s : DFlow}

theorem observed_sees (h : Reached net s) {m : Nat} {F G : Nat → ℚ → ℚ} (hl : LoadsApart m s) (ho : Shows s m F G) :
    ∃ L, Sees s m L ∧ (∀ e < m, ∀ x, (s.queues e).fn x = F e x) ∧ ∀ e < m, ∀ x, (L e).fn x = G e x := by
  obtain ⟨L, hL⟩ := reached_sees h hl
  refine ⟨L, hL, fun e he x => ?_, fun e he x => ?_⟩
  · have := ((reached_total h e).eval x).symm.trans (ho.queue e he x)
    injection this
  · obtain ⟨p, p1, p2⟩ := ho.load e he
    have e1 := (hL.load e he).symm.trans p1
    injection e1 with e1
    subst e1
    have := ((hL.loads e he).eval x).symm.trans (p2 x)
    injection this

/-- **C127, full-net predictors.** The model is asked one row: the time, then the queues and then the loads of the input roads at the last `past` times, road by road. The number at
`k` of the part of the answer that belongs to a road (the parts are in the order of the output roads) is its queue `k + 1` intervals later, unless it is negative or below what is
left after draining at capacity. -/
theorem C127_full_net (h : Reached net s) (c : Setup) (model : List (List ℚ) → Py (List (List ℚ))) (hl : LoadsApart c.edges s) (hi : 0 ≤ c.interval) {F G : Nat → ℚ → ℚ}
    (ho : Shows s c.edges F G) {t : ℚ} {ps : List PL} (hp : (fullNet c model).predict t s = .ok ps) :
    ∃ raw rest, model [t :: (byRoad F (lastTimes t c.interval c.past) ((List.range c.edges).filter c.input) ++ byRoad G (lastTimes t c.interval c.past) ((List.range c.edges).filter c.input))] =
        .ok (raw :: rest) ∧ ps.length = c.edges ∧
      ∀ e < c.edges, c.output e = true → ∃ p v, ps[e]? = some p ∧ Takes p t c.interval c.future v ∧ v 0 = F e t ∧
        ∀ k < c.future, ∃ r, raw[((List.range e).filter c.output).length * c.future + k]? = some r ∧ v (k + 1) = max (max r 0) (v k - c.interval * c.capacity e) := by
  obtain ⟨L, hL, hF, hG⟩ := observed_sees h hl ho
  rw [fullNet_eq hL hi, pastTimes_lastTimes] at hp
  have hin : ∀ e ∈ (List.range c.edges).filter c.input, e < c.edges := fun e he => List.mem_range.mp (List.mem_of_mem_filter he)
  rw [rowOf_byRoad (F' := F) (fun e he x => hF e (hin e he) x), rowOf_byRoad (F' := G) (fun e he x => hG e (hin e he) x)] at hp
  obtain ⟨out, h1, hp⟩ := bind_eq_ok.mp hp
  obtain ⟨raw, h2, hp⟩ := bind_eq_ok.mp hp
  obtain ⟨p1, p2⟩ := Builder.mapPy_range hp
  cases out with
  | nil => cases h2
  | cons x rest =>
    have e1 : x = raw := by simpa [rd] using h2
    subst e1
    refine ⟨x, rest, h1, p1, fun e he hout => ?_⟩
    obtain ⟨p, q1, q2⟩ := p2 e he
    rw [if_pos hout] at q2
    obtain ⟨_, v, v1, v2, v3⟩ := edgeFn_takes q2
    refine ⟨p, v, q1, v1, by rw [v2, hF e he], fun k hk => ?_⟩
    obtain ⟨r, r1, r2⟩ := v3 k hk
    obtain ⟨r', r3, rfl⟩ := clip_get (slice_get r1)
    exact ⟨r', r3, r2⟩

/-- **C127, neighbourhood predictors.** The model of an output road is asked about the input roads of its neighbourhood only; its answers are the queue 1, 2, ... time units later. -/
theorem C127_neighborhood (h : Reached net s) (c : Setup) (near : Nat → Nat → Bool) (models : Nat → List (List ℚ) → Py (List (List ℚ))) (hl : LoadsApart c.edges s) (hi : 0 ≤ c.interval)
    {F G : Nat → ℚ → ℚ} (ho : Shows s c.edges F G) {t : ℚ} {ps : List PL} (hp : (neighborhood c near models).predict t s = .ok ps) : ps.length = c.edges ∧
      ∀ e < c.edges, c.output e = true → ∃ raw rest p v,
        models e [t :: (byRoad F (lastTimes t c.interval c.past) ((List.range c.edges).filter (fun j => near e j && c.input j)) ++
          byRoad G (lastTimes t c.interval c.past) ((List.range c.edges).filter (fun j => near e j && c.input j)))] = .ok (raw :: rest) ∧
        ps[e]? = some p ∧ Takes p t 1 c.future v ∧ v 0 = F e t ∧
        ∀ k < c.future, ∃ r, raw[k]? = some r ∧ v (k + 1) = max (max r 0) (v k - c.interval * c.capacity e) := by
  obtain ⟨L, hL, hF, hG⟩ := observed_sees h hl ho
  rw [neighborhood_eq hL hi, pastTimes_lastTimes] at hp
  obtain ⟨p1, p2⟩ := Builder.mapPy_range hp
  refine ⟨p1, fun e he hout => ?_⟩
  obtain ⟨p, q1, q2⟩ := p2 e he
  rw [if_pos hout] at q2
  have hin : ∀ j ∈ (List.range c.edges).filter (fun j => near e j && c.input j), j < c.edges := fun j hj => List.mem_range.mp (List.mem_of_mem_filter hj)
  rw [rowOf_byRoad (F' := F) (fun e he x => hF e (hin e he) x), rowOf_byRoad (F' := G) (fun e he x => hG e (hin e he) x)] at q2
  obtain ⟨out, h1, q2⟩ := bind_eq_ok.mp q2
  obtain ⟨raw, h2, q2⟩ := bind_eq_ok.mp q2
  cases out with
  | nil => cases h2
  | cons x rest =>
    have e1 : x = raw := by simpa [rd] using h2
    subst e1
    obtain ⟨_, v, v1, v2, v3⟩ := edgeFn_takes q2
    refine ⟨x, rest, p, v, h1, q1, v1, by rw [v2, hF e he], fun k hk => ?_⟩
    obtain ⟨r, r1, r2⟩ := v3 k hk
    obtain ⟨r', r3, rfl⟩ := clip_get r1
    exact ⟨r', r3, r2⟩

theorem interleaved_byTime {F : Nat → ℚ → ℚ} (hF : ∀ e x, (s.queues e).eval x = .ok (F e x)) (times : List ℚ) (edges : List Nat) :
    interleaved s times edges = .ok (byTime F times edges) := by
  unfold interleaved byTime
  rw [mapPy_eq (g := fun t => edges.map (fun e => F e t)) (fun t _ => mapPy_eq (fun e _ => hF e t)), ok_bind, List.flatMap_def]
  rfl

/-- **C127, `PerEdgeLinearRegressionPredictor`.** The model of a road is asked about the roads into its tail, those out of its head and itself at the times `t + past - 1`, ..., `t` (C59 shows
that these are not in the past), time by time; before `simplify` the prediction goes through the answers, as far as they are not negative and not below what is left after draining. -/
theorem C127_per_edge {m : Nat} (inc out : Nat → List Nat) (capacity : Nat → ℚ) (past future : Nat) (average : Bool)
    (models : Nat → List (List ℚ) → Py (List (List ℚ))) {F : Nat → ℚ → ℚ} (hF : ∀ e x, (s.queues e).eval x = .ok (F e x)) {t : ℚ} {ps : List PL}
    (hp : (perEdge m inc out capacity past future average models).predict t s = .ok ps) : ps.length = m ∧
      ∀ e < m, ∃ raw rest p q v,
        (let times := (List.range past).map (fun (k : Nat) => t + ((past : ℚ) - 1 - k))
         models e [byTime F times (inc e) ++ byTime F times (out e) ++ byTime F times [e]] = .ok (raw :: rest)) ∧
        ps[e]? = some p ∧ q.simplify = .ok p ∧ Takes q t 1 future v ∧ v 0 = F e t ∧
        ∀ k < future, ∃ r, raw[k]? = some r ∧ v (k + 1) = max (max (if average then 2 * r - v k else r) (v k - capacity e)) 0 := by
  obtain ⟨p1, p2⟩ := Builder.mapPy_range hp
  refine ⟨p1, fun e he => ?_⟩
  obtain ⟨p, q1, q2⟩ := p2 e he
  have ht : (List.range past).map (fun (k : Nat) => t - ((k : ℚ) - past + 1)) = (List.range past).map (fun (k : Nat) => t + ((past : ℚ) - 1 - k)) :=
    List.map_congr_left fun k _ => by ring
  rw [ht, interleaved_byTime hF, ok_bind, interleaved_byTime hF, ok_bind, interleaved_byTime hF, ok_bind] at q2
  obtain ⟨o, h1, q2⟩ := bind_eq_ok.mp q2
  obtain ⟨raw, h2, q2⟩ := bind_eq_ok.mp q2
  rw [hF e t, ok_bind] at q2
  obtain ⟨q, h3, h4⟩ := bind_eq_ok.mp q2
  obtain ⟨hq, hwf⟩ := PL.new_eq_ok.mp h3
  have hlen : raw.length = future := by
    have := hwf.len
    rw [hq] at this
    simp only [perEdgeValues_length, futureTimes_length] at this
    omega
  have hve : q.values = perEdgeValues average (capacity e) (F e t) raw := by rw [hq]
  cases o with
  | nil => cases h2
  | cons x rest =>
    have e1 : x = raw := by simpa [rd] using h2
    subst e1
    refine ⟨x, rest, p, q, _, h1, q1, h4, takes_of hwf (by rw [hq]) (by rw [hq]) (by rw [hq]), ?_, ?_⟩
    · rw [hve, List.getD_eq_getElem?_getD, perEdgeValues_head]; rfl
    · intro k hk
      rw [hve]
      exact perEdge_follow _ _ _ _ _ (by omega)

/-- **C127, the closure of `from_scikit_model`** (for networks with at most five roads into each node). The model of the network is asked about the roads into the tail at the last `past` time
steps, road by road, then zeros up to five blocks, then the road itself; unless all inputs are 0, the prediction of the road starts at the current queue and then takes the answers. -/
theorem C127_scikit_closure {m : Nat} (inc : Nat → List Nat) (hinc : ∀ e < m, (∀ j ∈ inc e, j < m) ∧ (inc e).length ≤ 5) (past future : Nat)
    (model : List (List ℚ) → Py (List (List ℚ))) {F : Nat → ℚ → ℚ} (hF : ∀ e x, (s.queues e).eval x = .ok (F e x)) {t : ℚ} {ps : List PL}
    (hp : skClosure m inc past future model (.queues ((List.range m).map s.queues)) (.number t) = .ok ps) : ps.length = m ∧
      ∀ e < m, ∃ p row, ps[e]? = some p ∧
        row = byRoad F (lastTimes t 1 past) (inc e) ++ List.replicate ((5 - (inc e).length) * past) 0 ++ (lastTimes t 1 past).map (F e) ∧
        ((∀ v ∈ row, v = 0) → ∀ x, p.eval x = .ok 0) ∧
        ((∃ v ∈ row, v ≠ 0) → ∃ raw rest v, model [row] = .ok (raw :: rest) ∧ Takes p t 1 future v ∧ v 0 = F e t ∧ ∀ k < future, raw[k]? = some (v (k + 1))) := by
  have hat : ∀ e < m, (Arg.queues ((List.range m).map s.queues)).at e = .ok (s.queues e) := fun e he => by
    unfold Arg.at
    simp only
    rw [rd_lt _ _ (by simpa using he)]; simp
  have hpast : ∀ e < m, Predictors.pastOf (.queues ((List.range m).map s.queues)) (.number t) past e = .ok ((lastTimes t 1 past).map (F e)) := by
    intro e he
    unfold Predictors.pastOf
    rw [mapPy_eq (g := fun (k : Nat) => F e (t - ((past : ℚ) - 1 - k) * 1))]
    · unfold lastTimes; rw [List.map_map]; rfl
    · intro k _
      rw [hat e he, ok_bind]
      exact (hF e _).trans (by congr 2; ring)
  have hsk : ∀ e < m, skInputs inc past (.queues ((List.range m).map s.queues)) (.number t) e =
      .ok (byRoad F (lastTimes t 1 past) (inc e) ++ List.replicate ((5 - (inc e).length) * past) 0 ++ (lastTimes t 1 past).map (F e)) := by
    intro e he
    unfold skInputs
    rw [mapPy_eq (g := fun j => (lastTimes t 1 past).map (F j)) (fun j hj => hpast j ((hinc e he).1 j hj)), ok_bind, hpast e he, ok_bind]
    have hlen : ((inc e).map (fun j => (lastTimes t 1 past).map (F j))).flatten.length = (inc e).length * past := by
      rw [List.length_flatten, List.map_map, List.map_congr_left (g := fun _ => past) (fun j _ => by simp [lastTimes]), List.map_const', List.sum_replicate, smul_eq_mul]
    rw [hlen, ← Nat.sub_mul]
    unfold byRoad
    rw [List.flatMap_def]
    rfl
  obtain ⟨_, _, hp⟩ := bind_eq_ok.mp hp
  obtain ⟨p1, p2⟩ := Builder.mapPy_range hp
  refine ⟨p1, fun e he => ?_⟩
  obtain ⟨p, q1, q2⟩ := p2 e he
  rw [hsk e he, ok_bind] at q2
  refine ⟨p, _, q1, rfl, fun h0 => ?_, fun h0 => ?_⟩
  · rw [if_neg] at q2
    · have q2 := (PL.new_ok (PL.wf_const t 0)).symm.trans q2
      injection q2 with q2; subst q2
      exact fun x => PL.eval_const t 0 x
    · rw [List.any_eq_true]
      rintro ⟨v, hv, hne⟩
      exact (bne_iff_ne.mp hne) (h0 v hv)
  · rw [if_pos (by obtain ⟨v, hv, hne⟩ := h0; exact List.any_eq_true.mpr ⟨v, hv, bne_iff_ne.mpr hne⟩)] at q2
    obtain ⟨o, h1, q2⟩ := bind_eq_ok.mp q2
    obtain ⟨raw, h2, q2⟩ := bind_eq_ok.mp q2
    rw [hat e he, ok_bind] at q2
    unfold Arg.num at q2
    rw [ok_bind, hF, ok_bind] at q2
    obtain ⟨hq, hwf⟩ := PL.new_eq_ok.mp q2
    have hlen : raw.length = future := by
      have := hwf.len
      rw [hq] at this
      simp only [List.length_cons, futureTimes_length] at this
      omega
    have hve : p.values = F e t :: raw := by rw [hq]
    cases o with
    | nil => cases h2
    | cons x rest =>
      have e1 : x = raw := by simpa [rd] using h2
      subst e1
      refine ⟨x, rest, _, h1, takes_of hwf (by rw [hq]) (by rw [hq]) (by rw [hq]), ?_, fun k hk => ?_⟩
      · rw [hve]; rfl
      · rw [hve, List.getD_cons_succ, List.getD_eq_getElem?_getD, List.getElem?_eq_getElem (by omega)]; rfl

/-- A model that answers one row only. -/
def pickyModel (row answer : List ℚ) : List (List ℚ) → Py (List (List ℚ)) := fun rows => if rows = [row] then .ok [answer] else .error .value

/-- The hypotheses of the three theorems are met with a queue of 3 at time 1; the models see exactly the rows of the theorems. -/
example : ∃ s, Reached sampleNet s ∧ 1 ≤ s.phi ∧ LoadsApart 2 s ∧ (∃ F G, Shows s 2 F G) ∧ (∃ F : Nat → ℚ → ℚ, ∀ e x, (s.queues e).eval x = .ok (F e x)) ∧
    (∃ ps p, (fullNet (sampleSetup 1) (pickyModel [1, 0, 3, 0, 0, 0, 4, 0, 0] [-5, 7])).predict 1 s = .ok ps ∧ ps[0]? = some p ∧ p.eval 3 = .ok 7) ∧
    (∃ ps p, (neighborhood (sampleSetup 1) (fun e j => e == j) (fun _ => pickyModel [1, 0, 3, 0, 4] [-5, 7])).predict 1 s = .ok ps ∧ ps[0]? = some p ∧ p.eval 3 = .ok 7) ∧
    ∃ ps p, (perEdge 1 (fun _ => [1]) (fun _ => [0, 1]) sampleNet.capacity 2 2 true (fun _ => pickyModel [0, 0, 5 / 2, 0, 3, 0, 5 / 2, 3] [4, 7])).predict 1 s = .ok ps ∧
      ps[0]? = some p ∧ p.eval 3 = .ok 9 := by
  obtain ⟨s, h, hp⟩ := reached_of (calls := sampleCalls) (post := fun s => decide (1 ≤ s.phi) && (apartB 2 s &&
    (decide (valueAt ((fullNet (sampleSetup 1) (pickyModel [1, 0, 3, 0, 0, 0, 4, 0, 0] [-5, 7])).predict 1 s) 0 3 = some 7) &&
    (decide (valueAt ((neighborhood (sampleSetup 1) (fun e j => e == j) (fun _ => pickyModel [1, 0, 3, 0, 4] [-5, 7])).predict 1 s) 0 3 = some 7) &&
    decide (valueAt ((perEdge 1 (fun _ => [1]) (fun _ => [0, 1]) sampleNet.capacity 2 2 true (fun _ => pickyModel [0, 0, 5 / 2, 0, 3, 0, 5 / 2, 3] [4, 7])).predict 1 s) 0 3 = some 9)))))
    (by decide +kernel)
  simp only [Bool.and_eq_true, decide_eq_true_eq] at hp
  have ha := apartB_sound hp.2.1
  obtain ⟨L, hL⟩ := reached_sees h ha
  exact ⟨s, h, hp.1, ha, ⟨fun e => (s.queues e).fn, fun e => (L e).fn, fun e _ x => (reached_total h e).eval x, fun e he => ⟨L e, hL.load e he, (hL.loads e he).eval⟩⟩,
    ⟨fun e => (s.queues e).fn, fun e x => (reached_total h e).eval x⟩, valueAt_some hp.2.2.1, valueAt_some hp.2.2.2.1, valueAt_some hp.2.2.2.2⟩

example : ∃ s, Reached sampleNet s ∧ (∃ F : Nat → ℚ → ℚ, ∀ e x, (s.queues e).eval x = .ok (F e x)) ∧
    ∃ ps p, skClosure 2 (fun e => if e = 0 then [0, 1] else []) 2 1 (pickyModel [0, 3, 0, 0, 0, 0, 0, 0, 0, 0, 0, 3] [8]) (.queues ((List.range 2).map s.queues)) (.number 1) = .ok ps ∧
      ps[0]? = some p ∧ p.eval 2 = .ok 8 := by
  obtain ⟨s, h, hp⟩ := reached_of (calls := sampleCalls) (post := fun s =>
    decide (valueAt (skClosure 2 (fun e => if e = 0 then [0, 1] else []) 2 1 (pickyModel [0, 3, 0, 0, 0, 0, 0, 0, 0, 0, 0, 3] [8]) (.queues ((List.range 2).map s.queues)) (.number 1)) 0 2 =
      some 8)) (by decide +kernel)
  simp only [decide_eq_true_eq] at hp
  exact ⟨s, h, ⟨fun e => (s.queues e).fn, fun e x => (reached_total h e).eval x⟩, valueAt_some hp⟩

end Verif.Props
