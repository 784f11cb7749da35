import Verif.Spec.Regression
import Verif.Proofs.Regression
import Verif.Props.PredictorsTime

/-! Property theorems C82 and C83: `FullNetLinearRegressionPredictor` and `ExpandedLinearRegressionPredictor`. -/

namespace Verif.Props
open Verif Verif.Spec Verif.Predictors

variable {net : EdgeData} {s : DFlow}

theorem observed_chan {m : Nat} {L : Nat → PL} (h : Sees s m L) {j : Nat} (hj : j < 2 * m) (x : ℚ) :
    Observed m s j x ((if j < m then (s.queues j).fn else (L (j - m)).fn) x) := by
  by_cases hm : j < m
  · exact .inl ⟨hm, by rw [if_pos hm]; exact (h.queues j hm).eval x⟩
  · refine .inr ⟨not_lt.mp hm, hj, L (j - m), h.load _ (by omega), ?_⟩
    rw [if_neg hm]
    exact (h.loads _ (by omega)).eval x

theorem flatten_get {n : Nat} : ∀ (k i : Nat) (blocks : List (List ℚ)) (b : List ℚ), (∀ b ∈ blocks, b.length = n) → blocks[k]? = some b → i < n →
    blocks.flatten[k * n + i]? = b[i]? := by
  intro k i blocks b hb hk hi
  have h1 := drop_blocks k blocks hb
  rw [← List.getElem?_drop, h1]
  obtain ⟨hlt, rfl⟩ := List.getElem?_eq_some_iff.mp hk
  rw [List.drop_eq_getElem_cons hlt, List.flatten_cons, List.getElem?_append_left]
  rw [hb _ (List.getElem_mem hlt)]; exact hi

theorem regRow_fed {c : Setup} {L : Nat → PL} (h : Sees s c.edges L) :
    Fed c.edges c.past s c.output (fun e k => 2 * e + k) (fun i => s.phi + ((c.past : ℚ) - 1 - i)) (regRow c s.phi (fun e => (s.queues e).fn) (fun e => (L e).fn)) := by
  set C := chan c.edges (fun e => (s.queues e).fn) (fun e => (L e).fn) (reversedTimes s.phi c.past) with hC
  have hlen : ∀ j, (C j).length = c.past := fun j => by rw [hC, chan_length, reversedTimes_length]
  have hb : ∀ b ∈ ((List.range c.edges).filter c.output).map (fun e => C (2 * e) ++ C (2 * e + 1)), b.length = 2 * c.past := by
    intro b hb
    obtain ⟨e, _, rfl⟩ := List.mem_map.mp hb
    rw [List.length_append, hlen, hlen]; ring
  refine ⟨rfl, ?_, fun k e hk h' hh i hi => ?_⟩
  · unfold regRow
    rw [List.length_cons, ← hC, List.length_flatten, List.map_congr_left (g := fun _ => 2 * c.past) hb, List.map_const', List.sum_replicate, List.length_map,
      smul_eq_mul]
    ring
  · have he := (List.mem_filter.mp (List.mem_of_getElem? hk)).1
    have he := List.mem_range.mp he
    refine ⟨_, ?_, observed_chan h (j := 2 * e + h') (by omega) _⟩
    have hlt : h' * c.past + i < 2 * c.past := by
      have : h' * c.past ≤ 1 * c.past := Nat.mul_le_mul_right _ (by omega)
      omega
    unfold regRow
    rw [← hC, show 1 + k * (2 * c.past) + h' * c.past + i = (k * (2 * c.past) + (h' * c.past + i)) + 1 by ring, List.getElem?_cons_succ,
      flatten_get k (h' * c.past + i) _ (C (2 * e) ++ C (2 * e + 1)) hb (by rw [List.getElem?_map, hk]; rfl) hlt]
    have hget : ∀ j, (C j)[i]? = some ((if j < c.edges then (s.queues j).fn else (L (j - c.edges)).fn) (s.phi + ((c.past : ℚ) - 1 - i))) := by
      intro j
      rw [hC]; unfold chan
      rw [List.getElem?_map, reversedTimes_get hi]; rfl
    have hcases : h' = 0 ∨ h' = 1 := by omega
    rcases hcases with rfl | rfl
    · rw [List.getElem?_append_left (by rw [hlen]; omega), zero_mul, zero_add, hget]; rfl
    · rw [List.getElem?_append_right (by rw [hlen]; omega), hlen, one_mul, Nat.add_sub_cancel_left, hget]

/-! ### C82 -/

/-- **C82**, what the code does: the model is asked with a row that holds, for the edge `e` of the mask, the rows `2 e` and `2 e + 1` of the table of
queues and loads, at the current and at future times. -/
theorem C82_inputs (h : Reached net s) (c : Setup) (hl : LoadsApart c.edges s) : ∃ row,
    Fed c.edges c.past s c.output (fun e k => 2 * e + k) (fun i => s.phi + ((c.past : ℚ) - 1 - i)) row ∧ Asks (fullNetReg c) s.phi s row := by
  obtain ⟨L, hL⟩ := reached_sees h hl
  refine ⟨_, regRow_fed hL, fun model err he => ?_, fun model model' he => ?_⟩
  · rw [fullNetReg_eq hL rfl, he]; rfl
  · rw [fullNetReg_eq hL rfl, fullNetReg_eq hL rfl, he]

/-- **C82** for networks with one edge and models that look at the current time step only. What is missing: all others, see `C82_wrong_inputs`. -/
theorem C82_inputs_partial (h : Reached net s) (c : Setup) (hl : LoadsApart c.edges s) (hm : c.edges = 1) (hp : c.past = 1) : ∃ row,
    FedPast c.edges c.past c.interval s c.output row ∧ Asks (fullNetReg c) s.phi s row := by
  obtain ⟨row, ⟨h1, h2, h3⟩, h4⟩ := C82_inputs h c hl
  refine ⟨row, ⟨h1, h2, fun k e hk h' hh i hi => ?_⟩, h4⟩
  obtain ⟨v, v1, v2⟩ := h3 k e hk h' hh i hi
  refine ⟨v, v1, ?_⟩
  have he := List.mem_range.mp (List.mem_filter.mp (List.mem_of_getElem? hk)).1
  have e0 : e = 0 := by omega
  have i0 : i = 0 := by omega
  subst e0 i0
  rw [hm, hp] at *
  simpa using v2

/-- **C82**: with a step length of at most 1, whatever the trained model answers, if the predictor returns then every edge of the mask has a physical queue
and every other edge the queue 0. -/
theorem C82_physical_partial (h : Reached net s) (c : Setup) (model : List (List ℚ) → Py (List (List ℚ))) (hl : LoadsApart c.edges s) (hi : 0 < c.interval)
    (hi1 : c.interval ≤ 1) (hc : ∀ e < c.edges, c.capacity e = net.capacity e) {ps : List PL} (hp : (fullNetReg c model).predict s.phi s = .ok ps) :
    ps.length = c.edges ∧ ∀ e < c.edges, ∃ p cur F, ps[e]? = some p ∧ (s.queues e).eval s.phi = .ok cur ∧ Evals p F ∧
      (c.output e = true → Physical (net.capacity e) s.phi cur F) ∧ (c.output e = false → ∀ x, F x = 0) := by
  obtain ⟨L, hL⟩ := reached_sees h hl
  rw [fullNetReg_eq hL rfl] at hp
  obtain ⟨out, _, hp⟩ := bind_eq_ok.mp hp
  obtain ⟨raw, _, hp⟩ := bind_eq_ok.mp hp
  obtain ⟨p1, p2⟩ := Builder.mapPy_range hp
  refine ⟨p1, fun e he => ?_⟩
  obtain ⟨p, q1, q2⟩ := p2 e he
  have hq := reached_facts h e
  cases ho : c.output e with
  | false =>
    rw [ho, if_neg (by simp), py_pure] at q2
    injection q2 with q2; subst q2
    exact ⟨_, _, fun _ => 0, q1, hq.eval _, fun x => PL.eval_const s.phi 0 x, (fun h => by cases h), fun _ _ => rfl⟩
  | true =>
    rw [ho, if_pos rfl] at q2
    have hcap := h.1.cap e
    obtain ⟨a1, a2, a3, _, a5⟩ := edgeFn_spec q2 one_pos (mul_nonneg (le_of_lt hi) (by rw [hc e he]; exact le_of_lt hcap)) (hq.nonneg s.phi le_rfl)
      (slice_nonneg (clip_nonneg raw) _ _)
    refine ⟨p, _, p.fn, q1, hq.eval _, PL.evals a1 a2 a3, fun _ => ⟨a5.start, a5.nonneg, fun x y hx hxy => ?_⟩, fun h => by cases h⟩
    have := a5.drain x y hx hxy
    rw [div_one, hc e he] at this
    have h2 : c.interval * net.capacity e ≤ 1 * net.capacity e := mul_le_mul_of_nonneg_right hi1 (le_of_lt hcap)
    have := mul_le_mul_of_nonneg_right h2 (sub_nonneg.mpr hxy)
    linarith

/-- **C82**: the predictor returns when the model answers with enough numbers. -/
theorem C82_returns (h : Reached net s) (c : Setup) (model : List (List ℚ) → Py (List (List ℚ))) (hl : LoadsApart c.edges s)
    (hm : ∀ row, ∃ raw rest, model [row] = .ok (raw :: rest) ∧ raw.length = countMask c.output c.edges * c.future) :
    ∃ ps, (fullNetReg c model).predict s.phi s = .ok ps := by
  have h1 : eps < 1 := by unfold eps; norm_num
  obtain ⟨L, hL⟩ := reached_sees h hl
  rw [fullNetReg_eq hL rfl]
  obtain ⟨raw, rest, m1, m2⟩ := hm (regRow c s.phi (fun e => (s.queues e).fn) (fun e => (L e).fn))
  rw [m1, ok_bind, rd_lt _ 0 (by simp), ok_bind]
  refine Builder.mapPy_range_ok _ _ (fun e he => ?_)
  split
  · next ho =>
    refine edgeFn_ok h1 (slice_length (m := countMask c.output c.edges) ?_ (by unfold clip; rw [List.length_map, List.getElem_cons_zero, m2]))
    unfold countMask
    have h1 : (List.range (e + 1)).Sublist (List.range c.edges) := List.range_sublist.mpr he
    have h2 := (h1.filter c.output).length_le
    rw [List.range_succ, List.filter_append, List.length_append] at h2
    simp [ho] at h2
    omega
  · exact ⟨_, rfl⟩

/-- **C82**: predictions for another time than that of the flow are refused. -/
theorem C82_refused (h : Reached net s) (c : Setup) (model : List (List ℚ) → Py (List (List ℚ))) (hl : LoadsApart c.edges s) {t : ℚ} (ht : t ≠ s.phi) :
    (fullNetReg c model).predict t s = .error .value := by
  obtain ⟨L, hL⟩ := reached_sees h hl
  unfold fullNetReg
  simp only
  rw [PL.new_ok (PL.wf_const t 0), ok_bind, loads_eq hL.load, ok_bind, if_pos (Ne.symm ht)]

/-- A setting with only edge `e` in the mask. -/
def onlySetup (e past : Nat) (interval : ℚ) : Setup := ⟨2, sampleNet.capacity, fun _ => true, fun j => j == e, past, 1, interval⟩

/-- A model that answers with the first value after the time: it predicts that the queue stays as it is. -/
def stayModel : List (List ℚ) → Py (List (List ℚ)) := fun rows => .ok (rows.map (fun r => [r.getD 1 0]))

/-- A run with queues on edge 0 and load on both edges. -/
def regCalls : List FlowCall := [.extend [(0, [(0, 3), (1, 1)])] 1, .look 0, .extend [(0, [(0, 1/2)])] 10]

/-- The hypotheses of `C82_inputs`, `C82_physical_partial`, `C82_returns` and `C82_refused` are met, with a queue of 1 on edge 0 at time 5. -/
example : ∃ s, Reached sampleNet s ∧ LoadsApart 2 s ∧ s.phi = 5 ∧
    ∃ ps p, (fullNetReg (onlySetup 0 2 1) stayModel).predict 5 s = .ok ps ∧ ps[0]? = some p ∧ p.eval 5 = .ok 1 := by
  obtain ⟨s, h, hp⟩ := reached_of (calls := regCalls) (post := fun s => apartB 2 s && (decide (s.phi = 5) &&
    decide (valueAt ((fullNetReg (onlySetup 0 2 1) stayModel).predict 5 s) 0 5 = some 1))) (by decide +kernel)
  simp only [Bool.and_eq_true, decide_eq_true_eq] at hp
  exact ⟨s, h, apartB_sound hp.1, hp.2.1, valueAt_some hp.2.2⟩

/-- The hypotheses of `C82_inputs_partial` are met. -/
example : ∃ s, Reached sampleNet s ∧ LoadsApart 1 s ∧ (s.queues 0).eval s.phi = .ok 1 := by
  obtain ⟨s, h, hp⟩ := reached_of (calls := regCalls) (post := fun s => apartB 1 s && decide (((s.queues 0).eval s.phi).toOption = some 1)) (by decide +kernel)
  simp only [Bool.and_eq_true, decide_eq_true_eq] at hp
  refine ⟨s, h, apartB_sound hp.1, ?_⟩
  have := hp.2
  rw [(reached_total h 0).eval] at this ⊢
  simpa [Except.toOption] using this

/-- **C82** is false: the mask has edge 1 only, whose queue is empty. A model that looks at the current time step and predicts that the queue stays as it is
answers 0 to every correct row of inputs, but the predictor says that the queue is 2 one time unit later: it feeds the model with the load of edge 0. -/
theorem C82_wrong_inputs : ∃ s, Reached sampleNet s ∧ LoadsApart 2 s ∧ (s.queues 1).eval s.phi = .ok 0 ∧
    (∀ row, FedPast 2 1 1 s (onlySetup 1 1 1).output row → stayModel [row] = .ok [[0]]) ∧
    ∃ ps p, (fullNetReg (onlySetup 1 1 1) stayModel).predict s.phi s = .ok ps ∧ ps[1]? = some p ∧ p.eval (s.phi + 1) = .ok 2 := by
  obtain ⟨s, h, hp⟩ := reached_of (calls := regCalls) (post := fun s => apartB 2 s && (decide (((s.queues 1).eval s.phi).toOption = some 0) &&
    decide (valueAt ((fullNetReg (onlySetup 1 1 1) stayModel).predict s.phi s) 1 (s.phi + 1) = some 2))) (by decide +kernel)
  simp only [Bool.and_eq_true, decide_eq_true_eq] at hp
  have hq : (s.queues 1).eval s.phi = .ok 0 := by
    have := hp.2.1
    rw [(reached_total h 1).eval] at this ⊢
    simpa [Except.toOption] using this
  refine ⟨s, h, apartB_sound hp.1, hq, fun row hrow => ?_, valueAt_some hp.2.2⟩
  obtain ⟨v, v1, v2⟩ := hrow.entry 0 1 (by decide) 0 (by omega) 0 (by omega)
  rcases v2 with ⟨_, v2⟩ | ⟨v2, _⟩
  · norm_num at v1 v2
    rw [hq] at v2
    injection v2 with v2
    subst v2
    unfold stayModel
    rw [List.map_cons, List.map_nil, List.getD_eq_getElem?_getD, v1]; rfl
  · norm_num at v2

/-- **C82**, physical queues, fails for the step length 2: the predicted queue drains with twice the capacity. -/
theorem C82_too_fast : ∃ s, Reached sampleNet s ∧ (s.queues 0).eval s.phi = .ok 3 ∧ sampleNet.capacity 0 = 1 ∧
    ∃ ps p, (fullNetReg (onlySetup 0 1 2) (fun rows => .ok (rows.map (fun _ => [0])))).predict s.phi s = .ok ps ∧ ps[0]? = some p ∧ p.eval (s.phi + 1) = .ok 1 := by
  obtain ⟨s, h, hp⟩ := reached_of (calls := regCalls.take 1) (post := fun s => decide (((s.queues 0).eval s.phi).toOption = some 3) &&
    decide (valueAt ((fullNetReg (onlySetup 0 1 2) (fun rows => .ok (rows.map (fun _ => [0])))).predict s.phi s) 0 (s.phi + 1) = some 1)) (by decide +kernel)
  simp only [Bool.and_eq_true, decide_eq_true_eq] at hp
  refine ⟨s, h, ?_, rfl, valueAt_some hp.2⟩
  have := hp.1
  rw [(reached_total h 0).eval] at this ⊢
  simpa [Except.toOption] using this

/-- **C59** is false for `FullNetLinearRegressionPredictor`: two flows with the same queues and loads up to the prediction time, with different predictions,
because the predictor uses the queue at the next time step as far as it is known. -/
theorem C59_full_net_regression_looks_ahead : ∃ s s', Reached sampleNet s ∧ Reached sampleNet s' ∧ LoadsApart 2 s ∧ LoadsApart 2 s' ∧ s.phi = 1 ∧ s'.phi = 1 ∧
    SameQueues 2 1 s s' ∧ SameLoads 2 1 s s' ∧
    (∃ ps p, (fullNetReg (onlySetup 0 2 1) stayModel).predict 1 s = .ok ps ∧ ps[0]? = some p ∧ p.eval 2 = .ok 6) ∧
    ∃ ps p, (fullNetReg (onlySetup 0 2 1) stayModel).predict 1 s' = .ok ps ∧ ps[0]? = some p ∧ p.eval 2 = .ok (5 / 2) := by
  obtain ⟨s0, s', h0, h1, h2, h3⟩ := runB_sound (net := sampleNet) (calls := regCalls.take 1 ++ [.extend [(0, [(0, 1/2)])] 1]) (post := fun s => decide (s.phi = 1) && (apartB 2 s &&
    decide (valueAt ((fullNetReg (onlySetup 0 2 1) stayModel).predict 1 s) 0 2 = some (5 / 2)))) (by decide +kernel)
  obtain ⟨s1, s, h0', g1, g2, g3⟩ := runB_sound (net := sampleNet) (calls := regCalls.take 1)
    (post := fun s => callsB sampleNet s [.extend [(0, [(0, 1/2)])] 1] && (decide (s.phi = 1) && (apartB 2 s &&
      decide (valueAt ((fullNetReg (onlySetup 0 2 1) stayModel).predict 1 s) 0 2 = some 6)))) (by decide +kernel)
  rw [h0] at h0'; injection h0' with h0'; subst h0'
  simp only [Bool.and_eq_true, decide_eq_true_eq] at g3 h3
  have e : runFlow sampleNet s [.extend [(0, [(0, 1/2)])] 1] = .ok s' := by
    rw [← runFlow_append _ _ g2]; exact h2
  have hr : Reached sampleNet s := ⟨sampleNet_ok, s0, _, h0, g1, g2⟩
  have hc : Continues sampleNet s s' := ⟨_, callsB_sound g3.1, e⟩
  obtain ⟨a, _, b⟩ := continues_same hr hc
  obtain ⟨b1, b2⟩ := b 2 1 (le_of_eq g3.2.1.symm)
  exact ⟨s, s', hr, a, apartB_sound g3.2.2.1, apartB_sound h3.2.1, g3.2.1, h3.1, b1, b2 (apartB_sound g3.2.2.1) (apartB_sound h3.2.1),
    valueAt_some g3.2.2.2, valueAt_some h3.2.2⟩

/-! ### C83 -/

/-- **C83** is false: the predictor read from Weka models raises `AssertionError` for every flow of a network with edges, whatever the regression formulas are. -/
theorem C83_weka_raises (h : Reached net s) {m : Nat} (hm : 0 < m) (out : Nat → List Nat) (coef : Nat → List ℚ → List (List ℚ) → ℚ) (t : ℚ) :
    (expandedWeka m out coef).predict t s = .error .assertion := by
  unfold expandedWeka
  simp only
  obtain ⟨k, rfl⟩ : ∃ k, m = k + 1 := ⟨m - 1, by omega⟩
  rw [show List.range (k + 1) = 0 :: (List.range k).map Nat.succ from List.range_succ_eq_map]
  unfold Builder.mapPy
  rw [mapPy_eq (g := (s.queues 0).fn) (fun x _ => (reached_total h 0).eval x), ok_bind,
    mapPy_eq (g := fun j => ((List.range 11).map (fun (i : Nat) => t - i)).map (s.queues j).fn)
      (fun j _ => mapPy_eq (fun x _ => (reached_total h j).eval x)), ok_bind]
  rw [rd_lt _ 0 (by simp [clip]), ok_bind]
  unfold PL.new
  rw [show ∀ p [Decidable p], ¬ p → pyAssert p = .error .assertion from fun p _ hp => by unfold pyAssert; rw [if_neg hp]]
  · rfl
  · simp

/-- What the closure of `from_scikit_model` does with the arguments it was written for, the queues and the time: if the model answers with `future` numbers, every edge gets
a function that starts with the current queue and then takes the values of the model at whole time steps, or the function 0. -/
theorem C83_scikit_closure (h : Reached net s) (m : Nat) (inc : Nat → List Nat) (hinc : ∀ e < m, ∀ j ∈ inc e, j < m) (past future : Nat)
    (model : List (List ℚ) → Py (List (List ℚ))) (hm : ∀ row, ∃ raw rest, model [row] = .ok (raw :: rest) ∧ raw.length = future) (t : ℚ) :
    ∃ ps, skClosure m inc past future model (.queues ((List.range m).map s.queues)) (.number t) = .ok ps ∧ ps.length = m ∧ ∀ e < m, ∃ p, ps[e]? = some p ∧
      (Evals p (fun _ => 0) ∨ ∃ cur row raw rest, (s.queues e).eval t = .ok cur ∧ p.eval t = .ok cur ∧ model [row] = .ok (raw :: rest) ∧
        ∀ (i : Nat) (v : ℚ), raw[i]? = some v → p.eval (t + (i + 1)) = .ok v) := by
  have hat : ∀ e < m, (Arg.queues ((List.range m).map s.queues)).at e = .ok (s.queues e) := fun e he => by
    unfold Arg.at
    simp only
    rw [rd_lt _ _ (by simpa using he)]; simp
  have hpast : ∀ e < m, ∃ l, pastOf (.queues ((List.range m).map s.queues)) (.number t) past e = .ok l := by
    intro e he
    unfold pastOf
    rw [mapPy_eq (g := fun (k : Nat) => (s.queues e).fn (t + ((k : ℚ) - past + 1)))]
    · exact ⟨_, rfl⟩
    · intro k _
      rw [hat e he, ok_bind]
      exact (reached_total h e).eval _
  have key : ∀ e < m, ∃ p, (do
      let inputs ← skInputs inc past (.queues ((List.range m).map s.queues)) (.number t) e
      if inputs.any (fun v => v != 0) then do
        let res ← model [inputs]
        let raw ← rd res 0
        let q ← (Arg.queues ((List.range m).map s.queues)).at e
        let t ← (Arg.number t).num
        let cur ← q.eval t
        PL.new (futureTimes t 1 future) (cur :: raw) 0 0 ⊥ ⊤
      else do
        let t ← (Arg.number t).num
        PL.new [t] [0] 0 0 ⊥ ⊤ : Py PL) = .ok p ∧
      (Evals p (fun _ => 0) ∨ ∃ cur row raw rest, (s.queues e).eval t = .ok cur ∧ p.eval t = .ok cur ∧ model [row] = .ok (raw :: rest) ∧
        ∀ (i : Nat) (v : ℚ), raw[i]? = some v → p.eval (t + (i + 1)) = .ok v) := by
    intro e he
    obtain ⟨inputs, hin⟩ : ∃ l, skInputs inc past (.queues ((List.range m).map s.queues)) (.number t) e = .ok l := by
      unfold skInputs
      obtain ⟨bs, hbs⟩ := Builder.mapPy_ok (pastOf (.queues ((List.range m).map s.queues)) (.number t) past) (inc e) (fun j hj => hpast j (hinc e he j hj))
      obtain ⟨o, ho⟩ := hpast e he
      rw [hbs.1, ok_bind, ho, ok_bind]
      exact ⟨_, rfl⟩
    rw [hin, ok_bind]
    split
    · obtain ⟨raw, rest, r1, r2⟩ := hm inputs
      have h1 : eps < 1 := by unfold eps; norm_num
      have hw : PL.WF ⟨futureTimes t 1 future, (s.queues e).fn t :: raw, 0, 0, ⊥, ⊤⟩ :=
        ⟨by simp [futureTimes, r2], by simp [futureTimes], futureTimes_gap h1 future, by simp [PL.inDom]⟩
      rw [r1, ok_bind, rd_lt _ 0 (by simp), ok_bind, hat e he, ok_bind]
      unfold Arg.num
      rw [ok_bind, (reached_total h e).eval, ok_bind, List.getElem_cons_zero, PL.new_ok hw]
      have hev : ∀ (i : Nat) (v : ℚ), ((s.queues e).fn t :: raw)[i]? = some v →
          PL.eval ⟨futureTimes t 1 future, (s.queues e).fn t :: raw, 0, 0, ⊥, ⊤⟩ (t + i) = .ok v := by
        intro i v hv
        have hi := (List.getElem?_eq_some_iff.mp hv).1
        have hi' : i < (futureTimes t 1 future).length := by rw [← hw.len]; exact hi
        rw [PL.evals hw rfl rfl]
        have e1 := PL.fn_time hw i hi'
        have e2 : (futureTimes t 1 future)[i] = t + i := by
          have := (futureTimes_get (List.getElem?_eq_getElem hi')).1
          rw [this, mul_one]
        simp only at e1
        rw [e2] at e1
        rw [e1]
        obtain ⟨_, rfl⟩ := List.getElem?_eq_some_iff.mp hv
        rfl
      refine ⟨_, rfl, .inr ⟨_, inputs, raw, rest, rfl, ?_, r1, fun i v hv => ?_⟩⟩
      · have := hev 0 _ rfl
        simpa using this
      · have := hev (i + 1) v (by simpa using hv)
        push_cast at this
        exact this
    · exact ⟨_, PL.new_ok (PL.wf_const t 0), .inl (fun x => PL.eval_const t 0 x)⟩
  obtain ⟨ps, hps⟩ := Builder.mapPy_range_ok _ m (fun e he => (key e he).imp (fun _ h => h.1))
  obtain ⟨a1, a2⟩ := Builder.mapPy_range hps
  refine ⟨ps, hps, a1, fun e he => ?_⟩
  obtain ⟨p, p1, p2⟩ := a2 e he
  obtain ⟨p', q1, q2⟩ := key e he
  rw [q1] at p2; injection p2 with p2; subst p2
  exact ⟨_, p1, q2⟩

/-- **C83** is false: the predictor made from a scikit model raises `TypeError` on every call, because `predict` passes the time and the flow to a function of the queues
and the time. -/
theorem C83_scikit_raises (m : Nat) (inc : Nat → List Nat) (past future : Nat) (model : List (List ℚ) → Py (List (List ℚ))) (t : ℚ) (s : DFlow) :
    (expandedSk m inc past future model).predict t s = .error .typeErr := rfl

/-- The hypotheses of `C83_scikit_closure` are met with a queue of 1: the model's answer 1 is found one time unit later. -/
example : ∃ s, Reached sampleNet s ∧ s.phi = 5 ∧ (∀ row, ∃ raw rest, stayModel [row] = .ok (raw :: rest) ∧ raw.length = 1) ∧
    ∃ ps p, skClosure 2 (fun e => if e = 1 then [0] else []) 2 1 stayModel (.queues ((List.range 2).map s.queues)) (.number 5) = .ok ps ∧ ps[1]? = some p ∧ p.eval 6 = .ok 1 := by
  obtain ⟨s, h, hp⟩ := reached_of (calls := regCalls) (post := fun s => decide (s.phi = 5) &&
    decide (valueAt (skClosure 2 (fun e => if e = 1 then [0] else []) 2 1 stayModel (.queues ((List.range 2).map s.queues)) (.number 5)) 1 6 = some 1)) (by decide +kernel)
  simp only [Bool.and_eq_true, decide_eq_true_eq] at hp
  exact ⟨s, h, hp.1, fun row => ⟨_, _, rfl, rfl⟩, valueAt_some hp.2⟩

end Verif.Props
