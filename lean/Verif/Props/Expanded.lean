import Verif.Proofs.Expanded
import Verif.Props.MeanError

/-! Property theorems C96, C97 and C98: the older training data. -/

namespace Verif.Props
open Verif Verif.Spec Verif.Expanded Verif.Dataset Verif.Builder

/-! ### C96 -/

open Classical in
/-- **C96**, except for the labels: for every graph, all flows and parameters the table has one row for each flow, each multiple of the sample step before the end and each
edge for which one of the sampled queues is not empty; its columns are the edge and the first five edges into its tail. The column labelled `t`
holds the queue of the time labelled `-t`: what is called past is the future. Missing: `meant … c` in place of `meant … (mirror c)`. -/
theorem C96_rows_partial (g : Graph) (past future : Nat) (step horizon : ℚ) {k : Int} (hk : 0 < k) {flows : List DFlow} (hf : ∀ s ∈ flows, ∃ net, Reached net s) :
    ∃ cols times, HeaderOk past future cols ∧ Multiples k ⌊horizon - step * future⌋ times ∧
      expandedTable g past future step horizon k (flows.map FlowFile.plain) = .ok (cols,
        flows.flatMap (fun s => times.flatMap (fun phi => (g.edges.filter (fun r => decide (Busy g s past future step phi r))).map
          (fun r => cols.map (fun c => meant g s step phi r (mirror c)))))) := by
  obtain ⟨times, h1, h2⟩ := stepRange_spec (b := ⌊horizon - step * future⌋) hk
  refine ⟨_, times, header_ok past future, h2, table_eq h1 ?_⟩
  intro s hs e x
  obtain ⟨net, hr⟩ := hf s hs
  exact queueAt_evals hr e x

/-- What is in the table of an edge, with `average` or without. -/
theorem edge_samples {s : DFlow} (hr : ∃ net, Reached net s) (average : Bool) {step : ℚ} (hs : 0 < step) (phi : Int) (i : Nat) (t : Int) :
    ∃ v, sampleOf average step phi (s.queues i) t = .ok v := by
  obtain ⟨net, hr⟩ := hr
  unfold sampleOf
  cases average with
  | false => exact ⟨_, queueAt_evals hr i _⟩
  | true =>
    have hq := reached_facts hr i
    have hd : ∀ x, (s.queues i).inDom x := fun x => ⟨by rw [hq.lo]; exact bot_le, by rw [hq.hi]; exact le_top⟩
    refine ⟨_, PL.integrate_eq hq.wf ?_ (hd _) (hd _) (by nlinarith)⟩
    intro v hv
    obtain ⟨j, hj, rfl⟩ := List.mem_iff_getElem.mp hv
    have hlt : j < (s.queues i).times.length := by rw [← hq.wf.len]; exact hj
    rw [← PL.fn_time hq.wf j hlt]
    refine hq.nonneg _ (le_trans (le_getLast hq.wf.lt hq.wf.ne (List.getElem_mem hlt)) (hq.last _ (List.getLast?_eq_some_getLast hq.wf.ne)))

/-- **C96**, except for the labels, for the tables of single edges: each table has one row for each flow and each multiple of the sample step before the end. The column labelled `j[t]`
holds the queue of edge `j` at the time labelled `-t` or, with `average`, its integral over the step before the time labelled `-t`.
Missing: `phi + step * t` in place of `phi - step * t`. -/
theorem C96_edge_rows_partial (g : Graph) (average : Bool) (past future : Nat) {step : ℚ} (hstep : 0 < step) {horizon : ℚ} {k : Int} (hk : 0 < k) (hh : 1 ≤ horizon - step * future)
    {flows : List DFlow} (hne : flows ≠ []) (hf : ∀ s ∈ flows, ∃ net, Reached net s) (r : Nat) :
    ∃ (cols : List (Nat × Int)) (times : List Int) (F : DFlow → Int → Nat × Int → ℚ), EdgeHeaderOk g past future r cols ∧ Multiples k ⌊horizon - step * future⌋ times ∧
      edgeTable g average past future step horizon k flows r = .ok (cols, flows.flatMap (fun s => times.map (fun phi => cols.map (fun c => some (F s phi c))))) ∧
      ∀ s ∈ flows, ∀ (phi : Int) (j : Nat) (t : Int), if average = true then (s.queues j).integrate (phi - step * (t + 1)) (phi - step * t) = .ok (F s phi (j, t))
        else F s phi (j, t) = queueAt s j (phi - step * t) := by
  obtain ⟨times, h1, h2⟩ := stepRange_spec (b := ⌊horizon - step * future⌋) hk
  have h0 : times ≠ [] := by
    have : (0 : Int) ∈ times := (h2.2 0).mpr ⟨le_rfl, by have := Int.le_floor.mpr (show ((1 : Int) : ℚ) ≤ horizon - step * future by push_cast; exact hh); omega, dvd_zero k⟩
    intro h; rw [h] at this; cases this
  set F : DFlow → Int → Nat × Int → ℚ := fun s phi c => (sampleOf average step phi (s.queues c.1) c.2).toOption.getD 0 with hF
  have hs : ∀ s ∈ flows, ∀ (phi : Int) (i : Nat) (t : Int), sampleOf average step phi (s.queues i) t = .ok (F s phi (i, t)) := by
    intro s hs phi i t
    obtain ⟨v, hv⟩ := edge_samples (hf s hs) average hstep phi i t
    simp only [hF, hv, Except.toOption, Option.getD_some]
  refine ⟨_, times, F, edgeKeys_ok g past future r, h2, edgeTable_eq h1 hs hne h0, ?_⟩
  intro s hm phi j t
  have hv := hs s hm phi j t
  unfold sampleOf at hv
  cases average with
  | true => rw [if_pos rfl] at hv ⊢; exact hv
  | false =>
    rw [if_neg (by simp)] at hv ⊢
    obtain ⟨net, hr⟩ := hf s hm
    rw [queueAt_evals hr] at hv
    exact (Except.ok.inj hv).symm

/-- A graph with one edge. -/
def oneEdge : Graph := Graph.empty.addEdge 0 1

/-- **C96** is false of the code: in the only row of this table the column of the past holds the queue of the future and the other way round. -/
theorem C96_labels_wrong : ∃ net s, Reached net s ∧ ∃ cols row, expandedTable oneEdge 1 1 1 2 1 [.plain s] = .ok (cols, [row]) ∧
    (Col.own (-1), some 3) ∈ cols.zip row ∧ (Col.own 1, some 0) ∈ cols.zip row ∧
    meant oneEdge s 1 0 0 (.own (-1)) = some 0 ∧ meant oneEdge s 1 0 0 (.own 1) = some 3 := by
  obtain ⟨s, hs, hp⟩ := reached_of (calls := sampleCalls) (post := fun s => decide (meant oneEdge s 1 0 0 (.own (-1)) = some 0) && (decide (meant oneEdge s 1 0 0 (.own 1) = some 3) &&
    decide ((expandedTable oneEdge 1 1 1 2 1 [.plain s]).toOption = some (expandedCols 1 1, [List.replicate 10 none ++ [some 3, some 0, some 0]])))) (by unfold sampleCalls; decide +kernel)
  simp only [Bool.and_eq_true, decide_eq_true_eq] at hp
  refine ⟨_, s, hs, expandedCols 1 1, List.replicate 10 none ++ [some 3, some 0, some 0], ?_, by decide, by decide, hp.1, hp.2.1⟩
  cases h : expandedTable oneEdge 1 1 1 2 1 [.plain s] with
  | error e => rw [h] at hp; cases hp.2.2
  | ok x => rw [h] at hp; have := hp.2.2; injection this with this; rw [this]

/-- The hypotheses can be met, with rows that are not trivial: the queue of the edge is busy at time 0. -/
example : ∃ s, (∃ net, Reached net s) ∧ (0 : Int) < 1 ∧ (0 : ℚ) < 1 ∧ (1 : ℚ) ≤ 2 - 1 * (1 : Nat) ∧ Busy oneEdge s 1 1 1 0 0 := by
  obtain ⟨s, hs, hp⟩ := reached_of (calls := sampleCalls) (post := fun s => decide (queueAt s 0 1 = 3)) (by unfold sampleCalls; decide +kernel)
  simp only [decide_eq_true_eq] at hp
  refine ⟨s, ⟨_, hs⟩, by norm_num, by norm_num, by norm_num, Or.inl ⟨-1, by norm_num, by norm_num, ?_⟩⟩
  have : (oneEdge.edge 0).id = 0 := rfl
  rw [this]
  norm_num
  rw [hp]; norm_num

/-! ### C97 -/

/-- The array of training data, one row for each prediction time. -/
theorem training_eq {edges past future : Nat} {horizon reroute interval : ℚ} (hr : 0 < reroute) (hh : 0 ≤ horizon) {memory : Nat → List (List ℚ)} (hm : ∀ n, (memory n).length = n)
    {s : DFlow} (hs : ∃ net, Reached net s) (hl : LoadsApart edges s) :
    trainingData edges past future horizon reroute interval memory (.plain s) =
      .ok (trainingMeant edges past future interval s (⌊horizon / reroute⌋ * reroute) :: (memory (⌊horizon / reroute⌋ + 1).toNat).tail) := by
  obtain ⟨net, hs⟩ := hs
  obtain ⟨L, hL⟩ := reached_sees hs hl
  have hfl : 0 ≤ ⌊horizon / reroute⌋ := Int.floor_nonneg.mpr (div_nonneg hh hr.le)
  obtain ⟨n, hn⟩ := Int.eq_ofNat_of_zero_le hfl
  unfold trainingData
  show (do
    let x ← pyDiv horizon reroute
    let loads ← mapPy s.edgeLoad (List.range edges)
    trainingLoop edges past future interval s loads ((intRange 0 (⌊x⌋ + 1)).map (fun (i : Int) => (i : ℚ) * reroute))
      (memory ((intRange 0 (⌊x⌋ + 1)).map (fun (i : Int) => (i : ℚ) * reroute)).length) : Py _) = _
  have hd : pyDiv horizon reroute = .ok (horizon / reroute) := by unfold pyDiv; rw [if_neg hr.ne']
  rw [hd, ok_bind, Predictors.mapPy_eq (g := L) (fun e he => hL.load e (List.mem_range.mp he)), ok_bind, hn]
  have h1 : (intRange 0 ((n : Int) + 1)).map (fun (i : Int) => (i : ℚ) * reroute) = (List.range n).map (fun (i : Nat) => (i : ℚ) * reroute) ++ [(n : ℚ) * reroute] := by
    unfold intRange
    have : ((n : Int) + 1 - 0).toNat = n + 1 := by omega
    rw [this, List.map_map, List.range_succ, List.map_append, List.map_singleton]
    refine congrArg₂ (· ++ ·) (List.map_congr_left (fun i _ => ?_)) ?_
    · simp only [Function.comp]; push_cast; ring
    · simp only [Function.comp]; push_cast; simp
  rw [h1]
  have h2 : ((List.range n).map (fun (i : Nat) => (i : ℚ) * reroute) ++ [(n : ℚ) * reroute]).length = n + 1 := by simp
  have h3 : ((n : Int) + 1).toNat = n + 1 := by omega
  rw [h2]
  have hne : memory (n + 1) ≠ [] := by intro h; have := hm (n + 1); rw [h] at this; cases this
  obtain ⟨x, rest, hx⟩ := List.exists_cons_of_ne_nil hne
  rw [hx, trainingLoop_eq (fun e x => queueAt_evals hs e x) (fun e he x => by rw [loadAt_eq hL he, (hL.loads e he).eval])]
  show _ = Except.ok (_ :: (memory (((n : Nat) : Int) + 1).toNat).tail)
  rw [h3, hx, List.tail_cons]
  push_cast
  rfl

/-- **C97**, for horizons shorter than the rerouting interval: the saved array holds one row, for the time 0. Missing: longer horizons, where it is false of the
code (`C97_first_row_only`). -/
theorem C97_single_partial {edges past future : Nat} {horizon reroute interval : ℚ} (hr : 0 < reroute) (hh : 0 ≤ horizon) (hlt : horizon < reroute) {memory : Nat → List (List ℚ)}
    (hm : ∀ n, (memory n).length = n) {s : DFlow} (hs : ∃ net, Reached net s) (hl : LoadsApart edges s) :
    trainingData edges past future horizon reroute interval memory (.plain s) = .ok [trainingMeant edges past future interval s 0] := by
  rw [training_eq hr hh hm hs hl]
  have h0 : ⌊horizon / reroute⌋ = 0 := by
    rw [Int.floor_eq_zero_iff]
    exact ⟨div_nonneg hh hr.le, (div_lt_one hr).mpr hlt⟩
  rw [h0]
  have h1 : (memory 1).tail = [] := List.length_eq_zero_iff.mp (by rw [List.length_tail, hm])
  show Except.ok (_ :: (memory 1).tail) = _
  rw [h1]
  norm_num

/-- **C97** is false of the code: the array has a row for every prediction time, but only the first one is ever written. It holds what belongs to the last prediction time, all
others hold what was in memory before. -/
theorem C97_first_row_only {edges past future : Nat} {horizon reroute interval : ℚ} (hr : 0 < reroute) (hh : 0 ≤ horizon) {memory : Nat → List (List ℚ)} (hm : ∀ n, (memory n).length = n)
    {s : DFlow} (hs : ∃ net, Reached net s) (hl : LoadsApart edges s) :
    ∃ (n : Nat) (data : List (List ℚ)), n * reroute ≤ horizon ∧ horizon < (n + 1) * reroute ∧ trainingData edges past future horizon reroute interval memory (.plain s) = .ok data ∧
      data.length = n + 1 ∧ data[0]? = some (trainingMeant edges past future interval s (n * reroute)) ∧ ∀ i, 0 < i → data[i]? = (memory (n + 1))[i]? := by
  have hfl : 0 ≤ ⌊horizon / reroute⌋ := Int.floor_nonneg.mpr (div_nonneg hh hr.le)
  obtain ⟨n, hn⟩ := Int.eq_ofNat_of_zero_le hfl
  have h3 : ((n : Int) + 1).toNat = n + 1 := by omega
  have hb := Int.floor_eq_iff.mp hn
  have hb1 : (n : ℚ) ≤ horizon / reroute := by have := hb.1; push_cast at this; exact this
  have hb2 : horizon / reroute < n + 1 := by have := hb.2; push_cast at this; exact this
  refine ⟨n, _, (le_div_iff₀ hr).mp hb1, (div_lt_iff₀ hr).mp hb2, training_eq hr hh hm hs hl, ?_, ?_, ?_⟩
  · rw [hn]
    show (_ :: (memory (((n : Nat) : Int) + 1).toNat).tail).length = _
    rw [h3, List.length_cons, List.length_tail, hm]; omega
  · rw [hn]; simp
  · intro i hi
    obtain ⟨j, rfl⟩ := Nat.exists_eq_add_of_lt hi
    rw [hn]
    show (_ :: (memory (((n : Nat) : Int) + 1).toNat).tail)[_]? = _
    rw [h3, Nat.zero_add, List.getElem?_cons_succ, List.getElem?_tail]

/-- In this flow the only row that is written is not the one of time 0. -/
theorem C97_row_wrong : ∃ net s, Reached net s ∧ LoadsApart 2 s ∧ ∀ memory : Nat → List (List ℚ), (∀ n, (memory n).length = n) →
    ∃ data, trainingData 2 1 1 1 1 1 memory (.plain s) = .ok data ∧ data[0]? ≠ some (trainingMeant 2 1 1 1 s 0) ∧ data[1]? = (memory 2)[1]? := by
  obtain ⟨s, hs, hp⟩ := reached_of (calls := sampleCalls) (post := fun s => apartB 2 s && (decide (queueAt s 0 1 = 3) && decide (queueAt s 0 0 = 0))) (by unfold sampleCalls; decide +kernel)
  simp only [Bool.and_eq_true, decide_eq_true_eq] at hp
  refine ⟨_, s, hs, apartB_sound hp.1, fun memory hm => ?_⟩
  obtain ⟨n, data, h1, h2, h3, h4, h5, h6⟩ := C97_first_row_only (edges := 2) (past := 1) (future := 1) (horizon := 1) (reroute := 1) (interval := 1) (by norm_num) (by norm_num) hm ⟨_, hs⟩ (apartB_sound hp.1)
  have hn : n = 1 := by
    have a : (n : ℚ) ≤ 1 := by linarith
    have b : (1 : ℚ) < n + 1 := by linarith
    have a' : n ≤ 1 := by exact_mod_cast a
    have b' : 1 < n + 1 := by exact_mod_cast b
    omega
  subst hn
  refine ⟨data, h3, ?_, h6 1 (by norm_num)⟩
  rw [h5]
  intro h
  injection h with h
  have h7 := congrArg List.head? h
  have e1 : (trainingMeant 2 1 1 1 s ((1 : Nat) * 1)).head? = some (queueAt s 0 1) := by
    unfold trainingMeant before
    simp [List.range_succ]
  have e2 : (trainingMeant 2 1 1 1 s 0).head? = some (queueAt s 0 0) := by
    unfold trainingMeant before
    simp [List.range_succ]
  rw [e1, e2, hp.2.1, hp.2.2] at h7
  injection h7 with h7
  norm_num at h7

/-- The hypotheses of `C97_single_partial` can be met by a flow with queues. -/
example : ∃ s, (∃ net, Reached net s) ∧ LoadsApart 2 s ∧ queueAt s 0 1 = 3 ∧ trainingData 2 1 1 (1 / 2) 1 1 (fun n => List.replicate n []) (.plain s) = .ok [trainingMeant 2 1 1 1 s 0] ∧
    trainingMeant 2 1 1 1 s 0 = [0, 0, 0, 0, 3, 0] := by
  obtain ⟨s, hs, hp⟩ := reached_of (calls := sampleCalls) (post := fun s => apartB 2 s && (decide (queueAt s 0 1 = 3) && decide (trainingMeant 2 1 1 1 s 0 = [0, 0, 0, 0, 3, 0]))) (by unfold sampleCalls; decide +kernel)
  simp only [Bool.and_eq_true, decide_eq_true_eq] at hp
  exact ⟨s, ⟨_, hs⟩, apartB_sound hp.1, hp.2.1, C97_single_partial (by norm_num) (by norm_num) (by norm_num) (fun n => List.length_replicate) ⟨_, hs⟩ (apartB_sound hp.1), hp.2.2⟩

/-! ### C98 -/

theorem mapPy_fails {α β : Type} {f : α → Py β} : ∀ {l : List α}, (∃ a ∈ l, ∃ e, f a = .error e) → ∃ e, mapPy f l = .error e
  | [], ⟨_, h, _⟩ => by cases h
  | a :: l, ⟨b, hb, e, he⟩ => by
    unfold mapPy
    cases h : f a with
    | error e' => exact ⟨e', rfl⟩
    | ok x =>
      rcases List.mem_cons.mp hb with rfl | hb
      · rw [he] at h; cases h
      · obtain ⟨e', h'⟩ := mapPy_fails ⟨b, hb, e, he⟩
        refine ⟨e', ?_⟩
        rw [ok_bind, h']; rfl

/-- **C98**, for flow files that are not compressed: if nothing is there yet and no other process works on it, the table of all flows is written and the lock is gone; later
calls leave it as it is. Missing: the compressed files that `build_flows` writes (`C98_never_written`). -/
theorem C98_written_partial (g : Graph) (past future : Nat) (step horizon : ℚ) {k : Int} (hk : 0 < k) {flows : List DFlow} (hf : ∀ s ∈ flows, ∃ net, Reached net s) :
    ∃ t, expandedTable g past future step horizon k (flows.map FlowFile.plain) = .ok t ∧
      expandedRun g past future step horizon k (flows.map FlowFile.plain) ⟨none, false⟩ = (⟨some t, false⟩, .ok ()) ∧
      ∀ g' past' future' step' horizon' k' files', expandedRun g' past' future' step' horizon' k' files' ⟨some t, false⟩ = (⟨some t, false⟩, .ok ()) := by
  classical
  obtain ⟨cols, times, _, _, h⟩ := C96_rows_partial g past future step horizon hk hf
  refine ⟨_, h, ?_, fun _ _ _ _ _ _ _ => rfl⟩
  unfold expandedRun
  rw [if_neg (by simp), if_neg (by simp), h]

/-- **C98** is false of the code: with a file that `build_flows` has written, the first call raises an exception and leaves its lock; all later calls, whatever the files are then, return
silently and write nothing. -/
theorem C98_never_written (g : Graph) (past future : Nat) (step horizon : ℚ) (k : Int) {files : List FlowFile} (hg : ∃ s, FlowFile.gzip s ∈ files) :
    (∃ e, expandedRun g past future step horizon k files ⟨none, false⟩ = (⟨none, true⟩, .error e)) ∧
      ∀ g' past' future' step' horizon' k' files', expandedRun g' past' future' step' horizon' k' files' ⟨none, true⟩ = (⟨none, true⟩, .ok ()) := by
  refine ⟨?_, fun _ _ _ _ _ _ _ => rfl⟩
  have h : ∃ e, expandedTable g past future step horizon k files = .error e := by
    unfold expandedTable
    cases ht : stepRange 0 ⌊horizon - step * future⌋ k with
    | error e => exact ⟨e, rfl⟩
    | ok times =>
      obtain ⟨s, hs⟩ := hg
      obtain ⟨e, he⟩ := mapPy_fails (f := expandedFile g past future step times) (l := files) ⟨_, hs, .runtime, rfl⟩
      refine ⟨e, ?_⟩
      rw [ok_bind, he]; rfl
  obtain ⟨e, he⟩ := h
  refine ⟨e, ?_⟩
  unfold expandedRun
  rw [if_neg (by simp), if_neg (by simp), he]

/-- The two other generators cannot read the files of `build_flows` either. Of plain files `generate_queues` saves the queue of every edge at the times
`-past, -past + step, …` up to the horizon. -/
theorem C98_queues (edges past' future : Nat) (past horizon : Int) {step : Int} (hk : 0 < step) (s : DFlow) (hs : ∃ net, Reached net s) (h r i : ℚ) (memory : Nat → List (List ℚ)) :
    queuesOf edges past horizon step (.gzip s) = .error .runtime ∧ trainingData edges past' future h r i memory (.gzip s) = .error .runtime ∧
    ∃ times : List Int, Multiples step (horizon + 1 + past) (times.map (fun t => t + past)) ∧
      queuesOf edges past horizon step (.plain s) = .ok ((List.range edges).map (fun e => times.map (fun (t : Int) => queueAt s e t))) := by
  refine ⟨rfl, rfl, ?_⟩
  obtain ⟨l, h1, h2⟩ := stepRange_spec (b := horizon + 1 + past) hk
  obtain ⟨net, hs⟩ := hs
  refine ⟨l.map (fun t => -past + t), by
    rw [List.map_map]
    have : l.map ((fun t => t + past) ∘ fun t => -past + t) = l := by
      refine Eq.trans (List.map_congr_left (fun a _ => ?_)) (List.map_id _)
      show -past + a + past = a
      omega
    rw [this]; exact h2, ?_⟩
  have h3 : stepRange (-past) (horizon + 1) step = .ok (l.map (fun t => -past + t)) := by
    unfold stepRange at h1 ⊢
    rw [if_neg (by omega), if_pos hk] at h1 ⊢
    injection h1 with h1
    rw [← h1, List.map_map]
    have : horizon + 1 - -past + step - 1 = horizon + 1 + past - 0 + step - 1 := by omega
    rw [this]
    refine congrArg Except.ok (List.map_congr_left (fun a _ => ?_))
    simp only [Function.comp]
    omega
  unfold queuesOf
  show (do
    let times ← stepRange (-past) (horizon + 1) step
    mapPy (fun e => mapPy (fun (t : Int) => (s.queues e).eval t) times) (List.range edges) : Py _) = _
  rw [h3, ok_bind]
  exact Predictors.mapPy_eq (fun e _ => Predictors.mapPy_eq (fun t _ => queueAt_evals hs e t))

/-- A flow that was built, stored in both ways. -/
example : ∃ s, (∃ net, Reached net s) ∧ (∃ s', FlowFile.gzip s' ∈ [FlowFile.gzip s]) ∧ (expandedRun oneEdge 1 1 1 2 1 [.plain s] ⟨none, false⟩).1.out.isSome = true ∧
    (expandedRun oneEdge 1 1 1 2 1 [.gzip s] ⟨none, false⟩).1.out = none := by
  obtain ⟨s, hs, _⟩ := reached_of (calls := sampleCalls) (post := fun s => decide (queueAt s 0 1 = 3)) (by unfold sampleCalls; decide +kernel)
  refine ⟨s, ⟨_, hs⟩, ⟨s, List.mem_singleton.mpr rfl⟩, ?_, ?_⟩
  · obtain ⟨t, _, h, _⟩ := C98_written_partial oneEdge 1 1 1 2 (k := 1) (by norm_num) (flows := [s]) (by intro s' h'; rw [List.mem_singleton] at h'; subst h'; exact ⟨_, hs⟩)
    rw [List.map_singleton] at h
    rw [h]; rfl
  · obtain ⟨⟨e, h⟩, _⟩ := C98_never_written oneEdge 1 1 1 2 1 (files := [.gzip s]) ⟨s, List.mem_singleton.mpr rfl⟩
    rw [h]

end Verif.Props
