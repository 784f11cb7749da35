import Verif.Proofs.Dataset
import Verif.Props.PredictorsTime

/-! Property theorems C61 and C74: training data. -/

namespace Verif.Props
open Verif Verif.Spec Verif.Dataset Verif.Builder

theorem queueAt_eq {net : EdgeData} {s : DFlow} (h : Reached net s) (e : Nat) (x : ℚ) : queueAt s e x = (s.queues e).fn x := by
  unfold queueAt
  rw [(reached_total h e).eval]; rfl

theorem loadAt_eq {s : DFlow} {edges : Nat} {L : Nat → PL} (h : Predictors.Sees s edges L) {e : Nat} (he : e < edges) (x : ℚ) : loadAt s e x = (L e).fn x := by
  unfold loadAt
  rw [h.load e he]
  simp only [Except.toOption, Option.bind_some]
  rw [(h.loads e he).eval]; rfl

theorem rows_congr {edges : Nat} {F G : Nat → ℚ → ℚ} {times : List ℚ} (h : ∀ e < edges, ∀ x, F e x = G e x) : rows edges F times = rows edges G times :=
  List.map_congr_left (fun e he => List.map_congr_left (fun x _ => h e (List.mem_range.mp he) x))

/-- What is saved for a flow. -/
theorem samplesOf_flow {edges past : Nat} {r d h : ℚ} {k : Nat} (hg : Grid past r d h k) {s : DFlow} (hs : (∃ net, Reached net s) ∧ LoadsApart edges s) :
    samplesOf edges past h r d s = .ok (rows edges (queueAt s) ((List.range (gridLen past k r h)).map (gridTime past k r)),
      rows edges (loadAt s) ((List.range (gridLen past k r h)).map (gridTime past k r))) := by
  obtain ⟨⟨net, hr⟩, hl⟩ := hs
  obtain ⟨L, hL⟩ := reached_sees hr hl
  rw [samplesOf_eq hg hL, rows_congr (fun e _ x => (queueAt_eq hr e x).symm), rows_congr (fun e he x => (loadAt_eq hL he x).symm)]

theorem mem_grid {past : Nat} {r d h : ℚ} {k : Nat} (hg : Grid past r d h k) (x : ℚ) :
    x ∈ (List.range (gridLen past k r h)).map (gridTime past k r) ↔ OnGrid past k r h x := by
  have hfl : ∀ i : Int, i ≤ ⌊h / r⌋ ↔ (i : ℚ) * r ≤ h := fun i => by rw [Int.le_floor, le_div_iff₀ hg.pos]
  constructor
  · intro hx
    obtain ⟨j, hj, rfl⟩ := List.mem_map.mp hx
    have hj := List.mem_range.mp hj
    unfold gridLen at hj
    refine ⟨(j : Int) - ((past : Int) - 1) * k, by rw [Int.neg_mul]; omega, (hfl _).mp (by omega), ?_⟩
    unfold gridTime
    push_cast
    ring
  · rintro ⟨i, h1, h2, rfl⟩
    have h2 := (hfl i).mpr h2
    rw [Int.neg_mul] at h1
    refine List.mem_map.mpr ⟨(i + ((past : Int) - 1) * k).toNat, List.mem_range.mpr ?_, ?_⟩
    · unfold gridLen; omega
    · unfold gridTime
      have : (((i + ((past : Int) - 1) * k).toNat : Nat) : ℚ) = (i : ℚ) + ((past : ℚ) - 1) * k := by
        have h3 : (((i + ((past : Int) - 1) * k).toNat : Nat) : Int) = i + ((past : Int) - 1) * k := by omega
        have h4 : (((i + ((past : Int) - 1) * k).toNat : Nat) : ℚ) = ((i + ((past : Int) - 1) * k : Int) : ℚ) := by rw [← h3]; push_cast; rfl
        rw [h4]; push_cast; ring
      rw [this]; ring

theorem mask_getD {l : List ℚ} {e : Nat} (he : e < l.length) : ((l.map (fun v => decide (0 < v))).getD e false = true) ↔ 0 < l.getD e 0 := by
  simp [List.getElem?_eq_getElem he]

/-- **C61.** For every number of edges, past and future steps, horizon, rerouting interval and prediction interval that is a multiple `k` of it, and all flows: saving the
flows and reading the data back gives a dataset whose length is the number of flows times the number of samples per flow; whose masks are those edges which
have a load or queue (resp. a queue) at some sampled time in some flow; whose samples are aligned in time, under whatever additional masks; and that raises
IndexError after the last sample, where iteration ends. -/
theorem C61_samples {edges past : Nat} (future : Nat) {r d h : ℚ} {k : Nat} (hg : Grid past r d h k) {flows : List DFlow} (hf : FlowsOk edges flows) (hne : flows ≠ []) :
    ∃ files D, mapPy (samplesOf edges past h r d) flows = .ok files ∧ Dataset.new edges past future r d h files = .ok D ∧
      D.len = flows.length * (⌊h / r⌋ + 1 - k * (future + 1)) ∧
      (D.inputMask.length = edges ∧ D.outputMask.length = edges ∧ ∀ e < edges,
        (D.inputMask.getD e false = true ↔ ∃ s ∈ flows, ∃ x, OnGrid past k r h x ∧ (0 < queueAt s e x ∨ 0 < loadAt s e x)) ∧
        (D.outputMask.getD e false = true ↔ ∃ s ∈ flows, ∃ x, OnGrid past k r h x ∧ 0 < queueAt s e x)) ∧
      (∀ am ao, (∀ m, am = some m → m.length = edges) → (∀ m, ao = some m → m.length = edges) →
        SamplesOk edges past future r k (sampleCount future r h k) flows D am ao) ∧
      (0 < sampleCount future r h k → D.get D.len = .error .index) := by
  set T := gridLen past k r h with hTdef
  set times := (List.range T).map (gridTime past k r) with htimes
  have hfloor : 0 ≤ ⌊h / r⌋ := Int.floor_nonneg.mpr (div_nonneg hg.nonneg hg.pos.le)
  have hp1 : 0 ≤ ((past : Int) - 1) * k := mul_nonneg (by have := hg.steps; omega) (by omega)
  have hTint : (T : Int) = ⌊h / r⌋ + 1 + ((past : Int) - 1) * k := by rw [hTdef]; unfold gridLen; omega
  have hT : T ≠ 0 := by omega
  have hfiles : mapPy (samplesOf edges past h r d) flows = .ok ((flows.map (fun s => (queueAt s, loadAt s))).map (fun q => (rows edges q.1 times, rows edges q.2 times))) := by
    rw [Predictors.mapPy_eq (f := samplesOf edges past h r d) (g := fun s => (rows edges (queueAt s) times, rows edges (loadAt s) times)) (l := flows)
      (fun s hs => samplesOf_flow hg (hf s hs)), List.map_map]
    rfl
  obtain ⟨a', b', r1, r2, r3, r4⟩ := readFiles_rows (edges := edges) hT (times := times) (by simp [htimes]) (flows.map (fun s => (queueAt s, loadAt s)))
    (List.replicate edges 0) (List.replicate edges 0) (by simp) (by simp)
  have hnew : Dataset.new edges past future r d h ((flows.map (fun s => (queueAt s, loadAt s))).map (fun q => (rows edges q.1 times, rows edges q.2 times))) = .ok
      { past := past, future := future, reroute := r, stride := k, samplesPerFlow := (T : Int) - k * ((past : Int) + future),
        data := (flows.map (fun s => (queueAt s, loadAt s))).map (fun q => (rows edges q.1 times, rows edges q.2 times)),
        inputMask := a'.map (fun v => decide (0 < v)), outputMask := b'.map (fun v => decide (0 < v)), addInput := none, addOutput := none } := by
    unfold Dataset.new
    rw [strideOf_eq hg, ok_bind, sampleTimes_eq past k hg.pos h, ok_bind, if_neg (by simpa using hne)]
    have hlen : ((List.range (gridLen past k r h)).map (gridTime past k r)).length = T := by simp [hTdef]
    rw [hlen, r1, ok_bind]
    rfl
  have hspf : (T : Int) - k * ((past : Int) + future) = ⌊h / r⌋ + 1 - k * (future + 1) := by rw [hTint]; ring
  refine ⟨_, _, hfiles, hnew, ?_, ?_, ?_, ?_⟩
  · simp only [Data.len, List.length_map]
    rw [hspf]
  · refine ⟨by simp [r2], by simp [r3], fun e he => ?_⟩
    obtain ⟨r5, r6⟩ := r4 e he
    have hrep : ¬ 0 < (List.replicate edges (0 : ℚ)).getD e 0 := by simp [he]
    simp only
    rw [mask_getD (by omega), mask_getD (by omega), r5, r6]
    simp only [hrep, false_or, List.mem_map]
    constructor
    · constructor
      · rintro ⟨_, ⟨s, hs, rfl⟩, x, hx, hq⟩; exact ⟨s, hs, x, (mem_grid hg x).mp hx, hq⟩
      · rintro ⟨s, hs, x, hx, hq⟩; exact ⟨_, ⟨s, hs, rfl⟩, x, (mem_grid hg x).mpr hx, hq⟩
    · constructor
      · rintro ⟨_, ⟨s, hs, rfl⟩, x, hx, hq⟩; exact ⟨s, hs, x, (mem_grid hg x).mp hx, hq⟩
      · rintro ⟨s, hs, x, hx, hq⟩; exact ⟨_, ⟨s, hs, rfl⟩, x, (mem_grid hg x).mpr hx, hq⟩
  · intro am ao ham hao j s hj i hi
    have hN : ((sampleCount future r h k : Nat) : Int) = (T : Int) - k * ((past : Int) + future) := by
      rw [hspf]; unfold sampleCount at hi ⊢; omega
    obtain ⟨m1, m2, m3, m4⟩ := bothMasks_eq (m := a'.map (fun v => decide (0 < v))) (edges := edges) (by simp [r2]) ham
    obtain ⟨n1, n2, n3, n4⟩ := bothMasks_eq (m := b'.map (fun v => decide (0 < v))) (edges := edges) (by simp [r3]) hao
    have hk := hg.mult
    have hiT : (i : Int) + k * ((past : Int) + future) < T := by omega
    have hpast := hg.steps
    unfold Data.get
    simp only
    rw [← hN, if_neg (by omega)]
    have hdiv : ((j : Int) * (sampleCount future r h k : Nat) + i).fdiv (sampleCount future r h k : Nat) = j := by
      rw [Int.fdiv_eq_ediv_of_nonneg _ (by omega), add_comm, Int.add_mul_ediv_right _ _ (by omega), Int.ediv_eq_zero_of_lt (by omega) (by omega), zero_add]
    have hmod : ((j : Int) * (sampleCount future r h k : Nat) + i).fmod (sampleCount future r h k : Nat) = i := by
      rw [Int.fmod_eq_emod_of_nonneg _ (by omega), add_comm, Int.add_mul_emod_self_right, Int.emod_eq_of_lt (by omega) (by omega)]
    rw [hdiv, hmod]
    have hrd : rdInt ((flows.map (fun s => (queueAt s, loadAt s))).map (fun q => (rows edges q.1 times, rows edges q.2 times))) (j : Int) =
        .ok (rows edges (queueAt s) times, rows edges (loadAt s) times) := by
      unfold rdInt
      rw [if_pos (by omega), Int.toNat_natCast, rd_eq_ok]
      simp [hj]
    rw [hrd, ok_bind, m2, ok_bind, n2, ok_bind]
    have hpk : ((past : Int) + future) * k = (past : Int) * k + future * k := by ring
    have hiT' : i + past * k + future * k < T := by
      have : (i : Int) + ((past : Int) * k + future * k) < T := by rw [← hpk, mul_comm]; exact hiT
      exact_mod_cast (by linarith : (i : Int) + (past : Int) * k + future * k < T)
    have e1 : (i : Int) + ((past : Int) - 1) * k + 1 = (i : Int) + ((past : Int) - 1) * k + 1 := rfl
    have b1 := block_eq m1 m3 (queueAt s) (gridTime past k r) (T := T) (a := i) (n := past) (s := k) (b := (i : Int) + ((past : Int) - 1) * k + 1) hk
      (by omega) (by omega) rfl (by omega)
    have b2 := block_eq m1 m3 (loadAt s) (gridTime past k r) (T := T) (a := i) (n := past) (s := k) (b := (i : Int) + ((past : Int) - 1) * k + 1) hk
      (by omega) (by omega) rfl (by omega)
    have e2 : (i : Int) + ((past : Int) - 1) * k + k = ((i + past * k : Nat) : Int) := by push_cast; ring
    have hfk : (0 : Int) ≤ (future : Int) * k := mul_nonneg (by omega) (by omega)
    have b3 := block_eq n1 n3 (queueAt s) (gridTime past k r) (T := T) (a := i + past * k) (n := future) (s := k)
      (b := (i : Int) + ((past : Int) - 1) * k + future * k + 1) hk (by omega) (by omega) (by push_cast; ring) (by omega)
    rw [m4] at b1 b2
    rw [n4] at b3
    unfold rows
    rw [b1, ok_bind, b2, ok_bind, e2, b3, ok_bind]
    have t1 : (List.range past).map (fun j => gridTime past k r (i + j * k)) = before (i * r) (k * r) past := by
      refine List.map_congr_left (fun j _ => ?_)
      unfold gridTime
      push_cast; ring
    have t2 : (List.range future).map (fun j => gridTime past k r (i + past * k + j * k)) = after (i * r) (k * r) future := by
      refine List.map_congr_left (fun j _ => ?_)
      unfold gridTime
      push_cast; ring
    rw [t1, t2]
    simp [py_pure]
  · intro hpos
    have hN : ((sampleCount future r h k : Nat) : Int) = (T : Int) - k * ((past : Int) + future) := by
      rw [hspf]; unfold sampleCount at hpos ⊢; omega
    unfold Data.get Data.len
    simp only [List.length_map]
    rw [← hN, if_neg (by omega)]
    have hdiv : ((flows.length : Int) * (sampleCount future r h k : Nat)).fdiv (sampleCount future r h k : Nat) = flows.length := by
      rw [Int.fdiv_eq_ediv_of_nonneg _ (by omega), Int.mul_ediv_cancel _ (by omega)]
    rw [hdiv]
    unfold rdInt
    rw [if_pos (by omega), Int.toNat_natCast, rd_ge _ _ (by simp)]
    rfl

/-- **C61**: the spacing of the samples is the prediction interval up to a relative error of 1e-14, and with the last target another interval still fits in the horizon. -/
theorem C61_times {past future : Nat} {r d h : ℚ} {k : Nat} (hg : Grid past r d h k) :
    |(k : ℚ) * r - d| ≤ r / 10 ^ 14 ∧ ∀ i < sampleCount future r h k, ∀ x ∈ (i * r : ℚ) :: after (i * r) (k * r) future, 0 ≤ x ∧ x + k * r ≤ h := by
  have hr := hg.pos
  constructor
  · have e : (k : ℚ) * r - d = ((k : ℚ) - d / r) * r := by rw [sub_mul, div_mul_cancel₀ _ (ne_of_gt hr)]
    rw [e, abs_mul, abs_of_pos hr]
    have := mul_le_mul_of_nonneg_right hg.near hr.le
    linarith
  · intro i hi x hx
    have hi' : (i : Int) + k * ((future : Int) + 1) ≤ ⌊h / r⌋ := by unfold sampleCount at hi; push_cast at hi; omega
    rw [Int.le_floor, le_div_iff₀ hr] at hi'
    push_cast at hi'
    have hk : (0 : ℚ) ≤ k * r := by positivity
    have hfut : ∀ a : ℚ, 0 ≤ a → a ≤ future → 0 ≤ (i : ℚ) * r + a * (k * r) ∧ (i : ℚ) * r + a * (k * r) + k * r ≤ h := by
      intro a ha ha'
      refine ⟨by positivity, ?_⟩
      have := mul_le_mul_of_nonneg_right ha' hk
      nlinarith
    rcases List.mem_cons.mp hx with rfl | hx
    · have := hfut 0 le_rfl (by positivity)
      simpa using this
    · obtain ⟨a, ha, rfl⟩ := List.mem_map.mp hx
      have : (a : ℚ) + 1 ≤ future := by exact_mod_cast List.mem_range.mp ha
      exact hfut _ (by positivity) this

/-- **C61**: an interval that is no multiple of the rerouting interval is refused with ValueError, a rerouting interval of 0 with ZeroDivisionError. -/
theorem C61_refused (edges past : Nat) (h r d : ℚ) (flow : DFlow) : (r = 0 → samplesOf edges past h r d flow = .error .zeroDiv) ∧
    (r ≠ 0 → (∀ n : Int, 1 / 10 ^ 14 < |(n : ℚ) - d / r|) → samplesOf edges past h r d flow = .error .value) := by
  constructor
  · intro hr
    unfold samplesOf strideOf
    rw [pyDiv, if_pos hr]; rfl
  · intro hr hn
    unfold samplesOf strideOf
    rw [pyDiv, if_neg hr, ok_bind, py_pure, ok_bind, ok_bind, if_pos (hn _)]

/-! ### C74 -/

section
open Verif.Predictors

theorem before_eq (t d : ℚ) (n : Nat) : pastTimes t d n = before t d n := by
  refine List.map_congr_left (fun a _ => ?_)
  ring

theorem rowOf_table (F : Nat → ℚ → ℚ) (times : List ℚ) (edges : List Nat) : rowOf F times edges = table F edges times := rfl

theorem table_congr {F G : Nat → ℚ → ℚ} {times : List ℚ} {edges : List Nat} (h : ∀ e ∈ edges, ∀ x, F e x = G e x) : table F edges times = table G edges times := by
  unfold table
  rw [List.map_congr_left (fun e he => List.map_congr_left (fun x _ => h e he x))]

theorem table_length (F : Nat → ℚ → ℚ) (times : List ℚ) : ∀ edges : List Nat, (table F edges times).length = edges.length * times.length := by
  intro edges
  induction edges with
  | nil => simp [table]
  | cons e l ih =>
    unfold table at ih ⊢
    rw [List.map_cons, List.flatten_cons, List.length_append, ih, List.length_map, List.length_cons]
    ring

theorem slice_table (F : Nat → ℚ → ℚ) (times : List ℚ) {out : Nat → Bool} {n e : Nat} (he : e < n) (ho : out e = true) :
    slice (countMask out e) times.length (table F ((List.range n).filter out) times) = times.map (F e) := by
  obtain ⟨m, rfl⟩ : ∃ m, n = e + (m + 1) := ⟨n - e - 1, by omega⟩
  have hsplit : (List.range (e + (m + 1))).filter out = (List.range e).filter out ++ e :: (((List.range m).map (fun j => e + (j + 1))).filter out) := by
    rw [List.range_add, List.filter_append]
    congr 1
    rw [List.range_succ_eq_map, List.map_cons, List.filter_cons, if_pos (by simpa using ho), List.map_map]
    simp [Function.comp_def]
  have htab : table F ((List.range (e + (m + 1))).filter out) times = table F ((List.range e).filter out) times ++
      (times.map (F e) ++ table F (((List.range m).map (fun j => e + (j + 1))).filter out) times) := by
    rw [hsplit]
    simp [table]
  unfold slice
  rw [htab, List.drop_left' (by rw [table_length]; rfl), List.take_left' (by simp)]

theorem clip_id {l : List ℚ} (h : ∀ v ∈ l, 0 ≤ v) : clip l = l := by
  unfold clip
  conv_rhs => rw [← List.map_id l]
  exact List.map_congr_left (fun v hv => max_eq_left (h v hv))

/-- Values that never drop too fast are not repaired. -/
theorem repair_id (drop : ℚ) (G : Nat → ℚ) : ∀ (n b : Nat), (∀ a < n, G (b + a) - G (b + a + 1) ≤ drop) →
    repair drop (G b) ((List.range n).map (fun a => G (b + a + 1))) = (List.range (n + 1)).map (fun a => G (b + a)) := by
  intro n
  induction n with
  | zero => intro b _; simp [repair]
  | succ n ih =>
    intro b h
    rw [List.range_succ_eq_map, List.map_cons, List.map_map]
    unfold repair
    have h0 := h 0 (by omega)
    simp only [Nat.add_zero] at h0 ⊢
    rw [max_eq_left (by linarith), List.range_succ_eq_map (n := n + 1), List.map_cons, List.map_map]
    congr 1
    have := ih (b + 1) (fun a ha => by
      have := h (a + 1) (by omega)
      have e1 : b + (a + 1) = b + 1 + a := by omega
      rw [e1] at this; exact this)
    rw [show ((fun a => G (b + a + 1)) ∘ Nat.succ) = (fun a => G (b + 1 + a + 1)) from funext (fun a => by simp only [Function.comp]; congr 1; omega),
      show ((fun a => G (b + a)) ∘ Nat.succ) = (fun a => G (b + 1 + a)) from funext (fun a => by simp only [Function.comp]; congr 1; omega)]
    exact this

/-- The function made from the true values. -/
theorem edgeFn_true {c : Setup} {step t : ℚ} {e : Nat} (hs : eps < step) (Q : ℚ → ℚ)
    (hd : ∀ a < c.future, Q (t + a * step) - Q (t + (a + 1) * step) ≤ c.interval * c.capacity e) :
    ∃ p F, edgeFn c step t (Q t) ((after t step c.future).map Q) e = .ok p ∧ Evals p F ∧ ∀ a ≤ c.future, F (t + a * step) = Q (t + a * step) := by
  unfold edgeFn
  have hrep : repair (c.interval * c.capacity e) (Q t) ((after t step c.future).map Q) = (List.range (c.future + 1)).map (fun (a : Nat) => Q (t + a * step)) := by
    have := repair_id (c.interval * c.capacity e) (fun a : Nat => Q (t + a * step)) c.future 0 (by
      intro a ha
      have := hd a ha
      push_cast
      simpa using this)
    simp only [Nat.zero_add] at this
    unfold after
    rw [List.map_map]
    push_cast at this
    simpa [Function.comp_def] using this
  rw [hrep]
  have hwf : PL.WF ⟨futureTimes t step c.future, (List.range (c.future + 1)).map (fun (a : Nat) => Q (t + a * step)), 0, 0, ⊥, ⊤⟩ :=
    ⟨by simp [futureTimes_length], by simp [futureTimes], futureTimes_gap hs _, fun _ _ => ⟨bot_le, le_top⟩⟩
  refine ⟨_, _, PL.new_ok hwf, PL.evals hwf rfl rfl, fun a ha => ?_⟩
  have := PL.fn_time hwf a (by simp [futureTimes_length]; omega)
  simp only [futureTimes, List.getElem_map, List.getElem_range] at this
  exact this

variable {c : Setup} {r h : ℚ} {k : Nat} {flows : List DFlow} {D : Data} {j : Nat} {s : DFlow} {net : EdgeData} {i : Nat}

/-- The dataset of the flows. -/
def DatasetOf (edges past future : Nat) (r d h : ℚ) (flows : List DFlow) (D : Data) : Prop :=
  ∃ files, mapPy (samplesOf edges past h r d) flows = .ok files ∧ Dataset.new edges past future r d h files = .ok D

/-- True queues at sampled times, up to what has been computed, are physical. -/
theorem queue_true (hr : Reached net s) (e : Nat) {t d : ℚ} (hd : 0 ≤ d) {f : Nat} (hphi : t + f * d ≤ s.phi) :
    (∀ a ≤ f, 0 ≤ queueAt s e (t + a * d)) ∧ ∀ a < f, queueAt s e (t + a * d) - queueAt s e (t + (a + 1) * d) ≤ d * net.capacity e := by
  have hq := reached_facts hr e
  have hle : ∀ a ≤ f, t + (a : ℚ) * d ≤ s.phi := by
    intro a ha
    have : (a : ℚ) ≤ f := by exact_mod_cast ha
    have := mul_le_mul_of_nonneg_right this hd
    linarith
  constructor
  · intro a ha
    rw [queueAt_eq hr]
    exact hq.nonneg _ (hle a ha)
  · intro a ha
    rw [queueAt_eq hr, queueAt_eq hr]
    have := hle (a + 1) ha
    push_cast at this
    have := hq.drain (t + a * d) (t + (a + 1) * d) (by linarith) this
    linarith

/-- Outside of the output mask there is no queue at the sampled times. -/
theorem queue_masked {past future : Nat} {d : ℚ} (hg : Grid past r d h k) (hr : Reached net s) (hs : s ∈ flows) (hphi : h ≤ s.phi) {e : Nat}
    (hm : ¬ ∃ s ∈ flows, ∃ x, OnGrid past k r h x ∧ 0 < queueAt s e x) (hi : i < sampleCount future r h k) {a : Nat} (ha : a ≤ future) :
    queueAt s e (i * r + a * (k * r)) = 0 := by
  have hx : (i * r + a * (k * r) : ℚ) ∈ (i * r : ℚ) :: after (i * r) (k * r) future := by
    rcases Nat.eq_zero_or_pos a with rfl | hpos
    · simp
    · refine List.mem_cons_of_mem _ (List.mem_map.mpr ⟨a - 1, List.mem_range.mpr (by omega), ?_⟩)
      have : ((a - 1 : Nat) : ℚ) + 1 = a := by
        have : (a - 1) + 1 = a := by omega
        exact_mod_cast this
      rw [this]
  obtain ⟨h1, h2⟩ := (C61_times hg).2 i hi _ hx
  have hk : (0 : ℚ) ≤ k * r := mul_nonneg (by positivity) hg.pos.le
  have hq := reached_facts hr e
  have h3 : 0 ≤ queueAt s e (i * r + a * (k * r)) := by rw [queueAt_eq hr]; exact hq.nonneg _ (by linarith)
  refine le_antisymm (not_lt.mp (fun hpos => hm ⟨s, hs, _, ⟨(i : Int) + a * k, ?_, ?_, ?_⟩, hpos⟩)) h3
  · have : 0 ≤ ((past : Int) - 1) * k := mul_nonneg (by have := hg.steps; omega) (by omega)
    rw [Int.neg_mul]
    have : 0 ≤ (i : Int) + a * k := by positivity
    omega
  · push_cast
    have e1 : ((i : ℚ) + a * k) * r = i * r + a * (k * r) := by ring
    rw [e1]; linarith
  · push_cast; ring

/-- **C74.** The full-net predictor asks its model about exactly what it was trained on, at every sampled time of a flow: its prediction depends only on the model's
answer to the input of that sample. And if the answer is the target of the sample, then the predicted queues of all edges are the true queues at
the prediction time and the following sampled times. -/
theorem C74_full_net (hd : c.interval = k * r) (hg : Grid c.past r c.interval h k) (hf : FlowsOk c.edges flows) (hD : DatasetOf c.edges c.past c.future r c.interval h flows D)
    (hin : ∀ e < c.edges, c.input e = D.inputMask.getD e false) (hout : ∀ e < c.edges, c.output e = D.outputMask.getD e false)
    (hj : flows[j]? = some s) (hr : Reached net s) (hi : i < sampleCount c.future r h k) :
    ∃ past target, D.get (j * sampleCount c.future r h k + i) = .ok (past, target) ∧
      (∀ m m' : List (List ℚ) → Py (List (List ℚ)), m [past] = m' [past] → (fullNet c m).predict (i * r) s = (fullNet c m').predict (i * r) s) ∧
      (eps < c.interval → h ≤ s.phi → (∀ e < c.edges, c.capacity e = net.capacity e) → ∀ m : List (List ℚ) → Py (List (List ℚ)), m [past] = .ok [target] →
        ∃ ps, (fullNet c m).predict (i * r) s = .ok ps ∧ ps.length = c.edges ∧ ∀ e < c.edges, ∃ p F, ps[e]? = some p ∧ Evals p F ∧
          ∀ a ≤ c.future, F (i * r + a * c.interval) = queueAt s e (i * r + a * c.interval)) := by
  have hsm := List.mem_of_getElem? hj
  obtain ⟨files, f1, f2⟩ := hD
  obtain ⟨files', D', g1, g2, g3, ⟨g4, g5, g6⟩, g7, g8⟩ := C61_samples c.future hg hf (List.ne_nil_of_mem hsm)
  rw [f1] at g1; injection g1 with g1; subst g1
  rw [f2] at g2; injection g2 with g2; subst g2
  have hget := g7 none none (by simp) (by simp) j s hj i hi
  have hD0 : ({ D with addInput := none, addOutput := none } : Data) = D := by
    unfold Dataset.new at f2
    obtain ⟨_, _, f2⟩ := bind_eq_ok.mp f2
    obtain ⟨_, _, f2⟩ := bind_eq_ok.mp f2
    split at f2
    · cases f2
    · obtain ⟨⟨_, _⟩, _, f2⟩ := bind_eq_ok.mp f2
      simp only [py_pure] at f2
      injection f2 with f2
      rw [← f2]
  rw [hD0] at hget
  have hI : chosen c.edges D.inputMask none = (List.range c.edges).filter c.input :=
    List.filter_congr (fun e he => by simp [hin e (List.mem_range.mp he)])
  have hO : chosen c.edges D.outputMask none = (List.range c.edges).filter c.output :=
    List.filter_congr (fun e he => by simp [hout e (List.mem_range.mp he)])
  rw [hI, hO, ← hd] at hget
  obtain ⟨L, hL⟩ := reached_sees hr (hf s hsm).2
  have hd0 : 0 ≤ c.interval := by rw [hd]; exact mul_nonneg (by positivity) hg.pos.le
  have hrow : (rowOf (fun e => (s.queues e).fn) (pastTimes (i * r) c.interval c.past) ((List.range c.edges).filter c.input) ++
        rowOf (fun e => (L e).fn) (pastTimes (i * r) c.interval c.past) ((List.range c.edges).filter c.input)) =
      table (queueAt s) ((List.range c.edges).filter c.input) (before (i * r) c.interval c.past) ++
        table (loadAt s) ((List.range c.edges).filter c.input) (before (i * r) c.interval c.past) := by
    rw [rowOf_table, rowOf_table, before_eq]
    congr 1
    · exact table_congr (fun e _ x => (queueAt_eq hr e x).symm)
    · exact table_congr (fun e he x => (loadAt_eq hL (List.mem_range.mp (List.mem_filter.mp he).1) x).symm)
  refine ⟨_, _, hget, ?_, ?_⟩
  · intro m m' hm
    rw [fullNet_eq hL hd0, fullNet_eq hL hd0, hrow, hm]
  · intro hstep hphi hcap m hm
    have htimes := C61_times (future := c.future) hg
    have hend : (i * r : ℚ) + c.future * c.interval ≤ s.phi := by
      have hmem : (i * r + c.future * (k * r) : ℚ) ∈ (i * r : ℚ) :: after (i * r) (k * r) c.future := by
        rcases Nat.eq_zero_or_pos c.future with h0 | hpos
        · simp [h0]
        · refine List.mem_cons_of_mem _ (List.mem_map.mpr ⟨c.future - 1, List.mem_range.mpr (by omega), ?_⟩)
          have : ((c.future - 1 : Nat) : ℚ) + 1 = c.future := by
            have : (c.future - 1) + 1 = c.future := by omega
            exact_mod_cast this
          rw [this]
      have := (htimes.2 i hi _ hmem).2
      rw [← hd] at this
      linarith
    have htn : ∀ v ∈ table (queueAt s) ((List.range c.edges).filter c.output) (after (i * r) c.interval c.future), 0 ≤ v := by
      intro v hv
      unfold table at hv
      obtain ⟨row, h1, h2⟩ := List.mem_flatten.mp hv
      obtain ⟨e, _, rfl⟩ := List.mem_map.mp h1
      obtain ⟨x, h3, rfl⟩ := List.mem_map.mp h2
      obtain ⟨a, h4, rfl⟩ := List.mem_map.mp h3
      have := (queue_true hr e hd0 hend).1 (a + 1) (by have := List.mem_range.mp h4; omega)
      push_cast at this
      exact this
    rw [fullNet_eq hL hd0, hrow, hm, ok_bind]
    simp only [rd_lt _ 0 (show 0 < [table (queueAt s) ((List.range c.edges).filter c.output) (after (i * r) c.interval c.future)].length by simp), List.getElem_cons_zero, ok_bind]
    rw [clip_id htn]
    have hall : ∀ e < c.edges, ∃ p F, (if c.output e then edgeFn c c.interval (i * r) ((s.queues e).fn (i * r))
        (slice (countMask c.output e) c.future (table (queueAt s) ((List.range c.edges).filter c.output) (after (i * r) c.interval c.future))) e
        else pure ⟨[(i * r : ℚ)], [0], 0, 0, ⊥, ⊤⟩) = .ok p ∧ Evals p F ∧ ∀ a ≤ c.future, F (i * r + a * c.interval) = queueAt s e (i * r + a * c.interval) := by
      intro e he
      by_cases ho : c.output e = true
      · rw [if_pos ho]
        have hlen : (after (i * r) c.interval c.future).length = c.future := by simp [after]
        have hsl := slice_table (queueAt s) (after (i * r) c.interval c.future) he ho
        rw [hlen] at hsl
        rw [hsl, ← queueAt_eq hr]
        refine edgeFn_true hstep (queueAt s e) (fun a ha => ?_)
        rw [hcap e he]
        exact (queue_true hr e hd0 hend).2 a ha
      · rw [if_neg ho]
        refine ⟨_, fun _ => 0, rfl, fun x => PL.eval_const _ _ _, fun a ha => ?_⟩
        have hm0 := (not_congr ((g6 e he).2)).mp (by rw [← hout e he]; exact ho)
        rw [hd]
        exact (queue_masked hg hr hsm hphi hm0 hi ha).symm
    obtain ⟨ps, hps⟩ := Builder.mapPy_range_ok (fun e => if c.output e then edgeFn c c.interval (i * r) ((s.queues e).fn (i * r))
        (slice (countMask c.output e) c.future (table (queueAt s) ((List.range c.edges).filter c.output) (after (i * r) c.interval c.future))) e
        else pure ⟨[(i * r : ℚ)], [0], 0, 0, ⊥, ⊤⟩) c.edges (fun e he => by obtain ⟨p, _, h1, _⟩ := hall e he; exact ⟨p, h1⟩)
    obtain ⟨p1, p2⟩ := Builder.mapPy_range hps
    refine ⟨ps, hps, p1, fun e he => ?_⟩
    obtain ⟨p, q1, q2⟩ := p2 e he
    obtain ⟨p', F, h1, h2, h3⟩ := hall e he
    rw [q2] at h1; injection h1 with h1; subst h1
    exact ⟨p, F, q1, h2, h3⟩

theorem filter_only (out : Nat → Bool) {e : Nat} (ho : out e = true) : ∀ n, e < n → (List.range n).filter (fun j => out j && decide (j = e)) = [e] := by
  intro n
  induction n with
  | zero => intro h; omega
  | succ n ih =>
    intro h
    rw [List.range_succ, List.filter_append]
    by_cases hn : n = e
    · subst hn
      have : (List.range n).filter (fun j => out j && decide (j = n)) = [] := by
        rw [List.filter_eq_nil_iff]
        intro j hj
        have := List.mem_range.mp hj
        simp only [Bool.and_eq_true, decide_eq_true_eq, not_and]
        intro _; omega
      rw [this]
      simp [ho]
    · rw [ih (by omega)]
      simp [hn]

/-- The additional input mask used to train the model of edge `e`: `input_mask * neighbours` (src/ml/SKNeighborhood.py:70-72). -/
def inputMaskFor (c : Setup) (near : Nat → Nat → Bool) (e : Nat) : List Bool := (List.range c.edges).map (fun j => c.input j && near e j)

/-- The additional output mask used to train the model of edge `e`: only this edge (src/ml/SKNeighborhood.py:73). -/
def outputMaskFor (c : Setup) (e : Nat) : List Bool := (List.range c.edges).map (fun j => decide (j = e))

/-- **C75**: the neighbourhood predictors, each edge having its own model, trained with the edge's additional masks: every model is asked about exactly what it was
trained on; and when the models answer with their targets, the predicted queues have the true values of the sampled times, but at times one unit apart. -/
theorem C75_neighborhood (hd : c.interval = k * r) (hg : Grid c.past r c.interval h k) (hf : FlowsOk c.edges flows) (hD : DatasetOf c.edges c.past c.future r c.interval h flows D)
    (hin : ∀ e < c.edges, c.input e = D.inputMask.getD e false) (hout : ∀ e < c.edges, c.output e = D.outputMask.getD e false) (near : Nat → Nat → Bool)
    (hj : flows[j]? = some s) (hr : Reached net s) (hi : i < sampleCount c.future r h k) :
    ∃ past target : Nat → List ℚ,
      (∀ e < c.edges, c.output e = true →
        ((D.useInput (inputMaskFor c near e)).useOutput (outputMaskFor c e)).get (j * sampleCount c.future r h k + i) = .ok (past e, target e)) ∧
      (∀ m m' : Nat → List (List ℚ) → Py (List (List ℚ)), (∀ e < c.edges, c.output e = true → m e [past e] = m' e [past e]) →
        (neighborhood c near m).predict (i * r) s = (neighborhood c near m').predict (i * r) s) ∧
      (h ≤ s.phi → (∀ e < c.edges, c.capacity e = net.capacity e) →
        ∀ m : Nat → List (List ℚ) → Py (List (List ℚ)), (∀ e < c.edges, c.output e = true → m e [past e] = .ok [target e]) →
        ∃ ps, (neighborhood c near m).predict (i * r) s = .ok ps ∧ ps.length = c.edges ∧ ∀ e < c.edges, ∃ p F, ps[e]? = some p ∧ Evals p F ∧
          ∀ a ≤ c.future, F (i * r + a) = queueAt s e (i * r + a * c.interval)) := by
  have hsm := List.mem_of_getElem? hj
  obtain ⟨files, f1, f2⟩ := hD
  obtain ⟨files', D', g1, g2, g3, ⟨g4, g5, g6⟩, g7, g8⟩ := C61_samples c.future hg hf (List.ne_nil_of_mem hsm)
  rw [f1] at g1; injection g1 with g1; subst g1
  rw [f2] at g2; injection g2 with g2; subst g2
  have hI : ∀ e, chosen c.edges D.inputMask (some (inputMaskFor c near e)) = (List.range c.edges).filter (fun j => near e j && c.input j) := by
    intro e
    refine List.filter_congr (fun a ha => ?_)
    have ha := List.mem_range.mp ha
    rw [← hin a ha]
    simp only [inputMaskFor, List.getD_eq_getElem?_getD, List.getElem?_map, List.getElem?_range ha, Option.map_some, Option.getD_some]
    cases c.input a <;> cases near e a <;> rfl
  have hO : ∀ e < c.edges, c.output e = true → chosen c.edges D.outputMask (some (outputMaskFor c e)) = [e] := by
    intro e he ho
    rw [← filter_only c.output ho c.edges he]
    refine List.filter_congr (fun a ha => ?_)
    have ha := List.mem_range.mp ha
    rw [← hout a ha]
    simp only [outputMaskFor, List.getD_eq_getElem?_getD, List.getElem?_map, List.getElem?_range ha, Option.map_some, Option.getD_some]
  have hget : ∀ e < c.edges, c.output e = true →
      ((D.useInput (inputMaskFor c near e)).useOutput (outputMaskFor c e)).get (j * sampleCount c.future r h k + i) = .ok
        ((i * r : ℚ) :: (table (queueAt s) ((List.range c.edges).filter (fun j => near e j && c.input j)) (before (i * r) c.interval c.past) ++
            table (loadAt s) ((List.range c.edges).filter (fun j => near e j && c.input j)) (before (i * r) c.interval c.past)),
          table (queueAt s) [e] (after (i * r) c.interval c.future)) := by
    intro e he ho
    have := g7 (some (inputMaskFor c near e)) (some (outputMaskFor c e)) (by rintro m hm; injection hm with hm; rw [← hm]; simp [inputMaskFor])
      (by rintro m hm; injection hm with hm; rw [← hm]; simp [outputMaskFor]) j s hj i hi
    rw [hI, hO e he ho, ← hd] at this
    exact this
  obtain ⟨L, hL⟩ := reached_sees hr (hf s hsm).2
  have hd0 : 0 ≤ c.interval := by rw [hd]; exact mul_nonneg (by positivity) hg.pos.le
  have hrow : ∀ mask : Nat → Bool, (rowOf (fun e => (s.queues e).fn) (pastTimes (i * r) c.interval c.past) ((List.range c.edges).filter mask) ++
        rowOf (fun e => (L e).fn) (pastTimes (i * r) c.interval c.past) ((List.range c.edges).filter mask)) =
      table (queueAt s) ((List.range c.edges).filter mask) (before (i * r) c.interval c.past) ++
        table (loadAt s) ((List.range c.edges).filter mask) (before (i * r) c.interval c.past) := by
    intro mask
    rw [rowOf_table, rowOf_table, before_eq]
    congr 1
    · exact table_congr (fun e _ x => (queueAt_eq hr e x).symm)
    · exact table_congr (fun e he x => (loadAt_eq hL (List.mem_range.mp (List.mem_filter.mp he).1) x).symm)
  refine ⟨_, _, hget, ?_, ?_⟩
  · intro m m' hm
    rw [neighborhood_eq hL hd0, neighborhood_eq hL hd0]
    refine Builder.mapPy_congr (fun e he => ?_)
    have he := List.mem_range.mp he
    by_cases ho : c.output e = true
    · rw [if_pos ho, if_pos ho, hrow, hm e he ho]
    · rw [if_neg ho, if_neg ho]
  · intro hphi hcap m hm
    have htimes := C61_times (future := c.future) hg
    have hend : (i * r : ℚ) + c.future * c.interval ≤ s.phi := by
      have hmem : (i * r + c.future * (k * r) : ℚ) ∈ (i * r : ℚ) :: after (i * r) (k * r) c.future := by
        rcases Nat.eq_zero_or_pos c.future with h0 | hpos
        · simp [h0]
        · refine List.mem_cons_of_mem _ (List.mem_map.mpr ⟨c.future - 1, List.mem_range.mpr (by omega), ?_⟩)
          have : ((c.future - 1 : Nat) : ℚ) + 1 = c.future := by
            have : (c.future - 1) + 1 = c.future := by omega
            exact_mod_cast this
          rw [this]
      have := (htimes.2 i hi _ hmem).2
      rw [← hd] at this
      linarith
    rw [neighborhood_eq hL hd0]
    have hall : ∀ e < c.edges, ∃ p F, (if c.output e then (do
        let out ← m e [(i * r : ℚ) :: (rowOf (fun e => (s.queues e).fn) (pastTimes (i * r) c.interval c.past) ((List.range c.edges).filter (fun j => near e j && c.input j)) ++
          rowOf (fun e => (L e).fn) (pastTimes (i * r) c.interval c.past) ((List.range c.edges).filter (fun j => near e j && c.input j)))]
        let raw ← rd out 0
        edgeFn c 1 (i * r) ((s.queues e).fn (i * r)) (clip raw) e) else pure ⟨[(i * r : ℚ)], [0], 0, 0, ⊥, ⊤⟩) = .ok p ∧ Evals p F ∧
        ∀ a ≤ c.future, F (i * r + a) = queueAt s e (i * r + a * c.interval) := by
      intro e he
      by_cases ho : c.output e = true
      · rw [if_pos ho, hrow, hm e he ho, ok_bind]
        have htab : table (queueAt s) [e] (after (i * r) c.interval c.future) =
            (after (i * r) 1 c.future).map (fun x => queueAt s e (i * r + (x - i * r) * c.interval)) := by
          simp only [table, after, List.map_cons, List.map_nil, List.flatten_cons, List.flatten_nil, List.append_nil, List.map_map]
          refine List.map_congr_left (fun a _ => ?_)
          simp only [Function.comp]
          congr 1; ring
        have hnn : ∀ v ∈ (after (i * r) 1 c.future).map (fun x => queueAt s e (i * r + (x - i * r) * c.interval)), 0 ≤ v := by
          intro v hv
          obtain ⟨x, h3, rfl⟩ := List.mem_map.mp hv
          obtain ⟨a, h4, rfl⟩ := List.mem_map.mp h3
          have := (queue_true hr e hd0 hend).1 (a + 1) (by have := List.mem_range.mp h4; omega)
          push_cast at this
          have e1 : (i * r : ℚ) + ((i * r + ((a : ℚ) + 1) * 1) - i * r) * c.interval = i * r + ((a : ℚ) + 1) * c.interval := by ring
          rw [e1]
          exact this
        simp only [rd_lt _ 0 (show 0 < [table (queueAt s) [e] (after (i * r) c.interval c.future)].length by simp), List.getElem_cons_zero, ok_bind]
        rw [htab, clip_id hnn, ← queueAt_eq hr]
        obtain ⟨p, F, p1, p2, p3⟩ := edgeFn_true (c := c) (e := e) (t := i * r) (step := 1) (by unfold eps; norm_num)
          (fun x => queueAt s e (i * r + (x - i * r) * c.interval)) (fun a ha => by
          rw [hcap e he]
          have := (queue_true hr e hd0 hend).2 a ha
          have e1 : (i * r : ℚ) + ((i * r + (a : ℚ) * 1) - i * r) * c.interval = i * r + (a : ℚ) * c.interval := by ring
          have e2 : (i * r : ℚ) + ((i * r + ((a : ℚ) + 1) * 1) - i * r) * c.interval = i * r + ((a : ℚ) + 1) * c.interval := by ring
          simp only [e1, e2]
          exact this)
        simp only [sub_self, zero_mul, add_zero] at p1
        refine ⟨p, F, p1, p2, fun a ha => ?_⟩
        have := p3 a ha
        rw [mul_one] at this
        rw [this]
        congr 1; ring
      · rw [if_neg ho]
        refine ⟨_, fun _ => 0, rfl, fun x => PL.eval_const _ _ _, fun a ha => ?_⟩
        have hm0 := (not_congr ((g6 e he).2)).mp (by rw [← hout e he]; exact ho)
        rw [hd]
        exact (queue_masked hg hr hsm hphi hm0 hi ha).symm
    obtain ⟨ps, hps⟩ := Builder.mapPy_range_ok _ c.edges (fun e he => by obtain ⟨p, _, h1, _⟩ := hall e he; exact ⟨p, h1⟩)
    obtain ⟨p1, p2⟩ := Builder.mapPy_range hps
    refine ⟨ps, hps, p1, fun e he => ?_⟩
    obtain ⟨p, q1, q2⟩ := p2 e he
    obtain ⟨p', F, h1, h2, h3⟩ := hall e he
    rw [q2] at h1; injection h1 with h1; subst h1
    exact ⟨p, F, q1, h2, h3⟩

/-- **C75**, for prediction interval 1: with models that answer with their targets, the predicted queues are the true queues at the sampled times. -/
theorem C75_neighborhood_partial (hone : c.interval = 1) (hd : c.interval = k * r) (hg : Grid c.past r c.interval h k) (hf : FlowsOk c.edges flows)
    (hD : DatasetOf c.edges c.past c.future r c.interval h flows D)
    (hin : ∀ e < c.edges, c.input e = D.inputMask.getD e false) (hout : ∀ e < c.edges, c.output e = D.outputMask.getD e false) (near : Nat → Nat → Bool)
    (hj : flows[j]? = some s) (hr : Reached net s) (hi : i < sampleCount c.future r h k) (hphi : h ≤ s.phi) (hcap : ∀ e < c.edges, c.capacity e = net.capacity e)
    {m : Nat → List (List ℚ) → Py (List (List ℚ))} (hm : ∀ e < c.edges, c.output e = true → ∃ past target,
      ((D.useInput (inputMaskFor c near e)).useOutput (outputMaskFor c e)).get (j * sampleCount c.future r h k + i) = .ok (past, target) ∧ m e [past] = .ok [target]) :
    ∃ ps, (neighborhood c near m).predict (i * r) s = .ok ps ∧ ps.length = c.edges ∧ ∀ e < c.edges, ∃ p F, ps[e]? = some p ∧ Evals p F ∧
      ∀ a ≤ c.future, F (i * r + a * c.interval) = queueAt s e (i * r + a * c.interval) := by
  obtain ⟨past, target, h1, _, h2⟩ := C75_neighborhood hd hg hf hD hin hout near hj hr hi
  obtain ⟨ps, p1, p2, p3⟩ := h2 hphi hcap m (by
    intro e he ho
    obtain ⟨pa, ta, q1, q2⟩ := hm e he ho
    rw [h1 e he ho] at q1
    injection q1 with q1
    rw [Prod.mk.injEq] at q1
    rw [q1.1, q1.2]
    exact q2)
  refine ⟨ps, p1, p2, fun e he => ?_⟩
  obtain ⟨p, F, q1, q2, q3⟩ := p3 e he
  refine ⟨p, F, q1, q2, fun a ha => ?_⟩
  rw [← q3 a ha, hone, mul_one]

end

/-- The setting of the examples: data of one flow up to time 11, and the masks of the dataset. -/
theorem dataset_example (k : Nat) (hk : k = 1 ∨ k = 2) : ∃ s D, Reached sampleNet s ∧ FlowsOk 2 [s] ∧ Grid 2 1 k 11 k ∧ DatasetOf 2 2 2 1 k 11 [s] D ∧ 11 ≤ s.phi ∧
    (∀ e < 2, (sampleSetup k).input e = D.inputMask.getD e false) ∧ (∀ e < 2, (sampleSetup k).output e = D.outputMask.getD e false) ∧ 2 ≤ sampleCount 2 1 11 k ∧
    queueAt s 0 3 = 2 ∧ queueAt s 0 5 = 1 := by
  have hrun : ∃ s, Reached sampleNet s ∧ (decide (11 ≤ s.phi) && (apartB 2 s && (decide (queueAt s 0 3 = 2) && (decide (queueAt s 0 5 = 1) &&
      decide (((do let files ← mapPy (samplesOf 2 2 11 1 k) [s]; let D ← Dataset.new 2 2 2 1 k 11 files; pure (D.inputMask, D.outputMask) : Py _)).toOption =
        some ([true, true], [true, false])))))) = true := by
    rcases hk with rfl | rfl
    · exact reached_of (calls := sampleCalls) (by unfold sampleCalls; decide +kernel)
    · exact reached_of (calls := sampleCalls) (by unfold sampleCalls; decide +kernel)
  obtain ⟨s, hs, hp⟩ := hrun
  simp only [Bool.and_eq_true, decide_eq_true_eq] at hp
  obtain ⟨p1, p2, p3, p4, p5⟩ := hp
  cases h1 : mapPy (samplesOf 2 2 11 1 k) [s] with
  | error e => rw [h1] at p5; cases p5
  | ok files =>
    rw [h1, ok_bind] at p5
    cases h2 : Dataset.new 2 2 2 1 k 11 files with
    | error e => rw [h2] at p5; cases p5
    | ok D =>
      rw [h2, ok_bind, py_pure] at p5
      injection p5 with p5
      rw [Prod.mk.injEq] at p5
      refine ⟨s, D, hs, ?_, ?_, ⟨files, h1, h2⟩, p1, ?_, ?_, ?_, p3, p4⟩
      · intro s' hs'
        rw [List.mem_singleton] at hs'
        subst hs'
        exact ⟨⟨_, hs⟩, apartB_sound p2⟩
      · exact ⟨by norm_num, by norm_num, by norm_num, by omega, by simp⟩
      · rw [p5.1]; intro e he; rcases (by omega : e = 0 ∨ e = 1) with rfl | rfl <;> rfl
      · rw [p5.2]; intro e he; rcases (by omega : e = 0 ∨ e = 1) with rfl | rfl <;> rfl
      · rcases hk with rfl | rfl <;> decide +kernel

/-- **C61** and **C74**, hypotheses met: nine samples of a flow with a queue; the second one (time 1) has queues 0, 3 and loads before, and the queues 5/2, 2 after time 1. -/
example : ∃ s D, Reached sampleNet s ∧ FlowsOk 2 [s] ∧ Grid 2 1 1 11 1 ∧ DatasetOf 2 2 2 1 1 11 [s] D ∧ 11 ≤ s.phi ∧
    (∀ e < 2, (sampleSetup 1).input e = D.inputMask.getD e false) ∧ (∀ e < 2, (sampleSetup 1).output e = D.outputMask.getD e false) ∧ sampleCount 2 1 11 1 = 9 ∧
    D.get 1 = .ok ([1, 0, 3, 0, 0, 0, 4, 0, 0], [5 / 2, 2]) := by
  obtain ⟨s, hs, hp⟩ := reached_of (calls := sampleCalls) (post := fun s => decide (11 ≤ s.phi) && (apartB 2 s &&
      decide (((do let files ← mapPy (samplesOf 2 2 11 1 1) [s]; let D ← Dataset.new 2 2 2 1 1 11 files; let x ← D.get 1; pure (D.inputMask, D.outputMask, x) : Py _)).toOption =
        some ([true, true], [true, false], ([1, 0, 3, 0, 0, 0, 4, 0, 0], [5 / 2, 2]))))) (by unfold sampleCalls; decide +kernel)
  simp only [Bool.and_eq_true, decide_eq_true_eq] at hp
  obtain ⟨p1, p2, p5⟩ := hp
  cases h1 : mapPy (samplesOf 2 2 11 1 1) [s] with
  | error e => rw [h1] at p5; cases p5
  | ok files =>
    rw [h1, ok_bind] at p5
    cases h2 : Dataset.new 2 2 2 1 1 11 files with
    | error e => rw [h2] at p5; cases p5
    | ok D =>
      rw [h2, ok_bind] at p5
      cases h3 : D.get 1 with
      | error e => rw [h3] at p5; cases p5
      | ok x =>
        rw [h3, ok_bind, py_pure] at p5
        injection p5 with p5
        rw [Prod.mk.injEq, Prod.mk.injEq] at p5
        refine ⟨s, D, hs, ?_, ⟨by norm_num, by norm_num, by norm_num, by norm_num, by norm_num⟩, ⟨files, h1, h2⟩, p1, ?_, ?_, by decide +kernel, by rw [h3, p5.2.2]⟩
        · intro s' hs'
          rw [List.mem_singleton] at hs'
          subst hs'
          exact ⟨⟨_, hs⟩, apartB_sound p2⟩
        · rw [p5.1]; intro e he; rcases (by omega : e = 0 ∨ e = 1) with rfl | rfl <;> rfl
        · rw [p5.2.1]; intro e he; rcases (by omega : e = 0 ∨ e = 1) with rfl | rfl <;> rfl

/-- **C75** fails for prediction intervals other than 1: with models that answer with their targets and interval 2, the queue predicted at time 1 for time 3 is not the true one. -/
theorem C75_wrong_times : ∃ s D, Reached sampleNet s ∧ FlowsOk 2 [s] ∧ Grid 2 1 2 11 2 ∧ DatasetOf 2 2 2 1 2 11 [s] D ∧ ∃ m : Nat → List (List ℚ) → Py (List (List ℚ)),
    (∀ e < 2, (sampleSetup 2).output e = true → ∃ past target,
      ((D.useInput (inputMaskFor (sampleSetup 2) (fun _ _ => true) e)).useOutput (outputMaskFor (sampleSetup 2) e)).get 1 = .ok (past, target) ∧ m e [past] = .ok [target]) ∧
    ∃ ps p, (Predictors.neighborhood (sampleSetup 2) (fun _ _ => true) m).predict 1 s = .ok ps ∧ ps[0]? = some p ∧ p.eval 3 = .ok 1 ∧ queueAt s 0 3 = 2 := by
  obtain ⟨s, D, h1, h2, h3, h4, h5, h6, h7, h8, h9, h10⟩ := dataset_example 2 (.inr rfl)
  simp only [Nat.cast_ofNat] at h3 h4 h6 h7
  obtain ⟨past, target, q1, _, q2⟩ := C75_neighborhood (c := sampleSetup 2) (r := 1) (h := 11) (k := 2) (flows := [s]) (D := D) (j := 0) (s := s) (net := sampleNet) (i := 1)
    (by norm_num [sampleSetup]) h3 h2 h4 h6 h7 (fun _ _ => true) rfl h1 (by have : (sampleSetup 2).future = 2 := rfl; rw [this]; omega)
  obtain ⟨ps, r1, r2, r3⟩ := q2 h5 (fun _ _ => rfl) (fun e _ => .ok [target e]) (fun _ _ _ => rfl)
  obtain ⟨p, F, t1, t2, t3⟩ := r3 0 (by decide)
  have ht := t3 2 (by decide)
  refine ⟨s, D, h1, h2, h3, h4, fun e _ => .ok [target e], ?_, ps, p, by simpa using r1, t1, ?_, h9⟩
  · intro e he ho
    refine ⟨past e, target e, ?_, rfl⟩
    have := q1 e he ho
    simpa using this
  · have e1 : (((1 : Nat) : ℚ) * 1 + ((2 : Nat) : ℚ)) = 3 := by norm_num
    have e2 : (((1 : Nat) : ℚ) * 1 + ((2 : Nat) : ℚ) * (sampleSetup 2).interval) = 5 := by norm_num [sampleSetup]
    rw [e1, e2, h10] at ht
    rw [t2 3, ht]

/-- **C75_neighborhood_partial**, hypotheses met. -/
example : ∃ s D, (sampleSetup 1).interval = 1 ∧ Reached sampleNet s ∧ FlowsOk 2 [s] ∧ Grid 2 1 1 11 1 ∧ DatasetOf 2 2 2 1 1 11 [s] D ∧ 11 ≤ s.phi ∧ queueAt s 0 3 = 2 := by
  obtain ⟨s, D, h1, h2, h3, h4, h5, _, _, _, h9, _⟩ := dataset_example 1 (.inl rfl)
  simp only [Nat.cast_one] at h3 h4
  exact ⟨s, D, rfl, h1, h2, h3, h4, h5, h9⟩

end Verif.Props
