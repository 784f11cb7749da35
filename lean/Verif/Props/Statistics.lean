import Verif.Model.Statistics
import Verif.Spec.Statistics
import Verif.Proofs.PredictML
import Verif.Proofs.PredictBatch
import Mathlib.Algebra.Order.BigOperators.Group.List

/-! Property theorems C87: the slowdown statistics. -/

namespace Verif.Props
open Verif Verif.Spec Verif.Statistics

theorem differ_iff {k : Nat} {run : List ℚ} (hl : run.length = k + 1) : differ run = true ↔ Differs k run := by
  unfold differ Differs
  rw [List.any_eq_true]
  have hget : ∀ j < k, run.dropLast[j]? = some (run.getD j 0) := by
    intro j hj
    rw [List.getElem?_eq_getElem (by rw [List.length_dropLast]; omega), List.getElem_dropLast, List.getD_eq_getElem?_getD, List.getElem?_eq_getElem (by omega)]
    rfl
  constructor
  · rintro ⟨x, hx, hne⟩
    obtain ⟨j, hj, rfl⟩ := List.getElem_of_mem hx
    have hj' : j < k := by rw [List.length_dropLast] at hj; omega
    have h1 := hget j hj'
    rw [List.getElem?_eq_getElem hj] at h1
    injection h1 with h1
    rw [h1] at hne
    exact ⟨j, hj', 0, by omega, by simpa using hne⟩
  · rintro ⟨i, hi, j, hj, hne⟩
    by_cases h : run.getD i 0 = run.getD 0 0
    · exact ⟨_, List.mem_of_getElem? (hget j hj), by rw [bne_iff_ne]; rw [h] at hne; exact Ne.symm hne⟩
    · exact ⟨_, List.mem_of_getElem? (hget i hi), by rw [bne_iff_ne]; exact h⟩

theorem filter_differ {k : Nat} {runs : List (List ℚ)} (hl : ∀ r ∈ runs, r.length = k + 1) : runs.filter differ = runs.filter (fun r => decide (Differs k r)) := by
  refine List.filter_congr (fun r hr => ?_)
  rw [Bool.eq_iff_iff, decide_eq_true_iff]
  exact differ_iff (hl r hr)

theorem slowdown_eq {k i : Nat} {run : List ℚ} (hl : run.length = k + 1) (hi : i < k) (hp : 0 < run.getD k 0) : slowdown run i = .ok (Slowdown k i run) := by
  unfold slowdown Slowdown
  have h1 : rd run i = .ok (run.getD i 0) := by
    rw [rd_lt _ _ (by omega), List.getD_eq_getElem?_getD, List.getElem?_eq_getElem (by omega)]; rfl
  have h2 : rdLast run = .ok (run.getD k 0) := by
    unfold rdLast
    rw [List.getLast?_eq_getElem?, hl, List.getD_eq_getElem?_getD, Nat.add_sub_cancel, List.getElem?_eq_getElem (by omega)]; rfl
  rw [h1, ok_bind, h2, ok_bind]
  unfold pyDiv
  rw [if_neg (ne_of_gt hp), ok_bind]; rfl

theorem columns_eq {k i : Nat} (hi : i < k) (f : Nat → List ℚ → ℚ) (rows : List (List ℚ)) :
    Builder.mapPy (fun row => rd row i) (rows.map (fun run => (List.range k).map (fun i => f i run))) = .ok (rows.map (f i)) := by
  rw [Predictors.mapPy_eq (g := fun row => row.getD i 0)]
  · rw [List.map_map]
    congr 1
    refine List.map_congr_left (fun r _ => ?_)
    simp [List.getD_eq_getElem?_getD, hi]
  · intro row hrow
    obtain ⟨r, _, rfl⟩ := List.mem_map.mp hrow
    rw [rd_lt _ _ (by simpa using hi)]
    simp [List.getD_eq_getElem?_getD, hi]

/-- **C87**, what the code computes: the average slowdown of every predictor over the runs in which two predictors differ, and `nan` if there is none. What is missing: the other runs are left out, see `C87_left_out`. -/
theorem C87_slowdowns_partial {k : Nat} {runs : List (List ℚ)} (hl : ∀ r ∈ runs, r.length = k + 1) (hp : ∀ r ∈ runs, 0 < r.getD k 0) :
    ∃ l, avgSlowdowns k runs = .ok l ∧ l.length = k ∧ ∀ i < k, l[i]? = some
      (if ∃ r ∈ runs, Differs k r then some (meanOver (Slowdown k i) (runs.filter (fun r => decide (Differs k r)))) else none) := by
  unfold avgSlowdowns
  rw [filter_differ hl]
  set rs := runs.filter (fun r => decide (Differs k r)) with hrs
  rw [Predictors.mapPy_eq (g := fun run => (List.range k).map (fun i => Slowdown k i run))
    (fun r hr => Predictors.mapPy_eq (fun i hi => slowdown_eq (hl r (List.mem_filter.mp hr).1) (List.mem_range.mp hi) (hp r (List.mem_filter.mp hr).1))), ok_bind,
    Predictors.mapPy_eq (g := fun i => average (rs.map (Slowdown k i))) (fun i hi => by rw [columns_eq (List.mem_range.mp hi), ok_bind]; rfl)]
  refine ⟨_, rfl, by simp, fun i hi => ?_⟩
  rw [List.getElem?_map, List.getElem?_range hi, Option.map_some]
  congr 1
  unfold average meanOver
  by_cases h : ∃ r ∈ runs, Differs k r
  · have hne : rs.map (Slowdown k i) ≠ [] := by
      obtain ⟨r, r1, r2⟩ := h
      exact List.ne_nil_of_mem (List.mem_map.mpr ⟨r, List.mem_filter.mpr ⟨r1, decide_eq_true r2⟩, rfl⟩)
    rw [if_pos h, if_neg hne, List.length_map]
  · have he : rs.map (Slowdown k i) = [] := by
      rw [List.map_eq_nil_iff, hrs, List.filter_eq_nil_iff]
      intro r hr hd
      exact h ⟨r, hr, of_decide_eq_true hd⟩
    rw [if_neg h, if_pos he]

/-- **C87**: it is the average over all runs if two predictors differ in every run. -/
theorem C87_slowdowns {k : Nat} {runs : List (List ℚ)} (hl : ∀ r ∈ runs, r.length = k + 1) (hp : ∀ r ∈ runs, 0 < r.getD k 0) (hne : runs ≠ []) (hd : ∀ r ∈ runs, Differs k r) :
    ∃ l, avgSlowdowns k runs = .ok l ∧ l.length = k ∧ ∀ i < k, l[i]? = some (some (meanOver (Slowdown k i) runs)) := by
  obtain ⟨l, h1, h2, h3⟩ := C87_slowdowns_partial hl hp
  refine ⟨l, h1, h2, fun i hi => ?_⟩
  obtain ⟨r, hr⟩ := List.exists_mem_of_ne_nil _ hne
  rw [h3 i hi, if_pos ⟨r, hr, hd r hr⟩, List.filter_eq_self.mpr (fun r hr => decide_eq_true (hd r hr))]

/-- **C87**: no average slowdown is negative if the last number of every run is a lower bound on the others. -/
theorem C87_nonneg {k : Nat} {runs : List (List ℚ)} (hl : ∀ r ∈ runs, r.length = k + 1) (hp : ∀ r ∈ runs, 0 < r.getD k 0) (hopt : ∀ r ∈ runs, ∀ i < k, r.getD k 0 ≤ r.getD i 0)
    {l : List (Option ℚ)} (h : avgSlowdowns k runs = .ok l) : ∀ x, some x ∈ l → 0 ≤ x := by
  obtain ⟨l', h1, h2, h3⟩ := C87_slowdowns_partial hl hp
  rw [h] at h1; injection h1 with h1; subst h1
  intro x hx
  obtain ⟨i, hi, hxi⟩ := List.getElem_of_mem hx
  have := h3 i (by omega)
  rw [List.getElem?_eq_getElem hi, hxi] at this
  injection this with this
  split at this
  · injection this with this
    rw [this]
    unfold meanOver
    refine div_nonneg (List.sum_nonneg (fun y hy => ?_)) (by positivity)
    obtain ⟨r, hr, rfl⟩ := List.mem_map.mp hy
    have hr := (List.mem_filter.mp hr).1
    unfold Slowdown
    have : 1 ≤ r.getD i 0 / r.getD k 0 := (one_le_div (hp r hr)).mpr (hopt r hr i (by omega))
    linarith
  · cases this

/-- **C87** is false: three runs of two predictors. In the second run both are twice as slow as the optimum; it is left out. -/
theorem C87_left_out : avgSlowdowns 2 [[3, 2, 2], [4, 4, 2], [2, 3, 2]] = .ok [some (1 / 4), some (1 / 4)] ∧
    meanOver (Slowdown 2 0) [[3, 2, 2], [4, 4, 2], [2, 3, 2]] = 1 / 2 := by decide +kernel

/-- The hypotheses of `C87_slowdowns` and `C87_nonneg` are met. -/
example : (∀ r ∈ ([[3, 2, 2], [2, 3, 2]] : List (List ℚ)), r.length = 2 + 1 ∧ 0 < r.getD 2 0 ∧ Differs 2 r ∧ ∀ i < 2, r.getD 2 0 ≤ r.getD i 0) ∧
    avgSlowdowns 2 [[3, 2, 2], [2, 3, 2]] = .ok [some (1 / 4), some (1 / 4)] := by decide +kernel

/-- **C87**: the printed "mean average travel times" are sums over the runs in which predictors differ, divided by the number of all runs. -/
theorem C87_means_partial {k : Nat} {runs : List (List ℚ)} (hl : ∀ r ∈ runs, r.length = k + 1) (hne : runs ≠ []) :
    ∃ l, printedMeans k runs = .ok l ∧ l.length = k ∧ ∀ i < k, l[i]? = some (((runs.filter (fun r => decide (Differs k r))).map (fun r => r.getD i 0)).sum / runs.length) := by
  unfold printedMeans
  rw [filter_differ hl]
  set rs := runs.filter (fun r => decide (Differs k r)) with hrs
  have hpos : (runs.length : ℚ) ≠ 0 := by
    have := List.length_pos_of_ne_nil hne
    positivity
  rw [Predictors.mapPy_eq (g := fun run => (List.range k).map (fun i => run.getD i 0))
    (fun r hr => Predictors.mapPy_eq (fun i hi => by
      have := hl r (List.mem_filter.mp hr).1
      have hi := List.mem_range.mp hi
      rw [rd_lt _ _ (by omega), List.getD_eq_getElem?_getD, List.getElem?_eq_getElem (by omega)]; rfl)), ok_bind,
    Predictors.mapPy_eq (g := fun i => (rs.map (fun r => r.getD i 0)).sum / runs.length) (fun i hi => by
      rw [columns_eq (List.mem_range.mp hi) (fun i run => run.getD i 0), ok_bind]
      unfold pyDiv
      rw [if_neg hpos])]
  refine ⟨_, rfl, by simp, fun i hi => ?_⟩
  rw [List.getElem?_map, List.getElem?_range hi, Option.map_some]

/-- **C87** is false: the printed mean is below every travel time. -/
theorem C87_wrong_mean : printedMeans 2 [[3, 2, 2], [4, 4, 2], [2, 3, 2]] = .ok [5 / 3, 5 / 3] ∧
    meanOver (fun r => r.getD 0 0) [[3, 2, 2], [4, 4, 2], [2, 3, 2]] = 3 := by decide +kernel

/-! ### C102 -/

section labels
variable {P K L E : Type}

/-- The JSON file of a run with the predictors `keys` (C99: numbers in the order of the predictors, the optimum at the end). -/
def saved (keys : List P) (m : Measured P E) : Run E := ⟨keys.map m.time ++ [m.best], keys.map m.error⟩

theorem saved_length (keys : List P) (m : Measured P E) : (saved keys m).times.length = keys.length + 1 := by simp [saved]

theorem saved_get {keys : List P} {m : Measured P E} {i : Nat} {p : P} (hp : keys[i]? = some p) : (saved keys m).times.getD i 0 = m.time p := by
  have hi : i < keys.length := by
    rw [List.getElem?_eq_some_iff] at hp
    exact hp.1
  unfold saved
  rw [List.getD_eq_getElem?_getD, List.getElem?_append_left (by simpa using hi), List.getElem?_map, hp]
  rfl

theorem saved_last {keys : List P} {m : Measured P E} : (saved keys m).times.getD keys.length 0 = m.best := by
  unfold saved
  simp [List.getD_eq_getElem?_getD]

theorem saved_differ {keys : List P} {m : Measured P E} : differ (saved keys m).times = true ↔ m.differs keys := by
  rw [differ_iff (saved_length keys m)]
  constructor
  · rintro ⟨i, hi, j, hj, hne⟩
    have h1 : keys[i]? = some keys[i] := List.getElem?_eq_getElem hi
    have h2 : keys[j]? = some keys[j] := List.getElem?_eq_getElem hj
    rw [saved_get h1, saved_get h2] at hne
    exact ⟨_, List.getElem_mem hi, _, List.getElem_mem hj, hne⟩
  · rintro ⟨p, hp, q, hq, hne⟩
    obtain ⟨i, hi, rfl⟩ := List.getElem_of_mem hp
    obtain ⟨j, hj, rfl⟩ := List.getElem_of_mem hq
    refine ⟨i, hi, j, hj, ?_⟩
    rw [saved_get (List.getElem?_eq_getElem hi), saved_get (List.getElem?_eq_getElem hj)]
    exact hne

theorem column_keys {α β : Type} {keys : List P} {i : Nat} {p : P} (hp : keys[i]? = some p) (f : α → P → β) (xs : List α) : column (xs.map (fun x => keys.map (f x))) i = .ok (xs.map (fun x => f x p)) := by
  unfold column
  induction xs with
  | nil => rfl
  | cons x xs ih =>
    rw [List.map_cons, List.map_cons]
    show (rd (keys.map (f x)) i >>= _) = _
    rw [rd_eq_ok.mpr (show (keys.map (f x))[i]? = some (f x p) by rw [List.getElem?_map, hp]; rfl), ok_bind, ih]
    rfl

theorem zipIdx_zip {α β : Type} {styles : List α} {keys : List β} (hlen : styles.length = keys.length) {γ : Type} {F : α × Nat → γ} {G : α × β → γ}
    (h : ∀ (s : α) (i : Nat) (p : β), keys[i]? = some p → F (s, i) = G (s, p)) : styles.zipIdx.map F = (styles.zip keys).map G := by
  refine List.ext_getElem (by simp [hlen]) (fun i h1 h2 => ?_)
  have hi : i < keys.length := by rw [← hlen]; simpa using h1
  simp only [List.getElem_map, List.getElem_zipIdx, List.getElem_zip, Nat.zero_add]
  exact h _ _ _ (List.getElem?_eq_getElem hi)

theorem boxPlots_eq {Q α β : Type} {styles : Styles P K L} {keys : List Q} (hlen : styles.length = keys.length) (f : α → Q → β) (xs : List α) : boxPlots styles (xs.map (fun x => keys.map (f x))) =
    .ok ((styles.zip keys).map (fun s => (s.1.2.2, s.1.2.1, xs.map (fun x => f x s.2)))) := by
  have hne : ∀ x ∈ styles.zipIdx, ∃ p, keys[x.2]? = some p := by
    intro x hx
    have := List.snd_lt_of_mem_zipIdx hx
    rw [Nat.add_zero, hlen] at this
    exact ⟨_, List.getElem?_eq_getElem this⟩
  unfold boxPlots
  rw [Predictors.mapPy_eq (g := fun x => (x.1.2.2, x.1.2.1, xs.filterMap (fun y => (keys.map (f y))[x.2]?))) (fun x hx => ?_)]
  · congr 1
    refine zipIdx_zip hlen (fun s i p hp => ?_)
    simp only [List.getElem?_map, hp, Option.map_some]
    rw [List.filterMap_eq_map']
  · obtain ⟨p, hp⟩ := hne x hx
    rw [column_keys hp, ok_bind]
    simp only [List.getElem?_map, hp, Option.map_some]
    rw [List.filterMap_eq_map']
    rfl

theorem mapPy_keys {α β : Type} {keys : List P} {l : List α} (hk : l.length = keys.length) {F : α → Py β} {G : P → β} (h : ∀ (i : Nat) (a : α) (p : P), l[i]? = some a → keys[i]? = some p → F a = .ok (G p)) :
    Builder.mapPy F l = .ok (keys.map G) := by
  obtain ⟨bs, h1, h2, h3⟩ := Builder.mapPy_ok F l (by
    intro a ha
    obtain ⟨i, hi, rfl⟩ := List.getElem_of_mem ha
    exact ⟨_, h i _ _ (List.getElem?_eq_getElem hi) (List.getElem?_eq_getElem (by omega))⟩)
  rw [h1]
  congr 1
  refine List.ext_getElem (by simp [h2, hk]) (fun i hi hi' => ?_)
  have hil : i < l.length := by omega
  have hik : i < keys.length := by omega
  obtain ⟨b, h4, h5⟩ := h3 i _ (List.getElem?_eq_getElem hil)
  rw [h i _ _ (List.getElem?_eq_getElem hil) (List.getElem?_eq_getElem hik)] at h5
  injection h5 with h5
  rw [List.getElem?_eq_getElem hi] at h4
  injection h4 with h4
  rw [List.getElem_map, h4, h5]

theorem range_get {k i a : Nat} (h : (List.range k)[i]? = some a) : a = i := by
  obtain ⟨h1, h2⟩ := List.getElem?_eq_some_iff.mp h
  rw [← h2, List.getElem_range]

theorem filter_saved (keys : List P) (ms : List (Measured P E)) : (ms.map (saved keys)).filter (fun run => differ run.times) = (ms.filter (fun m => decide (m.differs keys))).map (saved keys) := by
  rw [List.filter_map]
  congr 1
  refine List.filter_congr (fun m _ => ?_)
  rw [Function.comp, Bool.eq_iff_iff, decide_eq_true_iff]
  exact saved_differ

theorem filter_times (keys : List P) (ms : List (Measured P E)) : ((ms.map (saved keys)).map Run.times).filter differ = (ms.filter (fun m => decide (m.differs keys))).map (fun m => (saved keys m).times) := by
  rw [List.map_map, List.filter_map]
  congr 1
  refine List.filter_congr (fun m _ => ?_)
  rw [Function.comp, Bool.eq_iff_iff, decide_eq_true_iff]
  exact saved_differ

/-- **C102**, what the code does for any configuration with as many entries as there are predictors: the `i`-th entry of the configuration is plotted with the data of the `i`-th predictor of the run. -/
theorem C102_by_position {styles : Styles P K L} {keys : List P} (hlen : styles.length = keys.length) {ms : List (Measured P E)} (hpos : ∀ m ∈ ms, 0 < m.best) :
    slowdownPlots styles (ms.map (saved keys)) = .ok ((styles.zip keys).map (fun x => (x.1.2.2, x.1.2.1, (ms.filter (fun m => decide (m.differs keys))).map (fun m => m.time x.2 / m.best - 1)))) ∧
    errorPlots styles (ms.map (saved keys)) = .ok ((styles.zip keys).map (fun x => (x.1.2.2, x.1.2.1, ms.map (fun m => m.error x.2)))) ∧
    comparison styles (ms.map (saved keys)) = .ok ((styles.zip keys).map (fun x => (x.1.2.1, (ms.filter (fun m => decide (m.differs keys))).map (fun m => (m.error x.2, m.time x.2 - m.best))))) := by
  have fpos : ∀ m ∈ ms.filter (fun m => decide (m.differs keys)), 0 < m.best := fun m hm => hpos m (List.mem_filter.mp hm).1
  generalize hfs : ms.filter (fun m => decide (m.differs keys)) = fs at fpos
  refine ⟨?_, ?_, ?_⟩
  · unfold slowdownPlots
    rw [filter_times, hfs, ← Predictors.mapPy_map, Predictors.mapPy_eq (g := fun m => keys.map (fun p => m.time p / m.best - 1)), ok_bind, boxPlots_eq hlen]
    intro m hm
    refine mapPy_keys (by simpa using hlen) (fun i a p ha hp => ?_)
    rw [range_get ha]
    rw [slowdown_eq (saved_length keys m) (List.getElem?_eq_some_iff.mp hp).1 (by rw [saved_last]; exact fpos m hm)]
    unfold Slowdown
    rw [saved_get hp, saved_last]
  · unfold errorPlots
    rw [← Predictors.mapPy_map, Predictors.mapPy_eq (g := fun m => keys.map m.error), ok_bind, boxPlots_eq hlen (fun (m : Measured P E) => m.error)]
    intro m hm
    refine mapPy_keys (by simpa using hlen) (fun i a p ha hp => rd_eq_ok.mpr ?_)
    rw [range_get ha]
    show (keys.map m.error)[i]? = _
    rw [List.getElem?_map, hp]
    rfl
  · unfold comparison
    rw [filter_saved, hfs, ← Predictors.mapPy_map, Predictors.mapPy_eq (g := fun m => keys.map (fun p => (m.error p, m.time p - m.best))), ok_bind]
    · show Except.ok _ = Except.ok _
      congr 1
      refine zipIdx_zip hlen (fun s i p hp => ?_)
      rw [List.filterMap_map]
      congr 1
      rw [show ((fun row : List (E × ℚ) => row[i]?) ∘ fun m : Measured P E => keys.map (fun p => (m.error p, m.time p - m.best))) = fun m => some (m.error p, m.time p - m.best) by
        funext m; simp [hp]]
      rw [List.filterMap_eq_map']
    · intro m hm
      refine mapPy_keys (by simp [saved]) (fun i a p ha hp => ?_)
      have hi : i < keys.length := (List.getElem?_eq_some_iff.mp hp).1
      have ha' : a = (m.error p, i) := by
        rw [List.getElem?_zipIdx] at ha
        simp only [saved, List.getElem?_map, hp, Option.map_some, Nat.zero_add] at ha
        injection ha with ha
        exact ha.symm
      subst ha'
      unfold coordinate
      rw [if_pos (by rw [hlen]; exact hi)]
      have e1 : rd (saved keys m).times i = .ok (m.time p) := rd_eq_ok.mpr (by
        unfold saved
        rw [List.getElem?_append_left (by simpa using hi), List.getElem?_map, hp]
        rfl)
      have e2 : rdLast (saved keys m).times = .ok m.best := by simp [rdLast, saved]
      rw [e1, ok_bind, e2]
      rfl

/-- **C102.** If the configuration lists the predictors in the order in which they were evaluated, then every label and colour goes with the numbers of its predictor: slowdowns and the comparison over the runs in which predictors
differ (see C87), errors over all runs. -/
theorem C102_labels_partial {keys : List P} (colour : P → K) (label : P → L) {ms : List (Measured P E)} (hpos : ∀ m ∈ ms, 0 < m.best) :
    slowdownPlots (keys.map (fun p => (p, colour p, label p))) (ms.map (saved keys)) = .ok (keys.map (fun p => (label p, colour p, (ms.filter (fun m => decide (m.differs keys))).map (fun m => m.time p / m.best - 1)))) ∧
    errorPlots (keys.map (fun p => (p, colour p, label p))) (ms.map (saved keys)) = .ok (keys.map (fun p => (label p, colour p, ms.map (fun m => m.error p)))) ∧
    comparison (keys.map (fun p => (p, colour p, label p))) (ms.map (saved keys)) =
      .ok (keys.map (fun p => (colour p, (ms.filter (fun m => decide (m.differs keys))).map (fun m => (m.error p, m.time p - m.best))))) := by
  obtain ⟨h1, h2, h3⟩ := C102_by_position (keys := keys) (styles := keys.map (fun p => (p, colour p, label p))) (by simp) hpos
  have key : ∀ {γ : Type} (G : (P × K × L) × P → γ), ((keys.map (fun p => (p, colour p, label p))).zip keys).map G = keys.map (fun p => G ((p, colour p, label p), p)) := by
    intro γ G
    refine List.ext_getElem (by simp) (fun i a b => by simp)
  rw [h1, h2, h3, key, key, key]
  exact ⟨rfl, rfl, rfl⟩

/-- **C102 is false** if the configuration has one more entry, as in the Tokyo scenario: the slowdown plot shows the predictor that was never evaluated as perfect, and the plot of the errors is never made. -/
theorem C102_extra {keys : List P} (q : P) (colour : P → K) (label : P → L) {ms : List (Measured P E)} (hpos : ∀ m ∈ ms, 0 < m.best) :
    slowdownPlots ((keys ++ [q]).map (fun p => (p, colour p, label p))) (ms.map (saved keys)) =
      .ok (keys.map (fun p => (label p, colour p, (ms.filter (fun m => decide (m.differs keys))).map (fun m => m.time p / m.best - 1))) ++ [(label q, colour q, (ms.filter (fun m => decide (m.differs keys))).map (fun _ => 0))]) ∧
    (ms ≠ [] → ∃ e, errorPlots ((keys ++ [q]).map (fun p => (p, colour p, label p))) (ms.map (saved keys)) = .error e) := by
  constructor
  · have fpos : ∀ m ∈ ms.filter (fun m => decide (m.differs keys)), 0 < m.best := fun m hm => hpos m (List.mem_filter.mp hm).1
    generalize hfs : ms.filter (fun m => decide (m.differs keys)) = fs at fpos
    have hlen : ((keys ++ [q]).map (fun p => (p, colour p, label p))).length = (keys.map some ++ [none]).length := by simp
    unfold slowdownPlots
    rw [filter_times, hfs, ← Predictors.mapPy_map, Predictors.mapPy_eq (g := fun m => (keys.map some ++ [none]).map (fun p : Option P => match p with
      | some p => m.time p / m.best - 1
      | none => 0)), ok_bind]
    · have hb := boxPlots_eq (styles := (keys ++ [q]).map (fun p => (p, colour p, label p))) hlen (fun (m : Measured P E) (p : Option P) => match p with
        | some p => m.time p / m.best - 1
        | none => 0) fs
      rw [hb]
      congr 1
      rw [List.map_append, List.zip_append (by simp), List.map_append]
      congr 1
      refine List.ext_getElem (by simp) (fun i a b => by simp)
    · intro m hm
      refine mapPy_keys (by simpa using hlen) (fun i a p ha hp => ?_)
      rw [range_get ha]
      rcases lt_or_ge i keys.length with hi | hi
      · rw [List.getElem?_append_left (by simpa using hi), List.getElem?_map, List.getElem?_eq_getElem hi] at hp
        injection hp with hp
        subst hp
        rw [slowdown_eq (saved_length keys m) hi (by rw [saved_last]; exact fpos m hm)]
        unfold Slowdown
        rw [saved_get (List.getElem?_eq_getElem hi), saved_last]
      · have hi' : i = keys.length := by
          have := (List.getElem?_eq_some_iff.mp hp).1
          simp at this
          omega
        subst hi'
        have : p = none := by simpa using hp.symm
        subst this
        unfold slowdown
        have e1 : rd (saved keys m).times keys.length = .ok m.best := rd_eq_ok.mpr (by simp [saved])
        have e2 : rdLast (saved keys m).times = .ok m.best := by simp [rdLast, saved]
        have h0 := (fpos m hm).ne'
        rw [e1, ok_bind, e2, ok_bind]
        unfold pyDiv
        rw [if_neg h0, ok_bind, div_self h0]
        simp
  · intro hne
    obtain ⟨m, hm⟩ := List.exists_mem_of_ne_nil _ hne
    cases h : errorPlots ((keys ++ [q]).map (fun p => (p, colour p, label p))) (ms.map (saved keys)) with
    | error e => exact ⟨e, rfl⟩
    | ok l =>
      obtain ⟨rows, h1, _⟩ := bind_eq_ok.mp h
      obtain ⟨i, hi, hmi⟩ := List.getElem_of_mem (List.mem_map_of_mem (f := saved keys) hm)
      obtain ⟨_, h2⟩ := Builder.mapPy_inv h1
      obtain ⟨row, _, h3⟩ := h2 i _ (List.getElem?_eq_getElem hi)
      obtain ⟨_, h4⟩ := Builder.mapPy_inv h3
      obtain ⟨y, _, h5⟩ := h4 keys.length keys.length (by simp)
      rw [hmi] at h5
      have := rd_eq_ok.mp h5
      simp [saved] at this

/-- **C102 is false** if the configuration lists the predictors in another order: labels are exchanged. -/
theorem C102_swapped : errorPlots [("b", "red", "b"), ("a", "blue", "a")] ([⟨fun p => if p = "a" then 1 else 2, 1, fun p => if p = "a" then (3 : Int) else 4⟩].map (saved ["a", "b"])) =
    .ok [("b", "red", [3]), ("a", "blue", [4])] := by decide +kernel

/-- **C102 is false** if the configuration has fewer entries than there are predictors: the comparison is never made. -/
theorem C102_missing {styles : Styles P K L} {keys : List P} (hlen : styles.length < keys.length) {ms : List (Measured P E)} {m : Measured P E} (hm : m ∈ ms) (hd : m.differs keys) :
    ∃ e, comparison styles (ms.map (saved keys)) = .error e := by
  cases h : comparison styles (ms.map (saved keys)) with
  | error e => exact ⟨e, rfl⟩
  | ok l =>
    unfold comparison at h
    rw [filter_saved] at h
    obtain ⟨rows, h1, _⟩ := bind_eq_ok.mp h
    have hmem : m ∈ ms.filter (fun m => decide (m.differs keys)) := List.mem_filter.mpr ⟨hm, decide_eq_true hd⟩
    obtain ⟨i, hi, hmi⟩ := List.getElem_of_mem (List.mem_map_of_mem (f := saved keys) hmem)
    obtain ⟨_, h2⟩ := Builder.mapPy_inv h1
    obtain ⟨row, _, h3⟩ := h2 i _ (List.getElem?_eq_getElem hi)
    obtain ⟨_, h4⟩ := Builder.mapPy_inv h3
    rw [hmi] at h4
    obtain ⟨y, _, h5⟩ := h4 styles.length (m.error keys[styles.length], styles.length) (by simp [saved, List.getElem?_zipIdx, hlen])
    unfold coordinate at h5
    simp at h5

/-- Two runs of two predictors, "a" and "b". -/
def twoRuns : List (Measured String Int) := [⟨fun p => if p = "a" then 2 else 3, 1, fun p => if p = "a" then 5 else 6⟩, ⟨fun _ => 2, 1, fun _ => 7⟩]

/-- The hypotheses of `C102_labels_partial`, `C102_extra` and `C102_missing` are met. -/
example : (∀ m ∈ twoRuns, 0 < m.best) ∧ (∃ m ∈ twoRuns, m.differs ["a", "b"]) ∧
    slowdownPlots [("a", "red", "A"), ("b", "blue", "B")] (twoRuns.map (saved ["a", "b"])) = .ok [("A", "red", [1]), ("B", "blue", [2])] ∧
    comparison [("a", "red", "A"), ("b", "blue", "B")] (twoRuns.map (saved ["a", "b"])) = .ok [("red", [(5, 1)]), ("blue", [(6, 2)])] ∧
    slowdownPlots [("a", "red", "A"), ("b", "blue", "B"), ("c", "black", "C")] (twoRuns.map (saved ["a", "b"])) = .ok [("A", "red", [1]), ("B", "blue", [2]), ("C", "black", [0])] :=
  ⟨by decide +kernel, by decide +kernel, by decide +kernel, by decide +kernel, by decide +kernel⟩

end labels

end Verif.Props
