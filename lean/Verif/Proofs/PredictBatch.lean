import Verif.Proofs.PredictML
import Mathlib.Data.List.Dedup

/-! Predicting for many times at once. -/

namespace Verif
open Spec
namespace Predictors
open Builder (mapPy)

theorem gridTimes_sorted (ts : List ℚ) (step : ℚ) (n : Nat) : (gridTimes ts step n).Pairwise (· ≤ ·) := by
  unfold gridTimes
  refine List.Pairwise.sublist (List.dedup_sublist _) ?_
  exact List.pairwise_insertionSort _ _

theorem mem_gridTimes {ts : List ℚ} {step : ℚ} {n : Nat} {x : ℚ} : x ∈ gridTimes ts step n ↔ ∃ t ∈ ts, x ∈ pastTimes t step n := by
  unfold gridTimes
  rw [List.mem_dedup, List.mem_insertionSort, List.mem_flatten]
  constructor
  · rintro ⟨l, hl, hx⟩
    obtain ⟨t, ht, rfl⟩ := List.mem_map.mp hl
    exact ⟨t, ht, hx⟩
  · rintro ⟨t, ht, hx⟩
    exact ⟨_, List.mem_map.mpr ⟨t, ht, rfl⟩, hx⟩

theorem lookup_zip (F : ℚ → ℚ) : ∀ {l : List ℚ} {t : ℚ}, t ∈ l → (l.zip (l.map F)).lookup t = some (F t) := by
  intro l
  induction l with
  | nil => intro t h; cases h
  | cons a l ih =>
    intro t ht
    rw [List.map_cons, List.zip_cons_cons, List.lookup_cons]
    by_cases h : t = a
    · subst h; simp
    · have : (t == a) = false := by simpa using h
      rw [this]
      exact ih ((List.mem_cons.mp ht).resolve_left h)

theorem lookup_map {β : Type} (G : Nat → β) : ∀ {l : List Nat} {e : Nat}, e ∈ l → (l.map (fun e => (e, G e))).lookup e = some (G e) := by
  intro l
  induction l with
  | nil => intro t h; cases h
  | cons a l ih =>
    intro t ht
    rw [List.map_cons, List.lookup_cons]
    by_cases h : t = a
    · subst h; simp
    · have : (t == a) = false := by simpa using h
      simp only [this]
      exact ih ((List.mem_cons.mp ht).resolve_left h)

theorem atTime_eq (F : ℚ → ℚ) {grid : List ℚ} {t : ℚ} (h : t ∈ grid) : atTime (grid.zip (grid.map F)) t = .ok (F t) := by
  unfold atTime; rw [lookup_zip F h]

theorem gridsOf_eq {mask : Nat → Bool} {f : Nat → Py PL} {p : Nat → PL} {grid : List ℚ} {edges : List Nat} (hf : ∀ e ∈ edges, f e = .ok (p e))
    (hp : ∀ e ∈ edges, Total (p e)) (hs : grid.Pairwise (· ≤ ·)) :
    gridsOf mask f grid edges = .ok ((edges.filter mask).map (fun e => (e, grid.zip (grid.map (p e).fn)))) := by
  unfold gridsOf
  refine mapPy_eq (fun e he => ?_)
  have he := (List.mem_filter.mp he).1
  rw [hf e he, ok_bind]
  unfold onGrid
  rw [(hp e he).array hs, ok_bind, py_pure, ok_bind]
  rfl

theorem gridOf_eq {β : Nat → List (ℚ × ℚ)} {l : List Nat} {e : Nat} (h : e ∈ l) : gridOf (l.map (fun e => (e, β e))) e = .ok (β e) := by
  unfold gridOf; rw [lookup_map β h]

theorem rowFrom_eq {F : Nat → ℚ → ℚ} {grid times : List ℚ} {l edges : List Nat} (ht : ∀ t ∈ times, t ∈ grid) (he : ∀ e ∈ edges, e ∈ l) :
    rowFrom (l.map (fun e => (e, grid.zip (grid.map (F e))))) times edges = .ok (rowOf F times edges) := by
  unfold rowFrom
  rw [mapPy_eq (g := fun e => times.map (F e)) (by
    intro e hm
    rw [gridOf_eq (he e hm), ok_bind]
    exact mapPy_eq (fun t h => atTime_eq (F e) (ht t h))), ok_bind]
  rfl

theorem mapPy_map {α β γ : Type} (f : β → Py γ) (g : α → β) : ∀ (l : List α), mapPy (fun a => f (g a)) l = mapPy f (l.map g) := by
  intro l
  induction l with
  | nil => rfl
  | cons a l ih => unfold mapPy; rw [ih]; rfl

theorem zip_range_get {α : Type} {l : List α} {p : Nat × α} (h : p ∈ (List.range l.length).zip l) : l[p.1]? = some p.2 := by
  obtain ⟨i, hi, rfl⟩ := List.getElem_of_mem h
  rw [List.getElem_zip]
  simp only [List.getElem_range]
  have : i < l.length := by simpa using hi
  exact List.getElem?_eq_getElem this

theorem zip_range_snd {α : Type} (l : List α) : ((List.range l.length).zip l).map Prod.snd = l := by
  rw [List.map_snd_zip]; simp

/-- The row of inputs for time `t`. -/
def inputRow (c : Setup) (flow : DFlow) (L : Nat → PL) (mask : Nat → Bool) (t : ℚ) : List ℚ :=
  t :: (rowOf (fun e => (flow.queues e).fn) (pastTimes t c.interval c.past) ((List.range c.edges).filter mask) ++
    rowOf (fun e => (L e).fn) (pastTimes t c.interval c.past) ((List.range c.edges).filter mask))

/-- The answers of a row-wise model, one time after the other. -/
theorem perTime {β : Type} {model : List (List ℚ) → Py (List (List ℚ))} {f : List ℚ → List ℚ} (hm : RowWise model f) (row : ℚ → List ℚ) (ts : List ℚ)
    (g : ℚ → List ℚ → Py β) :
    (do
      let out ← model (ts.map row)
      mapPy (fun p => do
        let raw ← rd out p.1
        g p.2 raw) ((List.range ts.length).zip ts)) = mapPy (fun t => g t (f (row t))) ts := by
  rw [hm, ok_bind]
  have e1 : ∀ p ∈ (List.range ts.length).zip ts, (do
        let raw ← rd ((ts.map row).map f) p.1
        g p.2 raw) = g p.2 (f (row p.2)) := by
    intro p hp
    have := zip_range_get hp
    rw [(rd_eq_ok (a := f (row p.2))).mpr (by simp [this]), ok_bind]
  rw [Builder.mapPy_congr e1]
  have := mapPy_map (fun t => g t (f (row t))) Prod.snd ((List.range ts.length).zip ts)
  rw [this, zip_range_snd]

/-- `fullNetBatch` on a flow it can read, with a row-wise model. -/
theorem fullNetBatch_eq {c : Setup} {model : List (List ℚ) → Py (List (List ℚ))} {f : List ℚ → List ℚ} (hm : RowWise model f) {ts : List ℚ}
    {flow : DFlow} {L : Nat → PL} (h : Sees flow c.edges L) (hpast : 1 ≤ c.past) (hout : ∀ e < c.edges, c.output e = true → c.input e = true) :
    fullNetBatch c model ts flow = mapPy (fun t => mapPy (fun e =>
      if c.output e then edgeFn c c.interval t ((flow.queues e).fn t) (slice (countMask c.output e) c.future (clip (f (inputRow c flow L c.input t)))) e
      else pure ⟨[0], [0], 0, 0, ⊥, ⊤⟩) (List.range c.edges)) ts := by
  unfold fullNetBatch
  simp only
  have hgs := gridTimes_sorted ts c.interval c.past
  have hsub : ∀ t ∈ ts, ∀ x ∈ pastTimes t c.interval c.past, x ∈ gridTimes ts c.interval c.past := fun t ht x hx => mem_gridTimes.mpr ⟨t, ht, hx⟩
  rw [loads_eq h.load, ok_bind, gridsOf_eq (p := flow.queues) (fun e _ => rfl) (fun e he => h.queues e (List.mem_range.mp he)) hgs, ok_bind,
    gridsOf_eq (p := L) (fun e he => rd_loads L (List.mem_range.mp he)) (fun e he => h.loads e (List.mem_range.mp he)) hgs, ok_bind,
    PL.new_ok (PL.wf_const 0 0), ok_bind]
  rw [mapPy_eq (g := inputRow c flow L c.input) (l := ts) (by
    intro t ht
    rw [rowFrom_eq (F := fun e => (flow.queues e).fn) (hsub t ht) (fun e he => he), ok_bind,
      rowFrom_eq (F := fun e => (L e).fn) (hsub t ht) (fun e he => he), ok_bind]
    rfl), ok_bind]
  rw [← perTime hm (inputRow c flow L c.input) ts (fun t raw => mapPy (fun e =>
      if c.output e then edgeFn c c.interval t ((flow.queues e).fn t) (slice (countMask c.output e) c.future (clip raw)) e
      else pure ⟨[0], [0], 0, 0, ⊥, ⊤⟩) (List.range c.edges))]
  congr 1
  funext out
  refine Builder.mapPy_congr (fun p hp => ?_)
  congr 1
  funext raw
  refine Builder.mapPy_congr (fun e he => ?_)
  split
  · next ho =>
    have hin := hout e (List.mem_range.mp he) ho
    have ht : p.2 ∈ ts := List.mem_of_getElem? (zip_range_get hp)
    rw [gridOf_eq (List.mem_filter.mpr ⟨he, hin⟩), ok_bind, atTime_eq _ (hsub _ ht _ (mem_pastTimes hpast)), ok_bind]
  · rfl

/-- `neighborhoodEdge` likewise. -/
theorem neighborhoodBatch_eq {c : Setup} {near : Nat → Nat → Bool} {models : Nat → List (List ℚ) → Py (List (List ℚ))} {f : Nat → List ℚ → List ℚ}
    (hm : ∀ e < c.edges, RowWise (models e) (f e)) {ts : List ℚ} {flow : DFlow} {L : Nat → PL} (h : Sees flow c.edges L) (hpast : 1 ≤ c.past)
    (hout : ∀ e < c.edges, c.output e = true → c.input e = true) :
    neighborhoodBatch c near models ts flow = mapPy (fun e => if c.output e then
        mapPy (fun t => edgeFn c c.interval t ((flow.queues e).fn t) (clip (f e (inputRow c flow L (fun j => near e j && c.input j) t))) e) ts
      else pure (ts.map (fun _ => ⟨[0], [0], 0, 0, ⊥, ⊤⟩))) (List.range c.edges) := by
  unfold neighborhoodBatch
  simp only
  have hgs := gridTimes_sorted ts c.interval c.past
  have hsub : ∀ t ∈ ts, ∀ x ∈ pastTimes t c.interval c.past, x ∈ gridTimes ts c.interval c.past := fun t ht x hx => mem_gridTimes.mpr ⟨t, ht, hx⟩
  rw [loads_eq h.load, ok_bind, gridsOf_eq (p := flow.queues) (fun e _ => rfl) (fun e he => h.queues e (List.mem_range.mp he)) hgs, ok_bind,
    gridsOf_eq (p := L) (fun e he => rd_loads L (List.mem_range.mp he)) (fun e he => h.loads e (List.mem_range.mp he)) hgs, ok_bind,
    PL.new_ok (PL.wf_const 0 0), ok_bind]
  refine Builder.mapPy_congr (fun e he => ?_)
  split
  · next ho =>
    have hem := List.mem_range.mp he
    have hin := hout e hem ho
    have hsubE : ∀ j ∈ (List.range c.edges).filter (fun j => near e j && c.input j), j ∈ (List.range c.edges).filter c.input := by
      intro j hj
      obtain ⟨h1, h2⟩ := List.mem_filter.mp hj
      simp only [Bool.and_eq_true] at h2
      exact List.mem_filter.mpr ⟨h1, h2.2⟩
    unfold neighborhoodEdge
    simp only
    rw [mapPy_eq (g := inputRow c flow L (fun j => near e j && c.input j)) (l := ts) (by
      intro t ht
      rw [rowFrom_eq (F := fun e => (flow.queues e).fn) (hsub t ht) hsubE, ok_bind,
        rowFrom_eq (F := fun e => (L e).fn) (hsub t ht) hsubE, ok_bind]
      rfl), ok_bind]
    rw [← perTime (hm e hem) (inputRow c flow L (fun j => near e j && c.input j)) ts (fun t raw => edgeFn c c.interval t ((flow.queues e).fn t) (clip raw) e)]
    congr 1
    funext out
    refine Builder.mapPy_congr (fun p hp => ?_)
    have hj : rd ((List.range c.edges).filter c.input) (countMask c.input e) = .ok e := by
      rw [rd_eq_ok]
      unfold countMask
      have hsplit : List.range c.edges = List.range e ++ (e :: (List.range' (e + 1) (c.edges - e - 1))) := by
        have h1 : c.edges = e + (c.edges - e - 1 + 1) := by omega
        conv_lhs => rw [h1, List.range_eq_range', ← List.range'_append_1]
        rw [List.range_eq_range', List.range'_succ]
        simp
      rw [hsplit, List.filter_append, List.getElem?_append_right le_rfl, Nat.sub_self, List.filter_cons, if_pos hin]
      rfl
    have ht : p.2 ∈ ts := List.mem_of_getElem? (zip_range_get hp)
    rw [hj, ok_bind, gridOf_eq (List.mem_filter.mpr ⟨he, hin⟩), ok_bind, atTime_eq _ (hsub _ ht _ (mem_pastTimes hpast)), ok_bind]
  · rfl

end Predictors
end Verif
