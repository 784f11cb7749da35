import Verif.Proofs.PredictLinear
import Verif.Proofs.DFlowPast

/-! Proofs on the predictors that use trained models. -/

namespace Verif
open Spec
namespace Predictors
open Builder (mapPy)

theorem repair_length (d : ℚ) : ∀ (l : List ℚ) (c : ℚ), (repair d c l).length = l.length + 1 := by
  intro l
  induction l with
  | nil => intro c; rfl
  | cons v l ih => intro c; unfold repair; simp [ih]

theorem repair_head (d : ℚ) (l : List ℚ) (c : ℚ) : (repair d c l)[0]? = some c := by
  cases l <;> rfl

theorem repair_step (d : ℚ) : ∀ (l : List ℚ) (c : ℚ) (i : Nat) (a b : ℚ), (repair d c l)[i]? = some a → (repair d c l)[i + 1]? = some b → a - b ≤ d := by
  intro l
  induction l with
  | nil => intro c i a b _ h; unfold repair at h; simp at h
  | cons v l ih =>
    intro c i a b ha hb
    unfold repair at ha hb
    cases i with
    | zero =>
      simp only [List.getElem?_cons_zero, Option.some.injEq] at ha
      simp only [List.getElem?_cons_succ] at hb
      rw [repair_head] at hb
      injection hb with hb
      subst ha; rw [← hb]
      have := le_max_right v (c - d)
      linarith
    | succ i =>
      simp only [List.getElem?_cons_succ] at ha hb
      exact ih _ i a b ha hb

theorem repair_nonneg (d : ℚ) : ∀ (l : List ℚ) (c : ℚ), 0 ≤ c → (∀ v ∈ l, 0 ≤ v) → ∀ v ∈ repair d c l, 0 ≤ v := by
  intro l
  induction l with
  | nil => intro c hc _ v hv; unfold repair at hv; simp at hv; rw [hv]; exact hc
  | cons w l ih =>
    intro c hc hl v hv
    unfold repair at hv
    rcases List.mem_cons.mp hv with h | h
    · rw [h]; exact hc
    · exact ih _ (le_trans (hl w (by simp)) (le_max_left _ _)) (fun v hv => hl v (by simp [hv])) v h

theorem clip_nonneg (l : List ℚ) : ∀ v ∈ clip l, 0 ≤ v := by
  intro v hv
  unfold clip at hv
  obtain ⟨w, _, rfl⟩ := List.mem_map.mp hv
  exact le_max_right _ _

theorem slice_nonneg {l : List ℚ} (h : ∀ v ∈ l, 0 ≤ v) (k n : Nat) : ∀ v ∈ slice k n l, 0 ≤ v := by
  intro v hv
  unfold slice at hv
  exact h v (List.mem_of_mem_drop (List.mem_of_mem_take hv))

theorem slice_length {l : List ℚ} {k n m : Nat} (hk : k < m) (h : l.length = m * n) : (slice k n l).length = n := by
  unfold slice
  rw [List.length_take, List.length_drop, h]
  have : (k + 1) * n ≤ m * n := Nat.mul_le_mul_right n hk
  rw [Nat.add_mul] at this
  omega

theorem futureTimes_get {t step : ℚ} {n i : Nat} {x : ℚ} (h : (futureTimes t step n)[i]? = some x) : x = t + i * step ∧ i ≤ n := by
  unfold futureTimes at h
  rw [List.getElem?_map, Option.map_eq_some_iff] at h
  obtain ⟨k, hk, rfl⟩ := h
  obtain ⟨hi, rfl⟩ := List.getElem?_eq_some_iff.mp hk
  rw [List.length_range] at hi
  simp only [List.getElem_range]
  exact ⟨trivial, by omega⟩

theorem futureTimes_length (t step : ℚ) (n : Nat) : (futureTimes t step n).length = n + 1 := by simp [futureTimes]

theorem futureTimes_gap {t step : ℚ} (hs : eps < step) (n : Nat) : (futureTimes t step n).Pairwise (fun a b => a < b - eps) := by
  have h0 := eps_pos
  rw [List.pairwise_iff_getElem]
  intro i j hi hj hij
  have h1 := (futureTimes_get (List.getElem?_eq_getElem hi)).1
  have h2 := (futureTimes_get (List.getElem?_eq_getElem hj)).1
  rw [h1, h2]
  have : (i : ℚ) + 1 ≤ j := by exact_mod_cast hij
  have := mul_le_mul_of_nonneg_right this (by linarith : (0 : ℚ) ≤ step)
  linarith

/-- Whatever the model says, the repaired prediction is physical, for a capacity scaled by interval over step. -/
theorem edgeFn_spec {c : Setup} {step t cur : ℚ} {raw : List ℚ} {e : Nat} {p : PL} (hp : edgeFn c step t cur raw e = .ok p) (hs : 0 < step)
    (hcap : 0 ≤ c.interval * c.capacity e) (hc : 0 ≤ cur) (hraw : ∀ v ∈ raw, 0 ≤ v) :
    p.WF ∧ p.lo = ⊥ ∧ p.hi = ⊤ ∧ (∀ x ∈ p.times, t ≤ x) ∧ Physical (c.interval * c.capacity e / step) t cur p.fn := by
  unfold edgeFn at hp
  obtain ⟨hp, hwf⟩ := PL.new_eq_ok.mp hp
  have hte : p.times = futureTimes t step c.future := by rw [hp]
  have hve : p.values = repair (c.interval * c.capacity e) cur raw := by rw [hp]
  have hfi : p.first = 0 := by rw [hp]
  have hla : p.last = 0 := by rw [hp]

  have h0 : p.times[0]'hwf.pos = t := by
    have : (futureTimes t step c.future)[0]? = some (p.times[0]'hwf.pos) := by rw [← hte]; exact List.getElem?_eq_getElem _
    have := (futureTimes_get this).1
    simpa using this
  have hrate : 0 ≤ c.interval * c.capacity e / step := div_nonneg hcap (le_of_lt hs)
  refine ⟨hwf, by rw [hp], by rw [hp], ?_, ?_, ?_, ?_⟩
  · intro x hx
    rw [← h0]; exact head_le hwf.lt hwf.pos hx
  · have e1 := PL.fn_time hwf 0 hwf.pos
    rw [h0] at e1
    rw [e1]
    have : (repair (c.interval * c.capacity e) cur raw)[0]? = some (p.values[0]'(by rw [hwf.len]; exact hwf.pos)) := by
      rw [← hve]; exact List.getElem?_eq_getElem _
    rw [repair_head] at this
    injection this with this
    exact this.symm
  · intro x hx
    refine PL.fn_nonneg hwf ?_ (by rw [hla]) (by rw [h0]; exact hx)
    rw [hve]
    exact repair_nonneg _ _ _ hc hraw
  · intro x y _ hxy
    refine PL.fn_drain hwf ?_ (by rw [hfi]; linarith) (by rw [hla]; linarith) hxy
    intro i s u a b g1 g2 g3 g4
    rw [hte] at g1 g2
    rw [hve] at g3 g4
    rw [(futureTimes_get g1).1, (futureTimes_get g2).1]
    have := repair_step _ _ _ i a b g3 g4
    push_cast
    have e : c.interval * c.capacity e / step * (t + (↑i + 1) * step - (t + ↑i * step)) = c.interval * c.capacity e := by
      have : step ≠ 0 := ne_of_gt hs
      field_simp
      ring
    rw [e]; exact this

theorem edgeFn_ok {c : Setup} {step t cur : ℚ} {raw : List ℚ} {e : Nat} (hs : eps < step) (hl : raw.length = c.future) :
    ∃ p, edgeFn c step t cur raw e = .ok p := by
  unfold edgeFn
  exact ⟨_, PL.new_ok ⟨by simp [repair_length, hl, futureTimes_length], by simp [futureTimes], futureTimes_gap hs _, fun _ _ => ⟨bot_le, le_top⟩⟩⟩

/-- Functions that are valid and defined everywhere. -/
structure Total (p : PL) : Prop where
  wf : p.WF
  lo : p.lo = ⊥
  hi : p.hi = ⊤

theorem Total.eval {p : PL} (h : Total p) (x : ℚ) : p.eval x = .ok (p.fn x) := PL.evals h.wf h.lo h.hi x

theorem Total.inDom {p : PL} (h : Total p) (x : ℚ) : p.inDom x := DFlow.inDom_all h.lo h.hi x

theorem Total.array {p : PL} (h : Total p) {xs : List ℚ} (hs : xs.Pairwise (· ≤ ·)) : p.evalSortedArray xs = .ok (xs.map p.fn) :=
  PL.evalSortedArray_eq h.wf xs hs (fun x _ => h.inDom x)

theorem pastTimes_sorted {t step : ℚ} (hs : 0 ≤ step) (n : Nat) : (pastTimes t step n).Pairwise (· ≤ ·) := by
  unfold pastTimes
  rw [List.pairwise_map]
  refine List.pairwise_lt_range.imp ?_
  intro i j hij
  have : (i : ℚ) ≤ j := by exact_mod_cast le_of_lt hij
  have := mul_le_mul_of_nonneg_right (by linarith : (i : ℚ) - n + 1 ≤ j - n + 1) hs
  linarith

theorem pastTimes_le {t step : ℚ} (hs : 0 ≤ step) {n : Nat} {x : ℚ} (hx : x ∈ pastTimes t step n) : x ≤ t := by
  unfold pastTimes at hx
  obtain ⟨i, hi, rfl⟩ := List.mem_map.mp hx
  have : (i : ℚ) + 1 ≤ n := by exact_mod_cast List.mem_range.mp hi
  have := mul_nonneg (by linarith : (0 : ℚ) ≤ n - i - 1) hs
  linarith

theorem mem_pastTimes {t step : ℚ} {n : Nat} (hn : 1 ≤ n) : t ∈ pastTimes t step n := by
  unfold pastTimes
  refine List.mem_map.mpr ⟨n - 1, List.mem_range.mpr (by omega), ?_⟩
  have : ((n - 1 : Nat) : ℚ) = n - 1 := by push_cast [hn]; ring
  rw [this]; ring

/-- The rows that the models see. -/
def rowOf (F : Nat → ℚ → ℚ) (times : List ℚ) (edges : List Nat) : List ℚ := (edges.map (fun e => times.map (F e))).flatten

theorem mapPy_eq {α β : Type} {f : α → Py β} {g : α → β} : ∀ {l : List α}, (∀ a ∈ l, f a = .ok (g a)) → mapPy f l = .ok (l.map g) := by
  intro l
  induction l with
  | nil => intro _; rfl
  | cons a l ih =>
    intro h
    unfold mapPy
    rw [h a (by simp), ok_bind, ih (fun a ha => h a (by simp [ha])), ok_bind]; rfl

theorem rowsOf_eq {mask : Nat → Bool} {f : Nat → Py PL} {p : Nat → PL} {times : List ℚ} {edges : List Nat} (hf : ∀ e ∈ edges, f e = .ok (p e))
    (hp : ∀ e ∈ edges, Total (p e)) (hs : times.Pairwise (· ≤ ·)) :
    rowsOf mask f times edges = .ok (rowOf (fun e => (p e).fn) times (edges.filter mask)) := by
  unfold rowsOf
  rw [mapPy_eq (g := fun e => times.map (p e).fn) (by
    intro e he
    have he := (List.mem_filter.mp he).1
    rw [hf e he, ok_bind, (hp e he).array hs]), ok_bind]
  rfl

theorem loads_eq {m : Nat} {flow : DFlow} {L : Nat → PL} (hl : ∀ e < m, flow.edgeLoad e = .ok (L e)) :
    mapPy flow.edgeLoad (List.range m) = .ok ((List.range m).map L) :=
  mapPy_eq (fun e he => hl e (List.mem_range.mp he))

theorem rd_loads {m : Nat} (L : Nat → PL) {e : Nat} (he : e < m) : rd ((List.range m).map L) e = .ok (L e) := by
  rw [rd_lt _ _ (by simpa using he)]; simp

/-- What the predictors see of a flow: its queues and loads. -/
structure Sees (flow : DFlow) (m : Nat) (L : Nat → PL) : Prop where
  queues : ∀ e < m, Total (flow.queues e)
  load : ∀ e < m, flow.edgeLoad e = .ok (L e)
  loads : ∀ e < m, Total (L e)

/-- `fullNet` on a flow it can read. -/
theorem fullNet_eq {c : Setup} {model : List (List ℚ) → Py (List (List ℚ))} {t : ℚ} {flow : DFlow} {L : Nat → PL} (h : Sees flow c.edges L)
    (hs : 0 ≤ c.interval) :
    (fullNet c model).predict t flow = (do
      let out ← model [t :: (rowOf (fun e => (flow.queues e).fn) (pastTimes t c.interval c.past) ((List.range c.edges).filter c.input) ++
        rowOf (fun e => (L e).fn) (pastTimes t c.interval c.past) ((List.range c.edges).filter c.input))]
      let raw ← rd out 0
      mapPy (fun e => if c.output e then edgeFn c c.interval t ((flow.queues e).fn t) (slice (countMask c.output e) c.future (clip raw)) e
        else pure ⟨[t], [0], 0, 0, ⊥, ⊤⟩) (List.range c.edges)) := by
  unfold fullNet
  simp only
  have hps := pastTimes_sorted (t := t) hs c.past
  rw [PL.new_ok (PL.wf_const t 0), ok_bind, loads_eq h.load, ok_bind,
    rowsOf_eq (p := flow.queues) (fun e _ => rfl) (fun e he => h.queues e (List.mem_range.mp he)) hps, ok_bind,
    rowsOf_eq (p := L) (fun e he => rd_loads L (List.mem_range.mp he)) (fun e he => h.loads e (List.mem_range.mp he)) hps, ok_bind]
  congr 1
  funext out
  congr 1
  funext raw
  refine Builder.mapPy_congr (fun e he => ?_)
  split
  · rw [(h.queues e (List.mem_range.mp he)).eval t, ok_bind]
  · rfl

/-- `neighborhood` on a flow it can read. -/
theorem neighborhood_eq {c : Setup} {near : Nat → Nat → Bool} {models : Nat → List (List ℚ) → Py (List (List ℚ))} {t : ℚ} {flow : DFlow} {L : Nat → PL}
    (h : Sees flow c.edges L) (hs : 0 ≤ c.interval) :
    (neighborhood c near models).predict t flow = mapPy (fun e => if c.output e then (do
      let out ← models e [t :: (rowOf (fun e => (flow.queues e).fn) (pastTimes t c.interval c.past) ((List.range c.edges).filter (fun j => near e j && c.input j)) ++
        rowOf (fun e => (L e).fn) (pastTimes t c.interval c.past) ((List.range c.edges).filter (fun j => near e j && c.input j)))]
      let raw ← rd out 0
      edgeFn c 1 t ((flow.queues e).fn t) (clip raw) e) else pure ⟨[t], [0], 0, 0, ⊥, ⊤⟩) (List.range c.edges) := by
  unfold neighborhood
  simp only
  have hps := pastTimes_sorted (t := t) hs c.past
  rw [PL.new_ok (PL.wf_const t 0), ok_bind, loads_eq h.load, ok_bind]
  refine Builder.mapPy_congr (fun e he => ?_)
  split
  · rw [rowsOf_eq (p := flow.queues) (fun e _ => rfl) (fun e he => h.queues e (List.mem_range.mp he)) hps, ok_bind,
      rowsOf_eq (p := L) (fun e he => rd_loads L (List.mem_range.mp he)) (fun e he => h.loads e (List.mem_range.mp he)) hps, ok_bind]
    congr 1
    funext out
    congr 1
    funext raw
    rw [(h.queues e (List.mem_range.mp he)).eval t, ok_bind]
  · rfl

end Predictors
end Verif
