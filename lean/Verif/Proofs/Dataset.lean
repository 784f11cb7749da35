import Mathlib.Data.List.Induction
import Verif.Spec.Dataset
import Verif.Proofs.PredictML

/-! Lemmas about the training data. -/

namespace Verif.Dataset
open Verif Verif.Spec Verif.Builder

theorem roundPy_near {x : ℚ} {k : Int} (h : |(k : ℚ) - x| < 1 / 2) : roundPy x = k := by
  rw [abs_lt] at h
  unfold roundPy
  rcases le_or_gt (k : ℚ) x with hk | hk
  · have : ⌊x⌋ = k := Int.floor_eq_iff.mpr ⟨hk, by linarith⟩
    rw [this, if_pos (by linarith)]
  · have hf : ⌊x⌋ = k - 1 := Int.floor_eq_iff.mpr ⟨by push_cast; linarith, by push_cast; linarith⟩
    have hq : ((k - 1 : Int) : ℚ) = k - 1 := by push_cast; ring
    rw [hf, hq, if_neg (by linarith), if_pos (by linarith)]
    ring

/-- The number of sampled times. -/
def gridLen (past k : Nat) (reroute horizon : ℚ) : Nat := (⌊horizon / reroute⌋ + 1 + ((past : Int) - 1) * k).toNat

/-- The `j`-th sampled time. -/
def gridTime (past k : Nat) (reroute : ℚ) (j : Nat) : ℚ := ((j : ℚ) - ((past : ℚ) - 1) * k) * reroute

theorem sampleTimes_eq (past k : Nat) {reroute : ℚ} (hr : 0 < reroute) (horizon : ℚ) :
    sampleTimes past k reroute horizon = .ok ((List.range (gridLen past k reroute horizon)).map (gridTime past k reroute)) := by
  unfold sampleTimes
  rw [pyDiv, if_neg (ne_of_gt hr), ok_bind]
  simp only [py_pure, intRange, List.map_map]
  have : (⌊horizon / reroute⌋ + 1 - -((past : Int) - 1) * k).toNat = gridLen past k reroute horizon := by
    unfold gridLen; congr 1; ring
  rw [this]
  congr 1
  refine List.map_congr_left (fun j _ => ?_)
  simp only [Function.comp, gridTime]
  push_cast
  ring

theorem gridTime_sorted (past k : Nat) {reroute : ℚ} (hr : 0 < reroute) (n : Nat) : ((List.range n).map (gridTime past k reroute)).Pairwise (· ≤ ·) := by
  rw [List.pairwise_map]
  refine List.pairwise_lt_range.imp ?_
  intro i j hij
  unfold gridTime
  have : (i : ℚ) ≤ j := by exact_mod_cast hij.le
  exact mul_le_mul_of_nonneg_right (by linarith) hr.le

theorem bound_of {len : Nat} {a : Nat} (h : a ≤ len) : bound len (a : Int) = a := by
  unfold bound
  rw [if_neg (by omega)]
  omega

theorem pySlice_map {α : Type} (G : Nat → α) {T a n s : Nat} {b : Int} (hs : 1 ≤ s) (ha : a + n * s ≤ T + s - 1) (ha' : a ≤ T) (hb : b = (a : Int) + ((n : Int) - 1) * s + 1) (hb0 : 0 ≤ b) :
    pySlice ((List.range T).map G) a b s = .ok ((List.range n).map (fun j => G (a + j * s))) := by
  unfold pySlice
  rw [if_neg (by omega)]
  simp only [List.length_map, List.length_range, Int.toNat_natCast]
  rw [bound_of ha']
  obtain ⟨b', rfl⟩ : ∃ b' : Nat, b = b' := ⟨b.toNat, by omega⟩
  have hcount : (bound T (b' : Int) - a + (s - 1)) / s = n := by
    rcases Nat.eq_zero_or_pos n with rfl | hn
    · have hba : b' ≤ a := by
        have : (b' : Int) = a + 1 - s := by rw [hb]; push_cast; ring
        omega
      rw [bound_of (by omega), Nat.sub_eq_zero_of_le hba, zero_add]
      exact Nat.div_eq_of_lt (by omega)
    · obtain ⟨m, rfl⟩ : ∃ m, n = m + 1 := ⟨n - 1, by omega⟩
      have e1 : b' = a + m * s + 1 := by
        have : (b' : Int) = ((a + m * s + 1 : Nat) : Int) := by rw [hb]; push_cast; ring
        exact_mod_cast this
      have e2 : (m + 1) * s = m * s + s := by ring
      rw [bound_of (by omega), e1]
      have : a + m * s + 1 - a + (s - 1) = (m + 1) * s := by omega
      rw [this]
      exact Nat.mul_div_cancel _ (by omega)
  rw [hcount]
  congr 1
  rw [← List.filterMap_eq_map (f := fun j => G (a + j * s))]
  refine List.filterMap_congr (fun j hj => ?_)
  have hj := List.mem_range.mp hj
  have : (j + 1) * s ≤ n * s := Nat.mul_le_mul_right s hj
  have e : (j + 1) * s = j * s + s := by ring
  rw [List.getElem?_map, List.getElem?_range (by omega)]
  rfl

theorem maskRows_eq {α : Type} (mask : List Bool) {edges : Nat} (hm : mask.length = edges) (R : Nat → α) :
    maskRows mask ((List.range edges).map R) = .ok (((List.range edges).filter (fun e => mask.getD e false)).map R) := by
  unfold maskRows
  rw [if_pos (by simpa using hm)]
  congr 1
  subst hm
  induction mask using List.reverseRecOn with
  | nil => rfl
  | append_singleton l b ih =>
    rw [List.length_append, List.length_singleton, List.range_succ, List.map_append, List.zip_append (by simp), List.filter_append, List.map_append, List.filter_append, List.map_append]
    congr 1
    · rw [ih]
      congr 1
      refine List.filter_congr (fun e he => ?_)
      have he := List.mem_range.mp he
      simp [List.getElem?_append_left he]
    · cases b <;> simp

theorem block_eq (mask : List Bool) {edges : Nat} (hm : mask.length = edges) (F : Nat → ℚ → ℚ) (times : Nat → ℚ) {T a n s : Nat} {b : Int} (hs : 1 ≤ s)
    (ha : a + n * s ≤ T + s - 1) (ha' : a ≤ T) (hb : b = (a : Int) + ((n : Int) - 1) * s + 1) (hb0 : 0 ≤ b) :
    block mask ((List.range edges).map (fun e => ((List.range T).map times).map (F e))) a b s =
      .ok (table F ((List.range edges).filter (fun e => mask.getD e false)) ((List.range n).map (fun j => times (a + j * s)))) := by
  unfold block
  rw [if_neg (by omega), maskRows_eq mask hm, ok_bind]
  rw [show (mapPy (fun r => pySlice r a b s) (((List.range edges).filter (fun e => mask.getD e false)).map (fun e => ((List.range T).map times).map (F e)))) =
      .ok (((List.range edges).filter (fun e => mask.getD e false)).map (fun e => ((List.range n).map (fun j => times (a + j * s))).map (F e))) from ?_]
  · rfl
  · generalize (List.range edges).filter (fun e => mask.getD e false) = l
    induction l with
    | nil => rfl
    | cons e l ih =>
      rw [List.map_cons, mapPy, List.map_map, pySlice_map (F e ∘ times) hs ha ha' hb hb0, ok_bind, ih]
      simp [py_pure, Function.comp_def]

theorem bothMasks_eq {m : List Bool} {edges : Nat} (hm : m.length = edges) {am : Option (List Bool)} (ha : ∀ a, am = some a → a.length = edges) :
    ∃ m', bothMasks m am = .ok m' ∧ m'.length = edges ∧ (List.range edges).filter (fun e => m'.getD e false) = chosen edges m am := by
  cases am with
  | none => exact ⟨m, rfl, hm, by simp [chosen]⟩
  | some a =>
    have := ha a rfl
    refine ⟨List.zipWith (· && ·) m a, by simp [bothMasks, hm, this], by simp [hm, this], ?_⟩
    unfold chosen
    refine List.filter_congr (fun e he => ?_)
    have he := List.mem_range.mp he
    simp [List.getElem?_zipWith, List.getElem?_eq_getElem (show e < m.length by omega), List.getElem?_eq_getElem (show e < a.length by omega)]

/-- The rows of a flow on the sampled times. -/
def rows (edges : Nat) (F : Nat → ℚ → ℚ) (times : List ℚ) : List (List ℚ) := (List.range edges).map (fun e => times.map (F e))

theorem foldl_max_pos : ∀ (r : List ℚ) (a : ℚ), 0 < r.foldl max a ↔ 0 < a ∨ ∃ v ∈ r, 0 < v := by
  intro r
  induction r with
  | nil => intro a; simp
  | cons v r ih =>
    intro a
    rw [List.foldl_cons, ih, lt_max_iff]
    simp only [List.mem_cons, exists_eq_or_imp]
    rw [or_assoc]

theorem maxRows_rows {edges : Nat} {m : List ℚ} (hm : m.length = edges) (F : Nat → ℚ → ℚ) (times : List ℚ) :
    (maxRows m (rows edges F times)).length = edges ∧
      ∀ e < edges, (0 < (maxRows m (rows edges F times)).getD e 0 ↔ 0 < m.getD e 0 ∨ ∃ x ∈ times, 0 < F e x) := by
  unfold maxRows rows
  refine ⟨by simp [hm], fun e he => ?_⟩
  have e1 : (List.zipWith (fun a (r : List ℚ) => r.foldl max a) m ((List.range edges).map (fun e => times.map (F e)))).getD e 0 = (times.map (F e)).foldl max (m.getD e 0) := by
    simp [List.getElem?_zipWith, he, List.getElem?_eq_getElem (show e < m.length by omega)]
  rw [e1, foldl_max_pos]
  simp

/-- The files made from flows with queues `q.1` and loads `q.2`. -/
theorem readFiles_rows {edges T : Nat} (hT : T ≠ 0) {times : List ℚ} (ht : times.length = T) : ∀ (fs : List ((Nat → ℚ → ℚ) × (Nat → ℚ → ℚ))) (a b : List ℚ),
    a.length = edges → b.length = edges → ∃ a' b', readFiles edges T (fs.map (fun q => (rows edges q.1 times, rows edges q.2 times))) a b = .ok (a', b') ∧
      a'.length = edges ∧ b'.length = edges ∧ ∀ e < edges,
        (0 < a'.getD e 0 ↔ 0 < a.getD e 0 ∨ ∃ q ∈ fs, ∃ x ∈ times, 0 < q.1 e x ∨ 0 < q.2 e x) ∧
        (0 < b'.getD e 0 ↔ 0 < b.getD e 0 ∨ ∃ q ∈ fs, ∃ x ∈ times, 0 < q.1 e x) := by
  intro fs
  induction fs with
  | nil => intro a b ha hb; exact ⟨a, b, rfl, ha, hb, fun e _ => by simp⟩
  | cons q fs ih =>
    intro a b ha hb
    obtain ⟨a1, a2⟩ := maxRows_rows ha q.1 times
    obtain ⟨a3, a4⟩ := maxRows_rows a1 q.2 times
    obtain ⟨b1, b2⟩ := maxRows_rows hb q.1 times
    obtain ⟨a', b', h1, h2, h3, h4⟩ := ih _ _ a3 b1
    refine ⟨a', b', ?_, h2, h3, fun e he => ?_⟩
    · rw [List.map_cons, readFiles, if_neg (by simp [shapeOk, rows, ht]), if_neg hT]
      exact h1
    · obtain ⟨h5, h6⟩ := h4 e he
      rw [h5, h6, a4 e he, a2 e he, b2 e he]
      simp only [List.mem_cons, exists_eq_or_imp, or_assoc]
      refine ⟨?_, trivial⟩
      constructor
      · rintro (h | ⟨x, hx, h⟩ | ⟨x, hx, h⟩ | h)
        · exact .inl h
        · exact .inr (.inl ⟨x, hx, .inl h⟩)
        · exact .inr (.inl ⟨x, hx, .inr h⟩)
        · exact .inr (.inr h)
      · rintro (h | ⟨x, hx, h | h⟩ | h)
        · exact .inl h
        · exact .inr (.inl ⟨x, hx, h⟩)
        · exact .inr (.inr (.inl ⟨x, hx, h⟩))
        · exact .inr (.inr (.inr h))

theorem strideOf_eq {past : Nat} {r d h : ℚ} {k : Nat} (hg : Grid past r d h k) : strideOf r d = .ok (k : Int) := by
  unfold strideOf
  rw [pyDiv, if_neg (ne_of_gt hg.pos), ok_bind, py_pure, roundPy_near (k := (k : Int))]
  have := hg.near
  push_cast
  refine lt_of_le_of_lt this ?_
  norm_num

theorem samplesOf_eq {edges past : Nat} {r d h : ℚ} {k : Nat} (hg : Grid past r d h k) {flow : DFlow} {L : Nat → PL} (hf : Predictors.Sees flow edges L) :
    samplesOf edges past h r d flow = .ok (rows edges (fun e => (flow.queues e).fn) ((List.range (gridLen past k r h)).map (gridTime past k r)),
      rows edges (fun e => (L e).fn) ((List.range (gridLen past k r h)).map (gridTime past k r))) := by
  unfold samplesOf
  rw [strideOf_eq hg, ok_bind, pyDiv, if_neg (ne_of_gt hg.pos), ok_bind, if_neg (by have := hg.near; push_cast; exact not_lt.mpr this), sampleTimes_eq past k hg.pos h, ok_bind,
    Predictors.loads_eq hf.load, ok_bind]
  have hsort := gridTime_sorted past k hg.pos (gridLen past k r h)
  rw [Predictors.mapPy_eq (f := fun (l : PL) => l.evalSortedArray ((List.range (gridLen past k r h)).map (gridTime past k r)))
      (g := fun l => ((List.range (gridLen past k r h)).map (gridTime past k r)).map l.fn) (l := (List.range edges).map L) (by
        intro l hl
        obtain ⟨e, he, rfl⟩ := List.mem_map.mp hl
        exact (hf.loads e (List.mem_range.mp he)).array hsort), ok_bind,
    Predictors.mapPy_eq (f := fun e => (flow.queues e).evalSortedArray ((List.range (gridLen past k r h)).map (gridTime past k r)))
      (g := fun e => ((List.range (gridLen past k r h)).map (gridTime past k r)).map (flow.queues e).fn) (l := List.range edges) (by
        intro e he
        exact (hf.queues e (List.mem_range.mp he)).array hsort), ok_bind]
  simp [py_pure, rows]

end Verif.Dataset
