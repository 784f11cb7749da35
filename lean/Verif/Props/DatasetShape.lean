import Verif.Props.Dataset

/-! Property theorem C61, files of the wrong shape (src/ml/QueueAndEdgeLoadsDataset.py:58-72). -/

namespace Verif.Props
open Verif Spec Dataset Builder

/-- The number of sampled times: the multiples of `r` from `-(past - 1) * stride * r` to the horizon `h`, where `stride` is `d / r`, rounded. -/
def timesCount (past : Nat) (r d h : ℚ) : Nat := (⌊h / r⌋ + 1 - -((past : Int) - 1) * roundPy (d / r)).toNat

/-- A row for each of the `edges` roads in both tables, and `n` values in each row. -/
def HasShape (edges n : Nat) (d : Samples) : Prop := d.1.length = edges ∧ d.2.length = edges ∧ (∀ row ∈ d.1, row.length = n) ∧ ∀ row ∈ d.2, row.length = n

theorem shapeOk_iff {edges n : Nat} {d : Samples} : shapeOk edges n d = true ↔ HasShape edges n d := by
  unfold shapeOk HasShape
  simp only [Bool.and_eq_true, decide_eq_true_eq, List.all_eq_true, and_assoc]

theorem readFiles_shape {edges n : Nat} : ∀ (files : List Samples) (a b : List ℚ), (¬ ∀ d ∈ files, HasShape edges n d) ∨ (files ≠ [] ∧ n = 0) → readFiles edges n files a b = .error .value := by
  intro files
  induction files with
  | nil => intro a b h; simp at h
  | cons d ds ih =>
    intro a b h
    unfold readFiles
    split
    · rfl
    · next hs =>
      split
      · rfl
      · next hn =>
        have hd : HasShape edges n d := shapeOk_iff.mp (by simpa using hs)
        refine ih _ _ ?_
        rcases h with h | h
        · left
          intro h'
          exact h fun x hx => by
            rcases List.mem_cons.mp hx with rfl | hx
            · exact hd
            · exact h' x hx
        · exact absurd h.2 hn

theorem readFiles_fits {edges n : Nat} (hn : n ≠ 0) : ∀ (files : List Samples) (a b : List ℚ), (∀ d ∈ files, HasShape edges n d) → ∃ p, readFiles edges n files a b = .ok p := by
  intro files
  induction files with
  | nil => intro a b _; exact ⟨_, rfl⟩
  | cons d ds ih =>
    intro a b h
    unfold readFiles
    rw [if_neg (by rw [shapeOk_iff.mpr (h d List.mem_cons_self)]; simp), if_neg hn]
    exact ih _ _ fun x hx => h x (List.mem_cons_of_mem _ hx)

theorem round_near (x : ℚ) : |x - roundPy x| < 1 / 2 ∨ (|x - roundPy x| = 1 / 2 ∧ Even (roundPy x)) := by
  have h1 := Int.floor_le x
  have h2 := Int.lt_floor_add_one x
  unfold roundPy
  split
  · rename_i h
    left; rw [abs_of_nonneg (by linarith)]; exact h
  · rename_i h
    split
    · rename_i h'
      left; push_cast; rw [abs_of_nonpos (by linarith)]; linarith
    · rename_i h'
      have he : x - ⌊x⌋ = 1 / 2 := le_antisymm (not_lt.mp h') (not_lt.mp h)
      right
      split
      · rename_i hm
        exact ⟨by rw [he, abs_of_nonneg (by norm_num)], Int.even_iff.mpr hm⟩
      · rename_i hm
        refine ⟨?_, Int.even_iff.mpr (by omega)⟩
        push_cast
        rw [show x - ((⌊x⌋ : ℚ) + 1) = -(1 / 2) by linarith, abs_neg, abs_of_nonneg (by norm_num)]

theorem round_unique {x : ℚ} {k l : Int} (hk : |x - k| < 1 / 2 ∨ (|x - k| = 1 / 2 ∧ Even k)) (hl : |x - l| < 1 / 2 ∨ (|x - l| = 1 / 2 ∧ Even l)) : k = l := by
  have habs : |(k : ℚ) - l| ≤ |x - l| + |x - k| := by
    have := abs_sub (x - l) (x - k)
    rwa [show x - l - (x - k) = k - l by ring] at this
  have hle : |k - l| ≤ 1 := by
    have : |(k : ℚ) - l| ≤ 1 := by
      rcases hk with hk | hk <;> rcases hl with hl | hl <;> [linarith; linarith [hl.1]; linarith [hk.1]; linarith [hk.1, hl.1]]
    exact_mod_cast this
  have hlt : (|x - k| < 1 / 2 ∨ |x - l| < 1 / 2) → k = l := by
    intro h
    have : |(k : ℚ) - l| < 1 := by
      rcases hk with hk | hk <;> rcases hl with hl | hl
      · linarith
      · linarith [hl.1]
      · linarith [hk.1]
      · rcases h with h | h <;> [(rw [hk.1] at h; exact absurd h (lt_irrefl _)); (rw [hl.1] at h; exact absurd h (lt_irrefl _))]
    have h' : |k - l| < 1 := by exact_mod_cast this
    rw [Int.abs_lt_one_iff] at h'
    omega
  rcases hk with hk | ⟨_, hk⟩
  · exact hlt (Or.inl hk)
  rcases hl with hl | ⟨_, hl⟩
  · exact hlt (Or.inr hl)
  obtain ⟨a, ha⟩ := hk
  obtain ⟨b, hb⟩ := hl
  rw [abs_le] at hle
  omega

/-- **C61**: the stride is the integer next to `prediction_interval / reroute_interval`, the even one if two are equally near. -/
theorem C61_stride {r : ℚ} (hr : r ≠ 0) (d : ℚ) (k : Int) :
    strideOf r d = .ok k ↔ |d / r - k| < 1 / 2 ∨ (|d / r - k| = 1 / 2 ∧ Even k) := by
  have hs : strideOf r d = .ok (roundPy (d / r)) := by unfold strideOf; rw [pyDiv, if_neg hr, ok_bind]; rfl
  rw [hs, Except.ok.injEq]
  exact ⟨fun h => h ▸ round_near _, fun h => round_unique (round_near _) h⟩

/-- Ties: 5/2 and 3/2 both give 2. -/
example : strideOf 2 5 = .ok 2 ∧ strideOf 2 3 = .ok 2 := by decide +kernel

/-- **C61**: a data set is made if and only if there is a file, there is a time, and all files have the same shape, given by the numbers of roads and times; otherwise `ValueError` is raised. -/
theorem C61_shape (edges past future : Nat) {r : ℚ} (hr : r ≠ 0) (d h : ℚ) (files : List Samples) :
    (files ≠ [] ∧ timesCount past r d h ≠ 0 ∧ (∀ f ∈ files, HasShape edges (timesCount past r d h) f) → ∃ D, Dataset.new edges past future r d h files = .ok D) ∧
    (¬ (files ≠ [] ∧ timesCount past r d h ≠ 0 ∧ ∀ f ∈ files, HasShape edges (timesCount past r d h) f) → Dataset.new edges past future r d h files = .error .value) := by
  have hs : strideOf r d = .ok (roundPy (d / r)) := by unfold strideOf; rw [pyDiv, if_neg hr, ok_bind]; rfl
  obtain ⟨times, ht, hl⟩ : ∃ times, sampleTimes past (roundPy (d / r)) r h = .ok times ∧ times.length = timesCount past r d h := by
    unfold sampleTimes
    rw [pyDiv, if_neg hr, ok_bind]
    exact ⟨_, rfl, by simp [intRange, timesCount]⟩
  have hnew : Dataset.new edges past future r d h files = (if files.isEmpty then .error .value
      else do
        let (a, b) ← readFiles edges times.length files (List.replicate edges 0) (List.replicate edges 0)
        pure { past := past, future := future, reroute := r, stride := roundPy (d / r),
               samplesPerFlow := (times.length : Int) - roundPy (d / r) * ((past : Int) + future), data := files,
               inputMask := a.map (fun v => decide (0 < v)), outputMask := b.map (fun v => decide (0 < v)),
               addInput := none, addOutput := none }) := by
    unfold Dataset.new
    rw [hs, ok_bind, ht, ok_bind]
  constructor
  · rintro ⟨h1, h2, h3⟩
    obtain ⟨p, hp⟩ := readFiles_fits (n := times.length) (by rw [hl]; exact h2) files (List.replicate edges 0) (List.replicate edges 0) (by rw [hl]; exact h3)
    rw [hnew, if_neg (by simpa using h1), hp, ok_bind]
    exact ⟨_, rfl⟩
  · intro hno
    rw [hnew]
    by_cases he : files = []
    · subst he; rfl
    · rw [if_neg (by simpa using he), readFiles_shape]
      · rfl
      · by_cases hn : timesCount past r d h = 0
        · exact .inr ⟨he, by rw [hl]; exact hn⟩
        · refine .inl fun hall => hno ⟨he, hn, ?_⟩
          rw [← hl]; exact hall

example : ∃ files : List Samples, files ≠ [] ∧ timesCount 2 1 1 2 = 4 ∧ (∀ f ∈ files, HasShape 1 4 f) ∧ ¬ HasShape 1 4 ([[0, 0, 1]], [[0, 0, 1, 2]]) :=
  ⟨[([[0, 0, 1, 2]], [[0, 0, 2, 3]])], by simp, by decide +kernel, by simp [HasShape], by simp [HasShape]⟩

end Verif.Props
