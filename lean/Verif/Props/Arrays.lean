import Verif.Proofs.Arrays
import Mathlib.Data.Finset.Sort

/-! Property theorems C01–C04 (src/utilities/arrays.py). -/

namespace Verif.Props
open Verif Verif.Spec

section
variable {α : Type _} [LinearOrder α]

/-- C01: on every non-empty non-decreasing list `elem_rank` returns (no `IndexError`, the loop
terminates), and it returns `r` exactly when `r` is the strict rank. -/
theorem C01_elem_rank (arr : List α) (hs : arr.Pairwise (· ≤ ·)) (hne : arr ≠ []) (x : α) :
    (∃ r, elemRank arr x = .ok r) ∧ ∀ r, elemRank arr x = .ok r ↔ IsRank arr x r := by
  refine ⟨⟨_, elemRank_eq hs hne x⟩, fun r => ?_⟩
  rw [elemRank_eq hs hne x, isRank_iff hs]
  constructor
  · intro h; injection h with h; exact h.symm
  · rintro rfl; rfl

/-- C01, error branch: the empty list is rejected with `IndexError`. -/
theorem C01_elem_rank_empty (x : α) : elemRank [] x = .error .index := rfl

/-- C02: as C01 for `elem_lrank`. -/
theorem C02_elem_lrank (arr : List α) (hs : arr.Pairwise (· ≤ ·)) (hne : arr ≠ []) (x : α) :
    (∃ r, elemLrank arr x = .ok r) ∧ ∀ r, elemLrank arr x = .ok r ↔ IsLrank arr x r := by
  refine ⟨⟨_, elemLrank_eq hs hne x⟩, fun r => ?_⟩
  rw [elemLrank_eq hs hne x, isLrank_iff hs]
  constructor
  · intro h; injection h with h; exact h.symm
  · rintro rfl; rfl

theorem C02_elem_lrank_empty (x : α) : elemLrank [] x = .error .index := rfl

end

example : ([1, 3, 5] : List Nat).Pairwise (· ≤ ·) ∧ elemRank [1, 3, 5] 3 = .ok 0 ∧
    elemLrank [1, 3, 5] 3 = .ok 1 := by decide

/-- C03: for any two non-decreasing lists the merge has gaps larger than eps, contains only input
elements, absorbs every input element upwards in steps of at most eps and keeps the maximum. -/
theorem C03_merge_sorted (xs ys : List ℚ) (hx : xs.Pairwise (· ≤ ·)) (hy : ys.Pairwise (· ≤ ·)) :
    IsMerge eps (xs ++ ys) (mergeSorted xs ys) :=
  mergeSorted_isMerge xs ys hx hy

theorem eq_sort_of_isMerge {S out : List ℚ} (h : IsMerge eps S out)
    (hsep : ∀ a ∈ S, ∀ b ∈ S, a < b → eps < b - a) : out = S.toFinset.sort (· ≤ ·) := by
  have hlt : out.Pairwise (· < ·) := h.gaps.imp (fun {a b} hab => by
    have := eps_pos; linarith)
  apply List.Perm.eq_of_pairwise (le := (· ≤ ·))
  · intro a b _ _ h1 h2; exact le_antisymm h1 h2
  · exact hlt.imp le_of_lt
  · exact Finset.pairwise_sort _ _
  · rw [List.perm_ext_iff_of_nodup (hlt.imp ne_of_lt) (Finset.sort_nodup _ _)]
    intro a
    rw [h.mem_iff hsep, Finset.mem_sort, List.mem_toFinset]

/-- C03, exact case: if distinct elements are more than eps apart the result is the sorted
duplicate-free union. -/
theorem C03_merge_sorted_exact (xs ys : List ℚ) (hx : xs.Pairwise (· ≤ ·)) (hy : ys.Pairwise (· ≤ ·))
    (hsep : ∀ a ∈ xs ++ ys, ∀ b ∈ xs ++ ys, a < b → eps < b - a) :
    mergeSorted xs ys = (xs ++ ys).toFinset.sort (· ≤ ·) :=
  eq_sort_of_isMerge (C03_merge_sorted xs ys hx hy) hsep

example : ([1, 2, 3] : List ℚ).Pairwise (· ≤ ·) ∧ ([2, 4] : List ℚ).Pairwise (· ≤ ·) ∧
    ∀ a ∈ ([1, 2, 3] ++ [2, 4] : List ℚ), ∀ b ∈ ([1, 2, 3] ++ [2, 4] : List ℚ), a < b → eps < b - a := by
  decide +kernel

/-- C04: `merge_sorted_many` terminates without error on any collection of non-decreasing lists and
merges all of them. -/
theorem C04_merge_sorted_many (ls : List (List ℚ)) (hs : ∀ l ∈ ls, l.Pairwise (· ≤ ·)) :
    ∃ out, mergeSortedMany ls = .ok out ∧ IsMerge eps ls.flatten out :=
  mergeSortedMany_isMerge ls hs

theorem C04_merge_sorted_many_exact (ls : List (List ℚ)) (hs : ∀ l ∈ ls, l.Pairwise (· ≤ ·))
    (hsep : ∀ a ∈ ls.flatten, ∀ b ∈ ls.flatten, a < b → eps < b - a) :
    mergeSortedMany ls = .ok (ls.flatten.toFinset.sort (· ≤ ·)) := by
  obtain ⟨out, h1, h2⟩ := C04_merge_sorted_many ls hs
  rw [h1, eq_sort_of_isMerge h2 hsep]

theorem C04_merge_sorted_many_empty : mergeSortedMany [] = .ok [] := rfl

example : (∀ l ∈ ([[1, 2], [], [2, 3]] : List (List ℚ)), l.Pairwise (· ≤ ·)) ∧
    mergeSortedMany [[1, 2], [], [2, 3]] = .ok [1, 2, 3] := by decide +kernel

end Verif.Props
