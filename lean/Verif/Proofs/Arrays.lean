import Verif.Model.Arrays
import Verif.Spec.Arrays
import Mathlib.Tactic.Linarith

set_option linter.unusedSimpArgs false

namespace Verif

section Rank
variable {α : Type _} [LinearOrder α]

theorem lt_countP_lt_iff {arr : List α} (hs : arr.Pairwise (· ≤ ·)) (x : α) (i : Nat)
    (h : i < arr.length) : i < arr.countP (· < x) ↔ arr[i] < x := by
  induction arr generalizing i with
  | nil => simp at h
  | cons a l ih =>
    rw [List.pairwise_cons] at hs
    obtain ⟨ha, hl⟩ := hs
    by_cases hax : a < x
    · cases i with
      | zero => simp [List.countP_cons, hax]
      | succ i =>
        have := ih hl i (by simpa using h)
        simp [List.countP_cons, hax, this]
    · have hz : l.countP (· < x) = 0 := by
        rw [List.countP_eq_zero]
        intro b hb
        simpa using le_trans (not_lt.mp hax) (ha b hb)
      cases i with
      | zero => simp [List.countP_cons, hax, hz]
      | succ i =>
        have hi : i < l.length := by simpa using h
        have := ha _ (List.getElem_mem hi)
        simp [List.countP_cons, hax, hz]
        exact le_trans (not_lt.mp hax) this

theorem lt_countP_le_iff {arr : List α} (hs : arr.Pairwise (· ≤ ·)) (x : α) (i : Nat)
    (h : i < arr.length) : i < arr.countP (· ≤ x) ↔ arr[i] ≤ x := by
  induction arr generalizing i with
  | nil => simp at h
  | cons a l ih =>
    rw [List.pairwise_cons] at hs
    obtain ⟨ha, hl⟩ := hs
    by_cases hax : a ≤ x
    · cases i with
      | zero => simp [List.countP_cons, hax]
      | succ i =>
        have := ih hl i (by simpa using h)
        simp [List.countP_cons, hax, this]
    · have hz : l.countP (· ≤ x) = 0 := by
        rw [List.countP_eq_zero]
        intro b hb
        simpa using lt_of_lt_of_le (not_le.mp hax) (ha b hb)
      cases i with
      | zero => simp [List.countP_cons, hax, hz]
      | succ i =>
        have hi : i < l.length := by simpa using h
        have := ha _ (List.getElem_mem hi)
        simp [List.countP_cons, hax, hz]
        exact lt_of_lt_of_le (not_le.mp hax) this

theorem elemRankLoop_eq {arr : List α} (hs : arr.Pairwise (· ≤ ·)) (x : α) :
    ∀ (fuel low high : Nat), low ≤ arr.countP (· < x) → arr.countP (· < x) ≤ high →
      high ≤ arr.length → high - low < fuel →
      elemRankLoop arr x fuel low high = .ok (arr.countP (· < x)) := by
  intro fuel
  induction fuel with
  | zero => intro low high _ _ _ h; omega
  | succ fuel ih =>
    intro low high h1 h2 h3 h4
    unfold elemRankLoop
    by_cases hlt : high > low
    · have hm : (high + low) / 2 < arr.length := by omega
      have key := lt_countP_lt_iff hs x _ hm
      simp only [hlt, if_true, rd_lt _ _ hm, ok_bind]
      by_cases hx : x ≤ arr[(high + low) / 2]
      · rw [if_pos hx]
        have : ¬ (high + low) / 2 < arr.countP (· < x) := by
          rw [key]; exact not_lt.mpr hx
        exact ih _ _ h1 (by omega) (by omega) (by omega)
      · rw [if_neg hx]
        have : (high + low) / 2 < arr.countP (· < x) := by
          rw [key]; exact not_le.mp hx
        exact ih _ _ (by omega) h2 h3 (by omega)
    · rw [if_neg hlt]
      congr 1; omega

theorem elemLrankLoop_eq {arr : List α} (hs : arr.Pairwise (· ≤ ·)) (x : α) :
    ∀ (fuel low high : Nat), low ≤ arr.countP (· ≤ x) → arr.countP (· ≤ x) ≤ high →
      high ≤ arr.length → high - low < fuel →
      elemLrankLoop arr x fuel low high = .ok (arr.countP (· ≤ x)) := by
  intro fuel
  induction fuel with
  | zero => intro low high _ _ _ h; omega
  | succ fuel ih =>
    intro low high h1 h2 h3 h4
    unfold elemLrankLoop
    by_cases hlt : high > low
    · have hm : (high + low) / 2 < arr.length := by omega
      have key := lt_countP_le_iff hs x _ hm
      simp only [hlt, if_true, rd_lt _ _ hm, ok_bind]
      by_cases hx : x < arr[(high + low) / 2]
      · rw [if_pos hx]
        have : ¬ (high + low) / 2 < arr.countP (· ≤ x) := by
          rw [key]; exact not_le.mpr hx
        exact ih _ _ h1 (by omega) (by omega) (by omega)
      · rw [if_neg hx]
        have : (high + low) / 2 < arr.countP (· ≤ x) := by
          rw [key]; exact not_lt.mp hx
        exact ih _ _ (by omega) h2 h3 (by omega)
    · rw [if_neg hlt]
      congr 1; omega

theorem elemRank_eq {arr : List α} (hs : arr.Pairwise (· ≤ ·)) (hne : arr ≠ []) (x : α) :
    elemRank arr x = .ok ((arr.countP (· < x) : Int) - 1) := by
  have h0 : 0 < arr.length := List.length_pos_of_ne_nil hne
  have key := lt_countP_lt_iff hs x 0 h0
  unfold elemRank
  simp only [rd_lt _ _ h0, ok_bind]
  by_cases hx : x ≤ arr[0]
  · rw [if_pos hx]
    have : arr.countP (· < x) = 0 := by
      have : ¬ 0 < arr.countP (· < x) := by rw [key]; exact not_lt.mpr hx
      omega
    simp [this]
  · rw [if_neg hx, elemRankLoop_eq hs x _ _ _ (Nat.zero_le _) (List.countP_le_length) le_rfl (by omega)]
    rfl

theorem elemLrank_eq {arr : List α} (hs : arr.Pairwise (· ≤ ·)) (hne : arr ≠ []) (x : α) :
    elemLrank arr x = .ok ((arr.countP (· ≤ x) : Int) - 1) := by
  have h0 : 0 < arr.length := List.length_pos_of_ne_nil hne
  have key := lt_countP_le_iff hs x 0 h0
  unfold elemLrank
  simp only [rd_lt _ _ h0, ok_bind]
  by_cases hx : x < arr[0]
  · rw [if_pos hx]
    have : arr.countP (· ≤ x) = 0 := by
      have : ¬ 0 < arr.countP (· ≤ x) := by rw [key]; exact not_le.mpr hx
      omega
    simp [this]
  · rw [if_neg hx, elemLrankLoop_eq hs x _ _ _ (Nat.zero_le _) (List.countP_le_length) le_rfl (by omega)]
    rfl

theorem isRank_iff {arr : List α} (hs : arr.Pairwise (· ≤ ·)) (x : α) (r : Int) :
    Spec.IsRank arr x r ↔ r = (arr.countP (· < x) : Int) - 1 := by
  have hle : arr.countP (· < x) ≤ arr.length := List.countP_le_length
  constructor
  · rintro ⟨h1, h2, h3, h4⟩
    have a : r + 1 ≤ arr.countP (· < x) := by
      rcases lt_or_ge r 0 with hr | hr
      · omega
      · obtain ⟨n, rfl⟩ := Int.eq_ofNat_of_zero_le hr
        have hn : n < arr.length := by omega
        have := (lt_countP_lt_iff hs x n hn).mpr (h3 n hn rfl)
        omega
    have b : (arr.countP (· < x) : Int) ≤ r + 1 := by
      obtain ⟨n, hn'⟩ := Int.eq_ofNat_of_zero_le (show 0 ≤ r + 1 by omega)
      by_cases hn : n < arr.length
      · have := (lt_countP_lt_iff hs x n hn).not.mpr (not_lt.mpr (h4 n hn hn'.symm))
        omega
      · omega
    omega
  · rintro rfl
    refine ⟨by omega, by omega, ?_, ?_⟩
    · intro i h hi
      rw [← lt_countP_lt_iff hs x i h]; omega
    · intro i h hi
      rw [← not_lt, ← lt_countP_lt_iff hs x i h]; omega

theorem isLrank_iff {arr : List α} (hs : arr.Pairwise (· ≤ ·)) (x : α) (r : Int) :
    Spec.IsLrank arr x r ↔ r = (arr.countP (· ≤ x) : Int) - 1 := by
  have hle : arr.countP (· ≤ x) ≤ arr.length := List.countP_le_length
  constructor
  · rintro ⟨h1, h2, h3, h4⟩
    have a : r + 1 ≤ arr.countP (· ≤ x) := by
      rcases lt_or_ge r 0 with hr | hr
      · omega
      · obtain ⟨n, rfl⟩ := Int.eq_ofNat_of_zero_le hr
        have hn : n < arr.length := by omega
        have := (lt_countP_le_iff hs x n hn).mpr (h3 n hn rfl)
        omega
    have b : (arr.countP (· ≤ x) : Int) ≤ r + 1 := by
      obtain ⟨n, hn'⟩ := Int.eq_ofNat_of_zero_le (show 0 ≤ r + 1 by omega)
      by_cases hn : n < arr.length
      · have := (lt_countP_le_iff hs x n hn).not.mpr (not_le.mpr (h4 n hn hn'.symm))
        omega
      · omega
    omega
  · rintro rfl
    refine ⟨by omega, by omega, ?_, ?_⟩
    · intro i h hi
      rw [← lt_countP_le_iff hs x i h]; omega
    · intro i h hi
      rw [← not_le, ← lt_countP_le_iff hs x i h]; omega

end Rank

/-! ### merging -/

open Spec

theorem Spec.Climb.mono {e : ℚ} {S S' : List ℚ} (h : ∀ x ∈ S, x ∈ S') {a b : ℚ} (c : Climb e S a b) :
    Climb e S' a b := by
  induction c with
  | refl => exact .refl _
  | up _ hm h1 h2 ih => exact .up ih (h _ hm) h1 h2

theorem Spec.Climb.le {e : ℚ} {S : List ℚ} {a b : ℚ} (c : Climb e S a b) : a ≤ b := by
  induction c with
  | refl => exact le_rfl
  | up _ _ h1 _ ih => exact le_trans ih h1

theorem Spec.IsMerge.perm {e : ℚ} {S S' out : List ℚ} (h : IsMerge e S out) (hp : ∀ x, x ∈ S ↔ x ∈ S') :
    IsMerge e S' out where
  gaps := h.gaps
  sub x hx := (hp x).mp (h.sub x hx)
  absorbed x hx := by
    obtain ⟨y, hy, c⟩ := h.absorbed x ((hp x).mpr hx)
    exact ⟨y, hy, Climb.mono (fun z hz => (hp z).mp hz) c⟩
  maximum l hl x hx := h.maximum l hl x ((hp x).mpr hx)
  empty ho := by
    have := h.empty ho
    subst this
    apply List.eq_nil_iff_forall_not_mem.mpr
    intro a ha
    simpa using (hp a).mpr ha

theorem Spec.IsMerge.nil (e : ℚ) : IsMerge e [] [] where
  gaps := by simp
  sub := by simp
  absorbed := by simp
  maximum := by simp
  empty := by simp

theorem mergePush_isMerge {p out : List ℚ} {v : ℚ} (h : IsMerge eps p out) (hv : ∀ x ∈ p, x ≤ v) :
    IsMerge eps (p ++ [v]) (mergePush out v) := by
  have he := eps_pos
  rcases List.eq_nil_or_concat out with rfl | ⟨o, l, rfl⟩
  · have hp := h.empty rfl
    subst hp
    refine ⟨?_, ?_, ?_, ?_, ?_⟩ <;> simp [mergePush]
    exact .refl _
  · rw [List.concat_eq_append] at h ⊢
    have hlp : l ∈ p := h.sub l (by simp)
    have hlv : l ≤ v := hv l hlp
    have hmax : ∀ x ∈ p, x ≤ l := h.maximum l (by simp)
    have hg := h.gaps
    rw [List.pairwise_append] at hg
    obtain ⟨hg1, _, hg2⟩ := hg
    unfold mergePush
    simp only [List.getLast?_append, List.getLast?_singleton, Option.some_or]
    by_cases h1 : l < v - eps
    · rw [if_pos h1]
      refine ⟨?_, ?_, ?_, ?_, ?_⟩
      · rw [List.pairwise_append]
        refine ⟨h.gaps, by simp, ?_⟩
        intro a ha b hb
        have hbv : b = v := by simpa using hb
        subst hbv
        have := hmax a (h.sub a ha)
        linarith
      · intro x hx
        rw [List.mem_append] at hx ⊢
        rcases hx with hx | hx
        · exact Or.inl (h.sub x hx)
        · exact Or.inr hx
      · intro x hx
        rw [List.mem_append] at hx
        rcases hx with hx | hx
        · obtain ⟨y, hy, c⟩ := h.absorbed x hx
          exact ⟨y, by rw [List.mem_append]; exact Or.inl hy,
            Climb.mono (fun z hz => by rw [List.mem_append]; exact Or.inl hz) c⟩
        · have : x = v := by simpa using hx
          subst this
          exact ⟨x, by simp, .refl _⟩
      · intro m hm x hx
        have : m = v := by simpa using hm.symm
        subst this
        rw [List.mem_append] at hx
        rcases hx with hx | hx
        · exact hv x hx
        · have : x = m := by simpa using hx
          exact le_of_eq this
      · simp
    · rw [if_neg h1]
      by_cases h2 : v - eps ≤ l ∧ l < v
      · rw [if_pos h2, List.dropLast_concat]
        refine ⟨?_, ?_, ?_, ?_, ?_⟩
        · rw [List.pairwise_append]
          refine ⟨hg1, by simp, ?_⟩
          intro a ha b hb
          have hbv : b = v := by simpa using hb
          subst hbv
          have := hg2 a ha l (by simp)
          linarith
        · intro x hx
          rw [List.mem_append] at hx ⊢
          rcases hx with hx | hx
          · exact Or.inl (h.sub x (by simp [hx]))
          · exact Or.inr hx
        · intro x hx
          rw [List.mem_append] at hx
          rcases hx with hx | hx
          · obtain ⟨y, hy, c⟩ := h.absorbed x hx
            have c' := Climb.mono (S' := p ++ [v])
              (fun z hz => by rw [List.mem_append]; exact Or.inl hz) c
            rw [List.mem_append] at hy
            rcases hy with hy | hy
            · exact ⟨y, by rw [List.mem_append]; exact Or.inl hy, c'⟩
            · have : y = l := by simpa using hy
              subst this
              exact ⟨v, by simp, .up c' (by simp) hlv (by linarith [h2.1])⟩
          · have : x = v := by simpa using hx
            subst this
            exact ⟨x, by simp, .refl _⟩
        · intro m hm x hx
          have : m = v := by simpa using hm.symm
          subst this
          rw [List.mem_append] at hx
          rcases hx with hx | hx
          · exact hv x hx
          · have : x = m := by simpa using hx
            exact le_of_eq this
        · simp
      · rw [if_neg h2]
        have hvl : v = l := by
          by_contra hne
          have : l < v := lt_of_le_of_ne hlv (Ne.symm hne)
          exact h2 ⟨not_lt.mp h1, this⟩
        subst hvl
        apply h.perm
        intro x
        simp only [List.mem_append, List.mem_singleton]
        constructor
        · exact Or.inl
        · rintro (hx | rfl)
          · exact hx
          · exact hlp

theorem foldl_mergePush_isMerge {p out zs : List ℚ} (h : IsMerge eps p out)
    (hs : (p ++ zs).Pairwise (· ≤ ·)) : IsMerge eps (p ++ zs) (zs.foldl mergePush out) := by
  induction zs generalizing p out with
  | nil => simpa using h
  | cons v zs ih =>
    have e : p ++ v :: zs = (p ++ [v]) ++ zs := by simp
    rw [List.foldl_cons, e]
    apply ih
    · apply mergePush_isMerge h
      intro x hx
      rw [List.pairwise_append] at hs
      exact hs.2.2 x hx v (by simp)
    · rw [← e]; exact hs

theorem mergeTail_eq (m zs : List ℚ) : mergeTail m zs = zs.foldl mergePush m := by
  induction zs generalizing m with
  | nil => rfl
  | cons v zs ih => simp [mergeTail, ih]

/-- The order in which `merge_sorted` consumes the elements. -/
theorem mergeSortedLoop_eq (m xs ys : List ℚ) (hx : xs.Pairwise (· ≤ ·)) (hy : ys.Pairwise (· ≤ ·)) :
    ∃ zs : List ℚ, zs.Pairwise (· ≤ ·) ∧ zs.Perm (xs ++ ys) ∧
      mergeSortedLoop m xs ys = zs.foldl mergePush m := by
  induction m, xs, ys using mergeSortedLoop.induct with
  | case1 m ys =>
    exact ⟨ys, hy, by simp, by rw [mergeSortedLoop, mergeTail_eq]⟩
  | case2 m xs hne =>
    refine ⟨xs, hx, by simp, ?_⟩
    cases xs with
    | nil => simp [mergeSortedLoop, mergeTail]
    | cons x xs => rw [mergeSortedLoop, mergeTail_eq]; simp
  | case3 m x xs y ys hlt ih =>
    rw [List.pairwise_cons] at hx
    obtain ⟨zs, h1, h2, h3⟩ := ih hx.2 hy
    refine ⟨x :: zs, ?_, ?_, ?_⟩
    · rw [List.pairwise_cons]
      refine ⟨?_, h1⟩
      intro a ha
      have := h2.mem_iff.mp ha
      simp only [List.mem_append, List.mem_cons] at this
      rw [List.pairwise_cons] at hy
      rcases this with h | rfl | h
      · exact hx.1 a h
      · exact le_of_lt hlt
      · exact le_trans (le_of_lt hlt) (hy.1 a h)
    · simpa using h2
    · rw [mergeSortedLoop, if_pos hlt, h3]; simp
  | case4 m x xs y ys hlt ih =>
    rw [List.pairwise_cons] at hy
    obtain ⟨zs, h1, h2, h3⟩ := ih hx hy.2
    have hyx := not_lt.mp hlt
    refine ⟨y :: zs, ?_, ?_, ?_⟩
    · rw [List.pairwise_cons]
      refine ⟨?_, h1⟩
      intro a ha
      have := h2.mem_iff.mp ha
      simp only [List.mem_append, List.mem_cons] at this
      rw [List.pairwise_cons] at hx
      rcases this with (rfl | h) | h
      · exact hyx
      · exact le_trans hyx (hx.1 a h)
      · exact hy.1 a h
    · exact (h2.cons y).trans (by simpa using (List.perm_middle (a := y) (l₁ := x :: xs) (l₂ := ys)).symm)
    · rw [mergeSortedLoop, if_neg hlt, h3]; simp

theorem mergeSorted_isMerge (xs ys : List ℚ) (hx : xs.Pairwise (· ≤ ·)) (hy : ys.Pairwise (· ≤ ·)) :
    IsMerge eps (xs ++ ys) (mergeSorted xs ys) := by
  obtain ⟨zs, h1, h2, h3⟩ := mergeSortedLoop_eq [] xs ys hx hy
  unfold mergeSorted
  rw [h3]
  have := foldl_mergePush_isMerge (zs := zs) (IsMerge.nil eps) (by simpa using h1)
  simp only [List.nil_append] at this
  exact this.perm (fun x => h2.mem_iff)

theorem argMinHead_none {j : Nat} {ls : List (List ℚ)} : argMinHead j ls = none → ls.flatten = [] := by
  induction ls generalizing j with
  | nil => simp
  | cons l ls ih =>
    cases l with
    | nil => simpa [argMinHead] using ih
    | cons x l =>
      simp only [argMinHead]
      split
      · simp
      · split <;> simp

theorem argMinHead_some {j : Nat} {ls : List (List ℚ)} {i : Nat} {v : ℚ}
    (hs : ∀ l ∈ ls, l.Pairwise (· ≤ ·)) (h : argMinHead j ls = some (i, v)) :
    j ≤ i ∧ (∀ x ∈ ls.flatten, v ≤ x) ∧
    (v :: (ls.modify (i - j) List.tail).flatten).Perm ls.flatten := by
  induction ls generalizing j i v with
  | nil => simp [argMinHead] at h
  | cons l ls ih =>
    cases l with
    | nil =>
      simp only [argMinHead] at h
      obtain ⟨h1, h2, h3⟩ := ih (fun l hl => hs l (by simp [hl])) h
      have : i - j = (i - (j + 1)) + 1 := by omega
      refine ⟨by omega, by simpa using h2, ?_⟩
      rw [this]
      simpa using h3
    | cons x l =>
      have hxl := hs (x :: l) (by simp)
      rw [List.pairwise_cons] at hxl
      simp only [argMinHead] at h
      split at h
      · rename_i hn
        have hf := argMinHead_none hn
        simp only [Option.some.injEq, Prod.mk.injEq] at h
        obtain ⟨rfl, rfl⟩ := h
        refine ⟨le_rfl, ?_, by simp⟩
        simp only [List.flatten_cons, hf, List.append_nil, List.mem_cons]
        rintro y (rfl | hy)
        · exact le_rfl
        · exact hxl.1 y hy
      · rename_i i' v' hm
        obtain ⟨h1, h2, h3⟩ := ih (fun l hl => hs l (by simp [hl])) hm
        split at h
        · rename_i hle
          simp only [Option.some.injEq, Prod.mk.injEq] at h
          obtain ⟨rfl, rfl⟩ := h
          refine ⟨le_rfl, ?_, by simp⟩
          simp only [List.flatten_cons, List.mem_append, List.mem_cons]
          rintro y ((rfl | hy) | hy)
          · exact le_rfl
          · exact hxl.1 y hy
          · exact le_trans hle (h2 y hy)
        · rename_i hle
          simp only [Option.some.injEq, Prod.mk.injEq] at h
          obtain ⟨rfl, rfl⟩ := h
          have hlt := not_le.mp hle
          refine ⟨by omega, ?_, ?_⟩
          · simp only [List.flatten_cons, List.mem_append, List.mem_cons]
            rintro y ((rfl | hy) | hy)
            · exact le_of_lt hlt
            · exact le_trans (le_of_lt hlt) (hxl.1 y hy)
            · exact h2 y hy
          · have : i' - j = (i' - (j + 1)) + 1 := by omega
            rw [this]
            simp only [List.modify_succ_cons, List.flatten_cons]
            refine List.Perm.trans ?_ (h3.append_left (x :: l))
            exact (List.perm_middle (a := v') (l₁ := x :: l)).symm

theorem modify_sorted {ls : List (List ℚ)} (hs : ∀ l ∈ ls, l.Pairwise (· ≤ ·)) (i : Nat) :
    ∀ l ∈ ls.modify i List.tail, l.Pairwise (· ≤ ·) := by
  induction ls generalizing i with
  | nil => simp
  | cons a ls ih =>
    cases i with
    | zero =>
      simp only [List.modify_zero_cons, List.mem_cons]
      rintro l (rfl | hl)
      · exact (hs a (by simp)).tail
      · exact hs l (by simp [hl])
    | succ i =>
      simp only [List.modify_succ_cons, List.mem_cons]
      rintro l (rfl | hl)
      · exact hs l (by simp)
      · exact ih (fun l hl => hs l (by simp [hl])) i l hl

theorem mergeManyLoop_eq (fuel : Nat) (m : List ℚ) (ls : List (List ℚ))
    (hs : ∀ l ∈ ls, l.Pairwise (· ≤ ·)) (hf : ls.flatten.length < fuel) :
    ∃ zs : List ℚ, zs.Pairwise (· ≤ ·) ∧ zs.Perm ls.flatten ∧
      mergeManyLoop fuel m ls = .ok (zs.foldl mergePush m) := by
  induction fuel generalizing m ls with
  | zero => omega
  | succ fuel ih =>
    rw [mergeManyLoop]
    split
    · rename_i hn
      have := argMinHead_none hn
      exact ⟨[], by simp, by simp [this], by simp⟩
    · rename_i i v hm
      obtain ⟨_, h2, h3⟩ := argMinHead_some hs hm
      rw [Nat.sub_zero] at h3
      have hlen := h3.length_eq
      simp only [List.length_cons] at hlen
      obtain ⟨zs, a, b, c⟩ := ih (mergePush m v) (ls.modify i List.tail) (modify_sorted hs i) (by omega)
      refine ⟨v :: zs, ?_, ?_, by simpa using c⟩
      · rw [List.pairwise_cons]
        refine ⟨?_, a⟩
        intro x hx
        apply h2
        rw [← h3.mem_iff]
        exact List.mem_cons_of_mem _ (b.mem_iff.mp hx)
      · exact (b.cons v).trans h3

theorem mergeSortedMany_isMerge (ls : List (List ℚ)) (hs : ∀ l ∈ ls, l.Pairwise (· ≤ ·)) :
    ∃ out, mergeSortedMany ls = .ok out ∧ IsMerge eps ls.flatten out := by
  obtain ⟨zs, h1, h2, h3⟩ := mergeManyLoop_eq ((ls.map List.length).sum + 1) [] ls hs
    (by rw [List.length_flatten]; omega)
  refine ⟨_, h3, ?_⟩
  have := foldl_mergePush_isMerge (zs := zs) (IsMerge.nil eps) (by simpa using h1)
  simp only [List.nil_append] at this
  exact this.perm (fun x => h2.mem_iff)

theorem Spec.Climb.eq_of_separated {e : ℚ} {S : List ℚ} (hsep : ∀ a ∈ S, ∀ b ∈ S, a < b → e < b - a)
    {x y : ℚ} (hx : x ∈ S) (c : Climb e S x y) : y = x := by
  induction c with
  | refl => rfl
  | @up b c _ hm h1 h2 ih =>
    subst ih
    rcases lt_or_eq_of_le h1 with h | h
    · have := hsep _ hx _ hm h
      linarith
    · exact h.symm

/-- With separated inputs nothing is lost. -/
theorem Spec.IsMerge.mem_iff {e : ℚ} {S out : List ℚ} (h : IsMerge e S out)
    (hsep : ∀ a ∈ S, ∀ b ∈ S, a < b → e < b - a) (x : ℚ) : x ∈ out ↔ x ∈ S := by
  constructor
  · exact h.sub x
  · intro hx
    obtain ⟨y, hy, c⟩ := h.absorbed x hx
    rwa [Climb.eq_of_separated hsep hx c] at hy

end Verif
