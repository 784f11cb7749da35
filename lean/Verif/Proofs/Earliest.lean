import Verif.Proofs.Trips
import Mathlib.Data.Set.Finite.Lattice
import Mathlib.Data.Set.Finite.Basic
import Mathlib.Order.Interval.Finset.Nat
import Mathlib.Order.Interval.Set.Infinite
import Mathlib.Data.Set.Finite.Lemmas
import Verif.Proofs.Conservation

/-! Earliest arrival times at all nodes, capped at some time, as a potential. -/

namespace Verif
open Verif.Spec
namespace Earliest

variable {g : Graph} {arr : Nat → ℚ → ℚ} {nodes : List Nat}

theorem ride_finite (v k : Nat) : ∀ s t, {y | Ride g arr nodes v k s t y}.Finite := by
  induction k with
  | zero =>
    intro s t
    refine (Set.finite_singleton t).subset ?_
    intro y hy
    cases hy
    rfl
  | succ k ih =>
    intro s t
    have : {y | Ride g arr nodes v (k + 1) s t y} ⊆ ⋃ e ∈ {e | e ∈ g.edges}, {y | Ride g arr nodes v k (g.nodeTo e) (arr e t) y} := by
      intro y hy
      cases hy with
      | drive e he _ h => exact Set.mem_biUnion (show e ∈ {e | e ∈ g.edges} from he) h
    exact (Set.Finite.biUnion (List.finite_toSet g.edges) (fun e _ => ih _ _)).subset this

theorem ride_snoc {e : Nat} (he : e ∈ g.edges) (hv : g.nodeFrom e ∈ nodes) {k : Nat} {s : Nat} {t y : ℚ} (h : Ride g arr nodes (g.nodeFrom e) k s t y) :
    Ride g arr nodes (g.nodeTo e) (k + 1) s t (arr e y) := by
  generalize hw : g.nodeFrom e = w at h
  induction h with
  | here t => subst hw; exact .drive e he hv (.here _)
  | drive e' he' hv' _ ih => exact .drive e' he' hv' ih

theorem potential (hf : Fifo g 0 arr) (hn : ∀ e ∈ g.edges, g.nodeFrom e ∈ nodes) (src : List (Nat × ℚ)) {T : ℚ} (hT : 0 ≤ T) (hs : ∀ p ∈ src, 0 ≤ p.2) :
    ∃ τ : Nat → ℚ, (∀ v, 0 ≤ τ v ∧ τ v ≤ T) ∧ (∀ p ∈ src, τ p.1 ≤ p.2) ∧ (∀ e ∈ g.edges, τ (g.nodeTo e) ≤ arr e (τ (g.nodeFrom e))) ∧
      ∀ v, τ v = T ∨ ∃ p ∈ src, GetsTo g arr nodes v p.1 p.2 (τ v) := by
  have hmin : ∀ v, ∃ x, (x = T ∨ ∃ p ∈ src, ∃ k, k ≤ nodes.length + 1 ∧ Ride g arr nodes v k p.1 p.2 x) ∧ x ≤ T ∧
      ∀ p ∈ src, ∀ k, k ≤ nodes.length + 1 → ∀ y, Ride g arr nodes v k p.1 p.2 y → x ≤ y := by
    intro v
    have hfin : (insert T (⋃ p ∈ {p | p ∈ src}, ⋃ k ∈ Set.Iic (nodes.length + 1), {y | Ride g arr nodes v k p.1 p.2 y})).Finite :=
      (Set.Finite.biUnion (List.finite_toSet src) (fun p _ => Set.Finite.biUnion (Set.finite_Iic _) (fun k _ => ride_finite v k p.1 p.2))).insert T
    obtain ⟨x, hx, hle⟩ := Set.exists_min_image _ id hfin ⟨T, Set.mem_insert _ _⟩
    refine ⟨x, ?_, hle T (Set.mem_insert _ _), fun p hp k hk y hy => hle y (Set.mem_insert_of_mem _ ?_)⟩
    · rcases hx with rfl | hx
      · exact .inl rfl
      · simp only [Set.mem_iUnion, Set.mem_setOf_eq, Set.mem_Iic] at hx
        obtain ⟨p, hp, k, hk, h⟩ := hx
        exact .inr ⟨p, hp, k, hk, h⟩
    · simp only [Set.mem_iUnion, Set.mem_setOf_eq, Set.mem_Iic]
      exact ⟨p, hp, k, hk, hy⟩
  choose τ h1 h2 h3 using hmin
  have hpos : ∀ v, 0 ≤ τ v := by
    intro v
    rcases h1 v with h | ⟨p, hp, k, _, h⟩
    · rw [h]; exact hT
    · obtain ⟨l, hl⟩ := BF.gets_trip ⟨k, h⟩
      exact le_trans (hs p hp) (hl.later hf (hs p hp))
  refine ⟨τ, fun v => ⟨hpos v, h2 v⟩, fun p hp => h3 p.1 p hp 0 (Nat.zero_le _) _ (.here _), ?_, ?_⟩
  · intro e he
    rcases h1 (g.nodeFrom e) with h | ⟨p, hp, k, hk, h⟩
    · rw [h]
      exact le_trans (h2 _) (hf.later e he T hT)
    · obtain ⟨l, hl⟩ := BF.gets_trip ⟨_, ride_snoc he (hn e he) h⟩
      obtain ⟨l', y', a, b, c⟩ := hl.short hf (hs p hp)
      refine le_trans (h3 _ p hp l'.length ?_ y' b.ride) a
      have := List.toFinset_card_le (g.nodeTo e :: nodes)
      rw [List.length_cons] at this
      omega
  · intro v
    exact (h1 v).imp id (fun ⟨p, hp, k, _, h⟩ => ⟨p, hp, k, h⟩)

/-- A ride that ends by `M` only depends on the edges up to `M`. -/
theorem ride_congr {arr' : Nat → ℚ → ℚ} (hf : Fifo g 0 arr) {M : ℚ} (he : ∀ e ∈ g.edges, ∀ t, 0 ≤ t → t ≤ M → arr e t = arr' e t) {v k s : Nat} {t y : ℚ}
    (h : Ride g arr nodes v k s t y) (ht : 0 ≤ t) (hy : y ≤ M) : Ride g arr' nodes v k s t y := by
  induction h with
  | here t => exact .here t
  | @drive k t y e he' hv h ih =>
    have h1 := hf.later e he' t ht
    obtain ⟨l, hl⟩ := BF.gets_trip ⟨_, h⟩
    have h2 := hl.later hf (le_trans ht h1)
    have := ih (le_trans ht h1) hy
    rw [he e he' t ht (by linarith)] at this
    exact .drive e he' hv this

/-- The sum over the sources, node by node. -/
theorem sum_sources_at {nodes : List Nat} (hn : nodes.Nodup) (g : Nat → RC → ℚ) : ∀ (l : List (Nat × RC)), (l.map Prod.fst).Nodup → (∀ p ∈ l, p.1 ∈ nodes) →
    (nodes.map (fun v => match l.lookup v with | none => 0 | some f => g v f)).sum = (l.map (fun p => g p.1 p.2)).sum := by
  intro l
  induction l with
  | nil => intro _ _; simp
  | cons p l ih =>
    obtain ⟨u, f⟩ := p
    intro hd hm
    rw [List.map_cons, List.nodup_cons] at hd
    have hv : ∀ v, (match ((u, f) :: l).lookup v with | none => 0 | some f => g v f) = (if v = u then g u f else 0) + (match l.lookup v with | none => 0 | some f => g v f) := by
      intro v
      rw [List.lookup_cons]
      by_cases h : v = u
      · subst h
        have : l.lookup v = none := List.lookup_eq_none_iff.mpr (fun q hq => by
          have : v ≠ q.1 := fun e => hd.1 (by simp only; rw [e]; exact List.mem_map.mpr ⟨q, hq, rfl⟩)
          simpa using this)
        rw [this]; simp
      · have : (v == u) = false := by simpa using h
        rw [this]; simp [h]
    rw [List.map_congr_left (fun v _ => hv v), List.sum_map_add, Merge.sum_ite_mem hn, if_pos (hm (u, f) (by simp)), ih hd.2 (fun p hp => hm p (by simp [hp]))]
    simp

end Earliest
end Verif
