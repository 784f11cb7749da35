import Verif.Spec.Trips
import Mathlib.Data.Finset.Card
import Mathlib.Data.List.Basic
import Mathlib.Tactic.Linarith

/-! Trips: shortening. -/

namespace Verif
open Verif.Spec
namespace BF

variable {g : Graph} {arr : Nat → ℚ → ℚ} {nodes : List Nat} {sink : Nat} {phi : ℚ}

/-- A trip with the list of the tails of its edges. -/
inductive Trip (g : Graph) (arr : Nat → ℚ → ℚ) (nodes : List Nat) (sink : Nat) : List Nat → Nat → ℚ → ℚ → Prop
  | here (t : ℚ) : Trip g arr nodes sink [] sink t t
  | drive {l : List Nat} {t y : ℚ} (e : Nat) (he : e ∈ g.edges) (hv : g.nodeFrom e ∈ nodes) (h : Trip g arr nodes sink l (g.nodeTo e) (arr e t) y) :
      Trip g arr nodes sink (g.nodeFrom e :: l) (g.nodeFrom e) t y

theorem Trip.ride {l : List Nat} {v : Nat} {t y : ℚ} (h : Trip g arr nodes sink l v t y) : Ride g arr nodes sink l.length v t y := by
  induction h with
  | here t => exact .here t
  | drive e he hv _ ih => exact .drive e he hv ih

theorem Trip.gets {l : List Nat} {v : Nat} {t y : ℚ} (h : Trip g arr nodes sink l v t y) : GetsTo g arr nodes sink v t y := ⟨_, h.ride⟩

theorem gets_trip {v : Nat} {t y : ℚ} (h : GetsTo g arr nodes sink v t y) : ∃ l, Trip g arr nodes sink l v t y := by
  obtain ⟨n, h⟩ := h
  induction h with
  | here t => exact ⟨[], .here t⟩
  | drive e he hv _ ih => obtain ⟨l, h⟩ := ih; exact ⟨_, .drive e he hv h⟩

theorem Trip.later (hf : Fifo g phi arr) {l : List Nat} {v : Nat} {t y : ℚ} (h : Trip g arr nodes sink l v t y) (ht : phi ≤ t) : t ≤ y := by
  induction h with
  | here t => exact le_refl _
  | drive e he hv _ ih =>
    have := hf.later e he _ ht
    exact le_trans this (ih (le_trans ht this))

theorem Trip.earlier (hf : Fifo g phi arr) {l : List Nat} {v : Nat} {t y : ℚ} (h : Trip g arr nodes sink l v t y) : ∀ s, phi ≤ s → s ≤ t →
    ∃ y', y' ≤ y ∧ Trip g arr nodes sink l v s y' := by
  induction h with
  | here t => intro s _ h; exact ⟨s, h, .here s⟩
  | drive e he hv _ ih =>
    intro s hs hst
    obtain ⟨y', h1, h2⟩ := ih (arr e s) (le_trans hs (hf.later e he s hs)) (hf.order e he s _ hs hst)
    exact ⟨y', h1, .drive e he hv h2⟩

theorem Trip.suffix (hf : Fifo g phi arr) {l : List Nat} {v : Nat} {t y : ℚ} (h : Trip g arr nodes sink l v t y) (ht : phi ≤ t) : ∀ u ∈ l,
    ∃ l' s, l' <:+ l ∧ t ≤ s ∧ Trip g arr nodes sink l' u s y := by
  induction h with
  | here t => intro u hu; cases hu
  | @drive l t y e he hv h ih =>
    intro u hu
    rcases List.mem_cons.mp hu with rfl | hu
    · exact ⟨_, t, List.suffix_refl _, le_refl _, .drive e he hv h⟩
    · have h1 := hf.later e he t ht
      obtain ⟨l', s, a, b, c⟩ := ih (le_trans ht h1) u hu
      exact ⟨l', s, a.trans (List.suffix_cons _ _), le_trans h1 b, c⟩

/-- Every trip can be replaced by one without repeated nodes that is not later. -/
theorem Trip.shorten (hf : Fifo g phi arr) {l : List Nat} {v : Nat} {t y : ℚ} (h : Trip g arr nodes sink l v t y) (ht : phi ≤ t) :
    ∃ l' y', y' ≤ y ∧ Trip g arr nodes sink l' v t y' ∧ l'.Nodup ∧ sink ∉ l' ∧ ∀ u ∈ l', u ∈ nodes := by
  induction h with
  | here t => exact ⟨[], t, le_refl _, .here t, List.nodup_nil, by simp, by simp⟩
  | @drive l t y e he hv h ih =>
    have h1 := hf.later e he t ht
    obtain ⟨l', y', a, b, c, d, d'⟩ := ih (le_trans ht h1)
    by_cases hs : g.nodeFrom e = sink
    · rw [hs]
      exact ⟨[], t, le_trans h1 (le_trans (b.later hf (le_trans ht h1)) a), .here t, List.nodup_nil, by simp, by simp⟩
    by_cases hm : g.nodeFrom e ∈ l'
    · obtain ⟨l'', s, e1, e2, e3⟩ := b.suffix hf (le_trans ht h1) _ hm
      obtain ⟨y'', f1, f2⟩ := e3.earlier hf t ht (le_trans h1 e2)
      exact ⟨l'', y'', le_trans f1 a, f2, c.sublist e1.sublist, fun h => d (e1.subset h), fun u hu => d' u (e1.subset hu)⟩
    · refine ⟨_, y', a, .drive e he hv b, List.nodup_cons.mpr ⟨hm, c⟩, ?_, ?_⟩
      · intro h
        rcases List.mem_cons.mp h with h | h
        · exact hs h.symm
        · exact d h
      · intro u hu
        rcases List.mem_cons.mp hu with rfl | hu
        · exact hv
        · exact d' u hu

theorem Trip.short (hf : Fifo g phi arr) {l : List Nat} {v : Nat} {t y : ℚ} (h : Trip g arr nodes sink l v t y) (ht : phi ≤ t) :
    ∃ l' y', y' ≤ y ∧ Trip g arr nodes sink l' v t y' ∧ l'.length < (sink :: nodes).toFinset.card := by
  obtain ⟨l', y', a, b, c, d, d'⟩ := h.shorten hf ht
  refine ⟨l', y', a, b, ?_⟩
  have h1 : (sink :: l').Nodup := List.nodup_cons.mpr ⟨d, c⟩
  have h2 : (sink :: l').toFinset ⊆ (sink :: nodes).toFinset := by
    intro u hu
    simp only [List.mem_toFinset, List.mem_cons] at hu ⊢
    exact hu.imp id (d' u)
  have := Finset.card_le_card h2
  rw [List.toFinset_card_of_nodup h1, List.length_cons] at this
  omega

end BF
end Verif
