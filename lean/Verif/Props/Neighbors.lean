import Verif.Proofs.Neighbors
import Verif.Props.Graph

/-! Property theorems C60: edges in the neighbourhood of an edge. -/

namespace Verif.Props
open Verif Verif.Spec Verif.Neighbors

variable {g : Graph} {e : Nat}

theorem steps_zero {R : Nat → Nat → Prop} {a b : Nat} (h : Steps R 0 a b) : a = b := by
  cases h; rfl

/-- **C60** (forward): exactly the edges within the distance. -/
theorem C60_forward (h : Consistent g) (he : e ∈ g.edges) (d r : Nat) : r ∈ forward g e d ↔ Ahead g e d r := by
  have ha := (h.ends e he).2
  unfold forward
  rw [forwardLoop_spec h ha d 0 _ _ (e := e) ?_ r]
  · unfold Ahead; rw [Nat.zero_add]
  · refine ⟨fun v => ?_, ?_, ?_, ?_⟩
    · constructor
      · intro hv
        rw [List.mem_singleton.mp hv]; exact ⟨0, le_rfl, .nil _⟩
      · rintro ⟨j, hj, hs⟩
        have : j = 0 := by omega
        subst this
        cases hs; simp
    · intro v hv; rw [List.mem_singleton.mp hv]; exact .nil _
    · intro v hv hn; exact absurd hv hn
    · intro r; simp

/-- **C60** (backward), as the code is: the distance is used as `min d 1`; so exactly the edges within the distance for `d ≤ 1` only. Missing: `d ≥ 2`,
where the code is wrong (`C60_backward_fails`). -/
theorem C60_backward_partial (h : Consistent g) (he : e ∈ g.edges) (d r : Nat) : r ∈ backward g e d ↔ Behind g e (min d 1) r := by
  have ha := (h.ends e he).1
  unfold backward Behind
  rw [backwardLoop_result]
  simp only [List.mem_singleton, exists_eq_left]
  rw [mem_inc h ha]
  refine or_congr Iff.rfl ⟨?_, ?_⟩
  · rintro ⟨hd, h1, h2⟩
    exact ⟨h1, 0, by omega, h2 ▸ .nil _⟩
  · rintro ⟨h1, k, hk, hs⟩
    have : k = 0 := by omega
    subst this
    exact ⟨by omega, h1, steps_zero hs⟩

/-- **C60** (directed): the union of both. Missing: distances `≥ 2` backward. -/
theorem C60_directed_partial (h : Consistent g) (he : e ∈ g.edges) (d r : Nat) : r ∈ directed g e d ↔ Behind g e (min d 1) r ∨ Ahead g e d r := by
  unfold directed
  rw [List.mem_append, C60_backward_partial h he, C60_forward h he]

/-- **C60** (undirected), as the code is: the distance is used as `min d 1`. Missing: `d ≥ 2`, where the code is wrong (`C60_undirected_fails`). -/
theorem C60_undirected_partial (h : Consistent g) (he : e ∈ g.edges) (d r : Nat) : r ∈ undirected g e d ↔ Around g e (min d 1) r := by
  obtain ⟨ha, hb⟩ := h.ends e he
  unfold undirected Around
  rw [undirectedLoop_result]
  simp only [List.mem_singleton, List.mem_cons, List.not_mem_nil, or_false, exists_eq_or_imp, exists_eq_left]
  rw [mem_inc h ha, mem_out h ha, mem_inc h hb, mem_out h hb]
  refine or_congr Iff.rfl ⟨?_, ?_⟩
  · rintro ⟨hd, (⟨h1, h2⟩ | ⟨h1, h2⟩) | (⟨h1, h2⟩ | ⟨h1, h2⟩)⟩
    · exact ⟨h1, 0, by omega, _, _, .inl rfl, .inr rfl, h2 ▸ .nil _⟩
    · exact ⟨h1, 0, by omega, _, _, .inl rfl, .inl rfl, h2 ▸ .nil _⟩
    · exact ⟨h1, 0, by omega, _, _, .inr rfl, .inr rfl, h2 ▸ .nil _⟩
    · exact ⟨h1, 0, by omega, _, _, .inr rfl, .inl rfl, h2 ▸ .nil _⟩
  · rintro ⟨h1, k, hk, a, b, hae, hbr, hs⟩
    have : k = 0 := by omega
    subst this
    cases hs with
    | nil =>
      refine ⟨by omega, ?_⟩
      rcases hae with h2 | h2 <;> rcases hbr with h3 | h3
      · exact .inl (.inr ⟨h1, by rw [← h3, h2]⟩)
      · exact .inl (.inl ⟨h1, by rw [← h3, h2]⟩)
      · exact .inr (.inr ⟨h1, by rw [← h3, h2]⟩)
      · exact .inr (.inl ⟨h1, by rw [← h3, h2]⟩)

/-- **C60** (masks): position `i` of the mask is true iff the edge with id `i` is in the set. -/
theorem C60_masks (h : Consistent g) (he : e ∈ g.edges) (d i : Nat) (hi : i < g.edges.length) :
    ((maskDirected g e d)[i]? = some true ↔ Behind g e (min d 1) g.edges[i] ∨ Ahead g e d g.edges[i]) ∧
      ((maskUndirected g e d)[i]? = some true ↔ Around g e (min d 1) g.edges[i]) := by
  unfold maskDirected maskUndirected
  rw [List.getElem?_map, List.getElem?_map, List.getElem?_eq_getElem hi]
  simp only [Option.map_some, Option.some.injEq, decide_eq_true_eq]
  exact ⟨C60_directed_partial h he d _, C60_undirected_partial h he d _⟩

/-- A path 0 → 1 → 2 → 3, with one edge back from 3 to 1. -/
def loopGraph : Graph := [(0, 1), (1, 2), (2, 3), (3, 1)].foldl (fun g p => g.addEdge p.1 p.2) Graph.empty

theorem loopGraph_consistent : Consistent loopGraph :=
  ⟨by decide, by decide, by decide, by decide, by decide, by decide, by decide⟩

/-- **C60**, hypotheses met; the forward search from edge 0 takes three rounds to find the edge back. -/
example : Consistent loopGraph ∧ 0 ∈ loopGraph.edges ∧ Ahead loopGraph 0 3 3 ∧ 3 ∉ forward loopGraph 0 2 ∧ 3 ∈ forward loopGraph 0 3 := by
  refine ⟨loopGraph_consistent, by decide, (C60_forward loopGraph_consistent (by decide) 3 3).mp (by decide), by decide, by decide⟩

/-- **C60** (backward) is false of the code: edge 0 is two steps behind edge 2, and a distance of 2 (or any larger one) does not find it. -/
theorem C60_backward_fails : Consistent loopGraph ∧ 2 ∈ loopGraph.edges ∧ Behind loopGraph 2 2 0 ∧ ∀ d, 0 ∉ backward loopGraph 2 d := by
  refine ⟨loopGraph_consistent, by decide, .inr ⟨by decide, 1, by omega, .snoc (.nil _) ⟨1, by decide, rfl, rfl⟩⟩, fun d hd => ?_⟩
  rcases (C60_backward_partial loopGraph_consistent (by decide) d 0).mp hd with h | ⟨_, k, hk, hs⟩
  · cases h
  · have : k = 0 := by omega
    subst this
    have := steps_zero hs
    revert this; decide

/-- A path of three edges. -/
def lineGraph : Graph := [(0, 1), (1, 2), (2, 3)].foldl (fun g p => g.addEdge p.1 p.2) Graph.empty

theorem lineGraph_consistent : Consistent lineGraph :=
  ⟨by decide, by decide, by decide, by decide, by decide, by decide, by decide⟩

/-- **C60** (undirected) is false of the code: edge 0 is two steps from edge 2, and no distance finds it. -/
theorem C60_undirected_fails : Consistent lineGraph ∧ 2 ∈ lineGraph.edges ∧ Around lineGraph 2 2 0 ∧ ∀ d, 0 ∉ undirected lineGraph 2 d := by
  refine ⟨lineGraph_consistent, by decide, .inr ⟨by decide, 1, by omega, 2, 1, by decide, by decide, .snoc (.nil _) (.inr ⟨1, by decide, rfl, rfl⟩)⟩, fun d hd => ?_⟩
  rcases (C60_undirected_partial lineGraph_consistent (by decide) d 0).mp hd with h | ⟨_, k, hk, a, b, ha, hb, hs⟩
  · cases h
  · have : k = 0 := by omega
    subst this
    have hab : a = b := steps_zero hs
    subst hab
    have e1 : lineGraph.nodeFrom 2 = 2 := by decide
    have e2 : lineGraph.nodeTo 2 = 3 := by decide
    have e3 : lineGraph.nodeFrom 0 = 0 := by decide
    have e4 : lineGraph.nodeTo 0 = 1 := by decide
    rw [e1, e2] at ha
    rw [e3, e4] at hb
    omega

end Verif.Props
