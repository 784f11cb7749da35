import Verif.Proofs.RenameNodes
import Verif.Spec.ReproducibleBuild

/-! A network with other names for its nodes is as valid as the network. -/

set_option linter.unusedSectionVars false

namespace Verif
namespace Renode
open Spec Builder Redom Heap

variable {P : Type} {σ : Nat → Nat}

section
variable {g g' : Graph}

theorem consistent_ren (hσ : Function.Injective σ) (hg : GraphRenamed σ g g') (h : Consistent g) : Consistent g' := by
  have hl : ∀ {r}, r ∈ g.edges → Linked g r := fun hr => .inl hr
  refine ⟨?_, ?_, ?_, ?_, ?_, ?_, ?_⟩
  · rw [hg.nodes]; exact h.nodes.map hσ
  · rw [hg.edges]; exact h.edges
  · rw [hg.edges, hg.fresh]; exact h.known
  · rw [hg.edges, hg.nodes]
    intro r hr
    rw [from_ren hg (hl hr), to_ren hg (hl hr)]
    exact ⟨(mem_ren hσ).mpr (h.ends r hr).1, (mem_ren hσ).mpr (h.ends r hr).2⟩
  · rw [hg.nodes, hg.edges]
    intro v hv
    obtain ⟨u, hu, rfl⟩ := List.mem_map.mp hv
    rw [out_ren hg, h.out u hu]
    refine List.filter_congr fun r hr => ?_
    rw [from_ren hg (hl hr)]
    simp only [hσ.eq_iff]
  · rw [hg.nodes, hg.edges]
    intro v hv
    obtain ⟨u, hu, rfl⟩ := List.mem_map.mp hv
    rw [in_ren hg, h.inc u hu]
    refine List.filter_congr fun r hr => ?_
    rw [to_ren hg (hl hr)]
    simp only [hσ.eq_iff]
  · intro i hi
    have hi' : i < g.edges.length := by rw [← hg.edges]; exact hi
    have e : g'.edges[i] = g.edges[i] := by simp only [hg.edges]
    rw [e, hg.ids]
    exact h.ids i hi'

theorem joins_ren (hg : GraphRenamed σ g g') {u v : Nat} (h : Joins g u v) : Joins g' (σ u) (σ v) := by
  obtain ⟨r, hr, rfl, rfl⟩ := h
  exact ⟨r, by rw [hg.edges]; exact hr, from_ren hg (.inl hr), to_ren hg (.inl hr)⟩

theorem path_ren (hg : GraphRenamed σ g g') {u v : Nat} (h : Path g u v) : Path g' (σ u) (σ v) := by
  induction h with
  | refl => exact .refl
  | tail _ hj ih => exact ih.tail (joins_ren hg hj)

theorem joins_back (hg : GraphRenamed σ g g') {a b : Nat} (h : Joins g' a b) : ∃ u v, a = σ u ∧ b = σ v ∧ Joins g u v := by
  obtain ⟨r, hr, rfl, rfl⟩ := h
  have hr' : r ∈ g.edges := by rw [← hg.edges]; exact hr
  exact ⟨_, _, from_ren hg (.inl hr'), to_ren hg (.inl hr'), r, hr', rfl, rfl⟩

theorem path_back (hσ : Function.Injective σ) (hg : GraphRenamed σ g g') {u : Nat} {b : Nat} (h : Path g' (σ u) b) : ∃ v, b = σ v ∧ Path g u v := by
  induction h with
  | refl => exact ⟨u, rfl, .refl⟩
  | tail _ hj ih =>
    obtain ⟨v, rfl, hp⟩ := ih
    obtain ⟨x, y, hx, rfl, hj⟩ := joins_back hg hj
    have hx := hσ hx
    subst hx
    exact ⟨y, rfl, hp.tail hj⟩

theorem path_iff (hσ : Function.Injective σ) (hg : GraphRenamed σ g g') (u v : Nat) : Path g' (σ u) (σ v) ↔ Path g u v := by
  refine ⟨fun h => ?_, path_ren hg⟩
  obtain ⟨w, hw, hp⟩ := path_back hσ hg h
  rw [hσ hw]; exact hp

/-- A path to a renamed node starts at a renamed node. -/
theorem path_start (hσ : Function.Injective σ) (hg : GraphRenamed σ g g') {a : Nat} {v : Nat} (h : Path g' a (σ v)) : ∃ u, a = σ u := by
  rcases Relation.ReflTransGen.cases_head h with rfl | ⟨c, hj, _⟩
  · exact ⟨v, rfl⟩
  · obtain ⟨u, _, hu, _, _⟩ := joins_back hg hj
    exact ⟨u, hu⟩

end

variable {n n' : Network P}

theorem inputOk_ren (hσ : Function.Injective σ) (hn : NodesRenamed σ n n') (h : InputOk n) : InputOk n' := by
  have hg := hn.graph
  refine ⟨consistent_ren hσ hg h.graph, ?_, ?_, ?_, ?_, ?_, ?_, ?_, ?_, ?_⟩
  · rw [hn.capacity, hg.edges]; exact h.capLen
  · rw [hn.travelTime, hg.edges]; exact h.ttLen
  · rw [hn.capacity]; exact h.cap
  · rw [hn.travelTime]; exact h.tt
  · rw [hn.commodities, hg.nodes]
    intro c hc
    obtain ⟨c, kc, rfl⟩ := List.mem_map.mp hc
    exact (mem_ren hσ).mpr (h.sink c kc)
  · rw [hn.commodities]
    intro c hc
    obtain ⟨c, kc, rfl⟩ := List.mem_map.mp hc
    have := (h.keys c kc).map hσ
    rw [List.map_map] at this
    simp only [renameCommodity, List.map_map]
    exact this
  · rw [hn.commodities, hg.nodes]
    intro c hc s hs
    obtain ⟨c, kc, rfl⟩ := List.mem_map.mp hc
    obtain ⟨s, ks, rfl⟩ := List.mem_map.mp hs
    obtain ⟨a, b, d⟩ := h.source c kc s ks
    exact ⟨(mem_ren hσ).mpr a, path_ren hg b, d⟩
  · rw [hn.commodities]
    intro c hc s hs
    obtain ⟨c, kc, rfl⟩ := List.mem_map.mp hc
    obtain ⟨s, ks, rfl⟩ := List.mem_map.mp hs
    obtain ⟨c', hc', s', hs', e, ht⟩ := h.start c kc s ks
    exact ⟨_, List.mem_map_of_mem hc', _, List.mem_map_of_mem hs', congrArg σ e, ht⟩
  · rw [hn.commodities]
    intro c hc s hs c' hc' s' hs' e
    obtain ⟨c, kc, rfl⟩ := List.mem_map.mp hc
    obtain ⟨s, ks, rfl⟩ := List.mem_map.mp hs
    obtain ⟨c', kc', rfl⟩ := List.mem_map.mp hc'
    obtain ⟨s', ks', rfl⟩ := List.mem_map.mp hs'
    exact h.apart c kc s ks c' kc' s' ks' (hσ e)

theorem uses_ren (hσ : Function.Injective σ) (hn : NodesRenamed σ n n') (c : Commodity P) (v : Nat) :
    UsesNode n' (renameCommodity σ c) v ↔ ∃ u, v = σ u ∧ UsesNode n c u := by
  have hg := hn.graph
  constructor
  · rintro ⟨h1, s, hs, h2⟩
    obtain ⟨u, rfl⟩ := path_start hσ hg h1
    obtain ⟨s, ks, rfl⟩ := List.mem_map.mp hs
    exact ⟨u, rfl, (path_iff hσ hg _ _).mp h1, s, ks, (path_iff hσ hg _ _).mp h2⟩
  · rintro ⟨u, rfl, h1, s, hs, h2⟩
    exact ⟨path_ren hg h1, _, List.mem_map_of_mem hs, path_ren hg h2⟩

theorem shared_ren {preds : P → Predictor} (hσ : Function.Injective σ) (hn : NodesRenamed σ n n') (h : SharedNodes n preds) : SharedNodes n' preds := by
  rw [SharedNodes, hn.commodities]
  intro c hc c' hc' hp hk hs v
  obtain ⟨c, kc, rfl⟩ := List.mem_map.mp hc
  obtain ⟨c', kc', rfl⟩ := List.mem_map.mp hc'
  rw [uses_ren hσ hn, uses_ren hσ hn]
  have := h c kc c' kc' hp hk (hσ hs)
  exact ⟨fun ⟨u, e, hu⟩ => ⟨u, e, (this u).mp hu⟩, fun ⟨u, e, hu⟩ => ⟨u, e, (this u).mpr hu⟩⟩

theorem costs_ren (hn : NodesRenamed σ n n') (ps : List PL) (c : Nat → ℚ → ℚ) : Costs n' ps c ↔ Costs n ps c := by
  unfold Costs
  simp only [hn.graph.edges, hn.travelTime, hn.capacity, hn.graph.ids]

theorem predictorsOk_ren {preds : P → Predictor} (hn : NodesRenamed σ n n') (h : PredictorsOk n preds) : PredictorsOk n' preds := by
  intro p f0 f calls t h1 h2 h3 h4 h5
  rw [data_ren hn] at h2 h3
  obtain ⟨ps, hp, hk⟩ := h p f0 f calls t h1 h2 h3 h4 h5
  refine ⟨ps, hp, by rw [hn.graph.edges]; exact hk.len, hk.valid, ?_, ?_⟩
  · rw [hn.graph.edges]; intro c hc; exact hk.nonneg c ((costs_ren hn ps c).mp hc)
  · rw [hn.graph.edges]; intro c hc; exact hk.fifo c ((costs_ren hn ps c).mp hc)

variable [DecidableEq P] {ord : List Nat → List Nat} {preds : P → Predictor} {b b' : Builder P}

theorem clear_ren (hσ : Function.Injective σ) (hord : ∀ l, ord (l.map σ) = (ord l).map σ) (h : BRen σ b b') {k : Nat} (hc : ClearRounds ord preds b k) : ClearRounds ord preds b' k := by
  intro m hm bm' l T x' hr hp
  have h1 := rounds_ren (preds := preds) hσ hord h m
  rw [hr] at h1
  cases hq : rounds ord preds m b with
  | error e => rw [hq] at h1; exact h1.elim
  | ok bm =>
    rw [hq] at h1
    have h2 := prepare_ren (preds := preds) hσ hord (show BRen σ bm bm' from h1)
    rw [hp] at h2
    cases hx : bm.prepare ord preds with
    | error e => rw [hx] at h2; exact h2.elim
    | ok y =>
      obtain ⟨l0, T0, x⟩ := y
      rw [hx] at h2
      obtain ⟨e1, e2, h3⟩ := h2
      simp only at e1 e2 h3
      subst e1; subst e2
      have := hc m hm bm _ _ x hq hx
      rw [h3.flow, data_ren h3.net]
      exact this

end Renode
end Verif
