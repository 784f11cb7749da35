import Verif.Proofs.Graph

/-! Searches on consistent graphs, runs of edge operations, and the pickle round trip. -/

namespace Verif
open Verif.Spec

namespace Graph

theorem out_step {g : Graph} (h : Consistent g) {a b : Nat} (ha : a ∈ g.nodes) :
    (∃ e ∈ g.outgoing a, g.nodeTo e = b) ↔ Joins g a b := by
  rw [h.out a ha]
  constructor
  · rintro ⟨e, he, rfl⟩
    rw [List.mem_filter] at he
    exact ⟨e, he.1, by simpa using he.2, rfl⟩
  · rintro ⟨e, he, h1, h2⟩
    exact ⟨e, List.mem_filter.mpr ⟨he, by simpa using h1⟩, h2⟩

theorem inc_step {g : Graph} (h : Consistent g) {a b : Nat} (ha : a ∈ g.nodes) :
    (∃ e ∈ g.incoming a, g.nodeFrom e = b) ↔ Joins g b a := by
  rw [h.inc a ha]
  constructor
  · rintro ⟨e, he, rfl⟩
    rw [List.mem_filter] at he
    exact ⟨e, he.1, rfl, by simpa using he.2⟩
  · rintro ⟨e, he, h1, h2⟩
    exact ⟨e, List.mem_filter.mpr ⟨he, by simpa using h2⟩, h1⟩

theorem rtg_congr {R S : Nat → Nat → Prop} (U : List Nat) (hRS : ∀ a ∈ U, ∀ b, R a b ↔ S a b)
    (hU : ∀ a b, S a b → b ∈ U) {s : Nat} (hs : s ∈ U) (x : Nat) :
    Relation.ReflTransGen R s x ↔ Relation.ReflTransGen S s x := by
  have hin : ∀ y, Relation.ReflTransGen S s y → y ∈ U := by
    intro y hy
    cases hy with
    | refl => exact hs
    | tail _ h => exact hU _ _ h
  constructor
  · intro h
    induction h with
    | refl => exact .refl
    | tail _ h ih => exact ih.tail ((hRS _ (hin _ ih) _).mp h)
  · intro h
    induction h with
    | refl => exact .refl
    | tail h1 h ih => exact ih.tail ((hRS _ (hin _ h1) _).mpr h)

theorem reachableNodes_spec {g : Graph} (h : Consistent g) {s : Nat} (hs : s ∈ g.nodes) :
    ∃ S, g.reachableNodes s = .ok S ∧ S.Nodup ∧ ∀ v, v ∈ S ↔ Path g s v := by
  have key := fun x => rtg_congr (R := fun a b => ∃ e ∈ g.outgoing a, g.nodeTo e = b) g.nodes
    (fun a ha b => out_step h ha) (fun a b ⟨r, hr, _, hb⟩ => hb ▸ (h.ends r hr).2) hs x
  have hin : ∀ v, Relation.ReflTransGen (fun a b => ∃ e ∈ g.outgoing a, g.nodeTo e = b) s v → v ∈ g.nodes := by
    intro v hv
    rw [key] at hv
    cases hv with
    | refl => exact hs
    | tail _ h' => obtain ⟨r, hr, _, hb⟩ := h'; exact hb ▸ (h.ends r hr).2
  obtain ⟨S, h1, h2, h3⟩ := search_spec g.nodeTo g.outgoing g.nodes s hin (g.nodes.length + 1) [s] [s]
    (by simp) (by simp) (by simp) (by simp) (by intro x hx; simp at hx; subst hx; exact .refl)
    (by intro x hx hn; simp at hx hn; exact absurd hx hn) (by simp)
  exact ⟨S, h1, h2, fun v => by rw [h3, key]; rfl⟩

theorem nodesReaching_spec {g : Graph} (h : Consistent g) {t : Nat} (hs : t ∈ g.nodes) :
    ∃ S, g.nodesReaching t = .ok S ∧ S.Nodup ∧ ∀ v, v ∈ S ↔ Path g v t := by
  have key := fun x => rtg_congr (R := fun a b => ∃ e ∈ g.incoming a, g.nodeFrom e = b) (S := fun a b => Joins g b a) g.nodes
    (fun a ha b => inc_step h ha) (fun a b ⟨r, hr, hb, _⟩ => hb ▸ (h.ends r hr).1) hs x
  have hin : ∀ v, Relation.ReflTransGen (fun a b => ∃ e ∈ g.incoming a, g.nodeFrom e = b) t v → v ∈ g.nodes := by
    intro v hv
    rw [key] at hv
    cases hv with
    | refl => exact hs
    | tail _ h' => obtain ⟨r, hr, hb, _⟩ := h'; exact hb ▸ (h.ends r hr).1
  obtain ⟨S, h1, h2, h3⟩ := search_spec g.nodeFrom g.incoming g.nodes t hin (g.nodes.length + 1) [t] [t]
    (by simp) (by simp) (by simp) (by simp) (by intro x hx; simp at hx; subst hx; exact .refl)
    (by intro x hx hn; simp at hx hn; exact absurd hx hn) (by simp)
  refine ⟨S, ?_, h2, fun v => ?_⟩
  · unfold nodesReaching; rw [pyAssert_true hs, ok_bind, h1]
  · rw [h3, key, Path, ← Relation.reflTransGen_swap]

theorem reverse_nodeFrom (g : Graph) (r : Nat) : g.reverse.nodeFrom r = g.nodeTo r := by
  unfold nodeFrom nodeTo reverse; cases g.reversed <;> rfl
theorem reverse_nodeTo (g : Graph) (r : Nat) : g.reverse.nodeTo r = g.nodeFrom r := by
  unfold nodeFrom nodeTo reverse; cases g.reversed <;> rfl
theorem reverse_outgoing (g : Graph) (v : Nat) : g.reverse.outgoing v = g.incoming v := by
  unfold outgoing incoming reverse; cases g.reversed <;> rfl
theorem reverse_incoming (g : Graph) (v : Nat) : g.reverse.incoming v = g.outgoing v := by
  unfold outgoing incoming reverse; cases g.reversed <;> rfl

/-- The ends of the edges in order, as seen from outside. -/
def ends (g : Graph) : List (Nat × Nat) := g.edges.map (fun r => (g.nodeFrom r, g.nodeTo r))

theorem map_id_filter {g : Graph} (h : Consistent g) (p : Nat × Nat → Bool) :
    (g.edges.filter (fun r => p (g.nodeFrom r, g.nodeTo r))).map (fun r => (g.edge r).id) =
      (g.ends.zipIdx.filter (fun x => p x.1)).map (·.2) := by
  have key : ∀ (l : List Nat) (k : Nat), (∀ (i : Nat) (hi : i < l.length), (g.edge l[i]).id = k + i) →
      (l.filter (fun r => p (g.nodeFrom r, g.nodeTo r))).map (fun r => (g.edge r).id) =
      (((l.map (fun r => (g.nodeFrom r, g.nodeTo r))).zipIdx k).filter (fun x => p x.1)).map (·.2) := by
    intro l
    induction l with
    | nil => intros; rfl
    | cons a l ih =>
      intro k hk
      have h0 := hk 0 (by simp)
      simp only [List.getElem_cons_zero, Nat.add_zero] at h0
      have ih' := ih (k + 1) (fun i hi => by have := hk (i + 1) (by simpa using hi); simp only [List.getElem_cons_succ] at this; rw [this]; omega)
      simp only [List.map_cons, List.zipIdx_cons, List.filter_cons]
      split
      · simp only [List.map_cons, h0, ih']
      · exact ih'
  exact key g.edges 0 (fun i hi => by rw [h.ids i hi]; omega)

theorem setstate_spec (l : List (Nat × Nat)) : ∀ (g : Graph), Consistent g → g.reversed = false →
    Consistent (l.foldl (fun g p => g.addEdge p.1 p.2) g) ∧ (l.foldl (fun g p => g.addEdge p.1 p.2) g).reversed = false ∧
    pairs (l.foldl (fun g p => g.addEdge p.1 p.2) g) = pairs g ++ l ∧
    ∀ w, w ∈ (l.foldl (fun g p => g.addEdge p.1 p.2) g).nodes ↔ w ∈ g.nodes ∨ ∃ p ∈ l, w = p.1 ∨ w = p.2 := by
  induction l with
  | nil => intro g h hr; exact ⟨h, hr, by simp, fun w => by simp⟩
  | cons p l ih =>
    intro g h hr
    obtain ⟨a1, a2, a3, a4, a5, a6⟩ := addEdge_spec h hr p.1 p.2
    obtain ⟨b1, b2, b3, b4⟩ := ih _ a1 a2
    simp only [List.foldl_cons]
    refine ⟨b1, b2, ?_, fun w => ?_⟩
    · rw [b3]
      have : pairs (g.addEdge p.1 p.2) = pairs g ++ [p] := by
        unfold Spec.pairs
        rw [a3, List.map_append, List.map_singleton, a5]
        congr 1
        exact List.map_congr_left (fun r hr => by rw [a4 r hr])
      rw [this]; simp
    · rw [b4, a6]
      constructor
      · rintro ((hw | hw | hw) | ⟨q, hq, hw⟩)
        · exact Or.inl hw
        · exact Or.inr ⟨p, by simp, Or.inl hw⟩
        · exact Or.inr ⟨p, by simp, Or.inr hw⟩
        · exact Or.inr ⟨q, by simp [hq], hw⟩
      · rintro (hw | ⟨q, hq, hw⟩)
        · exact Or.inl (Or.inl hw)
        · rcases List.mem_cons.mp hq with rfl | hq
          · exact Or.inl (Or.inr hw)
          · exact Or.inr ⟨q, hq, hw⟩

end Graph

namespace Network
open Graph
variable {P : Type}

theorem holds_len {n : Network P} {l : List Road} {b : Bool} (h : Holds n l b) : n.graph.edges.length = l.length := by
  have := congrArg List.length h.pairs
  simpa [Spec.pairs] using this

theorem map_eraseIdx' {α β : Type} (f : α → β) (l : List α) : ∀ i, (l.eraseIdx i).map f = (l.map f).eraseIdx i := by
  induction l with
  | nil => intro i; rfl
  | cons a l ih => intro i; cases i with
    | zero => rfl
    | succ i => simp [ih]

theorem step_spec {n : Network P} {l : List Road} {b : Bool} (h : Holds n l b) {o : RoadOp} {os : List RoadOp}
    (hok : RoadOpsOk l b (o :: os)) : ∃ n', stepNet n o = .ok n' ∧ Holds n' (stepRoads l o) (stepRev b o) ∧
      n'.commodities = n.commodities ∧ ∀ v ∈ n.graph.nodes, v ∈ n'.graph.nodes := by
  cases o with
  | add r =>
    have hb : b = false := hok.1
    subst hb
    obtain ⟨a1, a2, a3, a4, a5, a6⟩ := addEdge_spec h.graph h.rev r.tail r.head
    refine ⟨_, rfl, ⟨a1, a2, ?_, ?_, ?_⟩, rfl, fun v hv => (a6 v).mpr (Or.inl hv)⟩
    · show pairs (n.graph.addEdge r.tail r.head) = _
      unfold Spec.pairs
      rw [a3, List.map_append, List.map_singleton, a5]
      simp only [stepRoads, List.map_append, List.map_singleton]
      congr 1
      rw [← h.pairs]
      exact List.map_congr_left (fun r hr => by rw [a4 r hr])
    · show n.capacity ++ [r.capacity] = _
      rw [h.cap]; simp [stepRoads]
    · show n.travelTime ++ [r.travelTime] = _
      rw [h.time]; simp [stepRoads]
  | remove i =>
    have hi : i < n.graph.edges.length := by rw [(holds_len h)]; exact hok.1
    obtain ⟨n', h1, h2, h3, h4, h5, h6, h7, h8, h9, h10, h11⟩ := removeEdge_spec h.graph
      (by rw [h.cap, (holds_len h)]; simp) (by rw [h.time, (holds_len h)]; simp) hi
    refine ⟨n', ?_, ⟨h2, by rw [h6, h.rev]; rfl, ?_, ?_, ?_⟩, h9, fun v hv => by rw [h8]; exact hv⟩
    · simp only [stepNet, rd_lt _ _ hi, ok_bind, h1]
    · unfold Spec.pairs
      rw [h3]
      simp only [h11, stepRoads]
      rw [map_eraseIdx', map_eraseIdx', ← h.pairs]; rfl
    · rw [h4, h.cap]; simp only [stepRoads, map_eraseIdx']
    · rw [h5, h.time]; simp only [stepRoads, map_eraseIdx']
  | reverse =>
    refine ⟨_, rfl, ⟨reverse_consistent h.graph, ?_, h.pairs, h.cap, h.time⟩, rfl, fun v hv => hv⟩
    show (!n.graph.reversed) = _
    rw [h.rev]; rfl

theorem run_spec (os : List RoadOp) : ∀ {n : Network P} {l : List Road} {b : Bool}, Holds n l b → RoadOpsOk l b os →
    ∃ n', runNet n os = .ok n' ∧ Holds n' (os.foldl stepRoads l) (os.foldl stepRev b) ∧
      n'.commodities = n.commodities ∧ ∀ v ∈ n.graph.nodes, v ∈ n'.graph.nodes := by
  induction os with
  | nil => intro n l b h _; exact ⟨n, rfl, h, rfl, fun _ h => h⟩
  | cons o os ih =>
    intro n l b h hok
    obtain ⟨n', h1, h2, h3, h4⟩ := step_spec h hok
    obtain ⟨n'', k1, k2, k3, k4⟩ := ih h2 hok.2
    refine ⟨n'', ?_, k2, k3.trans h3, fun v hv => k4 v (h4 v hv)⟩
    simp only [runNet, h1, ok_bind, k1]

theorem empty_holds : Holds (Network.empty : Network P) [] false :=
  ⟨empty_consistent, rfl, rfl, rfl, rfl⟩

theorem addCommodities_spec (cs : List (Commodity P)) : ∀ (n : Network P),
    (∀ c ∈ cs, c.sink ∈ n.graph.nodes ∧ ∀ s ∈ c.sources, s.1 ∈ n.graph.nodes) →
    addCommodities cs n = .ok { n with commodities := n.commodities ++ cs } := by
  induction cs with
  | nil => intro n _; simp [addCommodities]
  | cons c cs ih =>
    intro n h
    have hc := h c (by simp)
    unfold addCommodities addCommodity
    rw [pyAssert_true hc.2, ok_bind, pyAssert_true hc.1, ok_bind]
    simp only [py_pure, ok_bind]
    have := ih { n with commodities := n.commodities ++ [⟨c.sources, c.sink, c.predictor⟩] } (fun c' hc' => h c' (by simp [hc']))
    simpa using this

end Network
end Verif
