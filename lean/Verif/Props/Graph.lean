import Verif.Proofs.Compress

/-! Property theorems C37, C38, C49, C50, C51 (src/core/graph.py, src/core/network.py). -/

namespace Verif.Props
open Verif Verif.Spec

/-- **C49.** After any valid sequence of `add_edge`, `_remove_edge` and `reverse` no exception has been raised,
ids are positions, adjacency lists hold exactly the present edges in order (`Consistent`), and the ends, capacities and
travel times are those of the roads added and not removed, in order (`Holds`). -/
theorem C49_aligned {P : Type} (ops : List RoadOp) (hok : RoadOpsOk [] false ops) :
    ∃ n : Network P, runNet Network.empty ops = .ok n ∧ Holds n (ops.foldl stepRoads []) (ops.foldl stepRev false) := by
  obtain ⟨n, h1, h2, _⟩ := Network.run_spec ops (Network.empty_holds (P := P)) hok
  exact ⟨n, h1, h2⟩

/-- **C49**, read through ids: the edge with id `i` has the ends, capacity and travel time given for it. -/
theorem C49_by_id {P : Type} {n : Network P} {l : List Road} {b : Bool} (h : Holds n l b) {r : Nat} (hr : r ∈ n.graph.edges) :
    ∃ q : Road, l[(n.graph.edge r).id]? = some q ∧ n.graph.edges[(n.graph.edge r).id]? = some r ∧
      n.capacity[(n.graph.edge r).id]? = some q.capacity ∧
      n.travelTime[(n.graph.edge r).id]? = some q.travelTime ∧
      (n.graph.nodeFrom r, n.graph.nodeTo r) = if b then (q.head, q.tail) else (q.tail, q.head) := by
  obtain ⟨i, hi, rfl⟩ := List.getElem_of_mem hr
  have hi' : i < l.length := by rw [← Network.holds_len h]; exact hi
  obtain ⟨_, a1, a2, a3, a4, a5⟩ := Network.holds_get h hi'
  refine ⟨l[i], ?_⟩
  rw [a5]
  refine ⟨List.getElem?_eq_getElem hi', List.getElem?_eq_getElem hi, rd_eq_ok.mp a3, rd_eq_ok.mp a4, ?_⟩
  unfold Graph.nodeFrom Graph.nodeTo
  rw [h.rev, a1, a2]
  cases b <;> rfl

/-- A small history: a triangle with a parallel edge and a loop, one edge removed, reversed. -/
def roadOps : List RoadOp :=
  [.add ⟨0, 1, 1, 2⟩, .add ⟨1, 2, 2, 3⟩, .add ⟨0, 1, 3, 1⟩, .add ⟨2, 2, 1, 1⟩, .remove 0, .reverse, .remove 2, .reverse, .add ⟨2, 0, 1, 4⟩]

example : RoadOpsOk [] false roadOps := by simp [roadOps, RoadOpsOk, stepRoads, stepRev]

/-- **C37.** On every consistent graph (by C49: every graph built by the edge operations) the searches terminate without
an exception; `get_reachable_nodes(s)` is the set of nodes to which a directed path leads from `s`. -/
theorem C37_reachable {g : Graph} (h : Consistent g) {s : Nat} (hs : s ∈ g.nodes) :
    ∃ S, g.reachableNodes s = .ok S ∧ S.Nodup ∧ ∀ v, v ∈ S ↔ Path g s v :=
  Graph.reachableNodes_spec h hs

/-- **C37.** `get_nodes_reaching(t)` is the set of nodes from which a directed path leads to `t`. -/
theorem C37_reaching {g : Graph} (h : Consistent g) {t : Nat} (ht : t ∈ g.nodes) :
    ∃ S, g.nodesReaching t = .ok S ∧ S.Nodup ∧ ∀ v, v ∈ S ↔ Path g v t :=
  Graph.nodesReaching_spec h ht

/-- **C37**, hypotheses met, on the sample history. -/
example : ∃ n : Network Unit, runNet Network.empty roadOps = .ok n ∧ Consistent n.graph ∧ 0 ∈ n.graph.nodes ∧
    n.graph.reachableNodes 0 = .ok [2, 1, 0] := by
  obtain ⟨n, h1, h2⟩ := C49_aligned (P := Unit) roadOps (by simp [roadOps, RoadOpsOk, stepRoads, stepRev])
  have : (runNet (Network.empty : Network Unit) roadOps).map (fun n => (n.graph.nodes, n.graph.reachableNodes 0)) =
    .ok ([0, 1, 2], .ok [2, 1, 0]) := by rfl
  rw [h1] at this
  simp only [Except.map, Except.ok.injEq, Prod.mk.injEq] at this
  exact ⟨n, h1, h2.graph, by rw [this.1]; simp, this.2⟩

/-- **C38.** `reverse` exchanges the ends of every edge and the two lists of every node; twice, it restores the graph;
edges, ids and nodes are untouched. -/
theorem C38_reverse (g : Graph) :
    (∀ r, g.reverse.nodeFrom r = g.nodeTo r ∧ g.reverse.nodeTo r = g.nodeFrom r) ∧
    (∀ v, g.reverse.outgoing v = g.incoming v ∧ g.reverse.incoming v = g.outgoing v) ∧
    g.reverse.edges = g.edges ∧ g.reverse.nodes = g.nodes ∧ (∀ r, (g.reverse.edge r).id = (g.edge r).id) ∧
    g.reverse.reverse = g :=
  ⟨fun r => ⟨Graph.reverse_nodeFrom g r, Graph.reverse_nodeTo g r⟩,
   fun v => ⟨Graph.reverse_outgoing g v, Graph.reverse_incoming g v⟩, rfl, rfl, fun _ => rfl,
   by unfold Graph.reverse; simp⟩

/-- **C38.** The search against the edges on the reversed graph is the search along the edges on the graph; paths
are reversed paths, and a reversed consistent graph is consistent. -/
theorem C38_search (g : Graph) {v : Nat} (hv : v ∈ g.nodes) :
    g.reverse.nodesReaching v = g.reachableNodes v ∧ g.reverse.reachableNodes v = g.nodesReaching v ∧
    (∀ a b, Path g.reverse a b ↔ Path g b a) ∧ (Consistent g → Consistent g.reverse) := by
  have f1 : g.reverse.nodeFrom = g.nodeTo := funext (Graph.reverse_nodeFrom g)
  have f2 : g.reverse.nodeTo = g.nodeFrom := funext (Graph.reverse_nodeTo g)
  have f3 : g.reverse.outgoing = g.incoming := funext (Graph.reverse_outgoing g)
  have f4 : g.reverse.incoming = g.outgoing := funext (Graph.reverse_incoming g)
  have hn : g.reverse.nodes = g.nodes := rfl
  refine ⟨?_, ?_, fun a b => ?_, Graph.reverse_consistent⟩
  · unfold Graph.nodesReaching Graph.reachableNodes
    rw [f1, f4, hn, pyAssert_true hv, ok_bind]
  · unfold Graph.nodesReaching Graph.reachableNodes
    rw [f2, f3, hn, pyAssert_true hv, ok_bind]
  · have hj : Joins g.reverse = Function.swap (Joins g) := by
      funext x y
      apply propext
      unfold Joins Function.swap
      rw [f1, f2]
      constructor
      · rintro ⟨r, h1, h2, h3⟩; exact ⟨r, h1, h3, h2⟩
      · rintro ⟨r, h1, h2, h3⟩; exact ⟨r, h1, h3, h2⟩
    unfold Path
    rw [hj]
    exact Relation.reflTransGen_swap

/-- **C50, the negation.** On every network with a commodity (whose sinks are nodes), `remove_unnecessary_nodes` raises
`AttributeError`. -/
theorem C50_remove_nodes_fails {P : Type} (n : Network P) (hg : Consistent n.graph) (hc : n.commodities ≠ [])
    (hs : ∀ c ∈ n.commodities, c.sink ∈ n.graph.nodes) : n.removeUnnecessaryNodes = .error .attribute := by
  unfold Network.removeUnnecessaryNodes
  cases h : n.commodities with
  | nil => exact absurd h hc
  | cons c cs =>
    obtain ⟨S, h1, _⟩ := Graph.nodesReaching_spec hg (hs c (by rw [h]; simp))
    unfold Network.importantNodes
    rw [h1, ok_bind]
    rfl

/-- **C50, the negation.** So does `remove_unnecessary_commodities`, for every selected commodity. -/
theorem C50_remove_commodities_fails {P : Type} (n : Network P) {i : Nat} (hi : i < n.commodities.length) :
    n.removeUnnecessaryCommodities i = .error .attribute := by
  unfold Network.removeUnnecessaryCommodities
  rw [rd_lt _ _ hi, ok_bind]
  cases h : n.commodities with
  | nil => rw [h] at hi; simp at hi
  | cons c cs => rfl

/-- **C50, the negation.** So does `compress_lonely_nodes` whenever a node has one incoming and one outgoing edge. -/
theorem C50_compress_fails {P : Type} (n : Network P) (hc : n.commodities ≠ []) {v : Nat} (hv : v ∈ n.graph.nodes)
    (h1 : (n.graph.outgoing v).length = 1) (h2 : (n.graph.incoming v).length = 1) :
    n.compressLonelyNodes = .error .attribute := by
  have hstep : ∀ u, n.compressStep u = .ok (n, false) ∨ n.compressStep u = .error .attribute := by
    intro u
    unfold Network.compressStep
    split
    · right
      cases h : n.commodities with
      | nil => exact absurd h hc
      | cons c cs => rfl
    · left; rfl
  have hbad : n.compressStep v = .error .attribute := by
    unfold Network.compressStep
    rw [if_pos ⟨h1, h2⟩]
    cases h : n.commodities with
    | nil => exact absurd h hc
    | cons c cs => rfl
  have hloop : ∀ (vs : List Nat) (rem : List Nat), v ∈ vs → Network.compressLoop vs n rem = .error .attribute := by
    intro vs
    induction vs with
    | nil => intro rem h; simp at h
    | cons u us ih =>
      intro rem hm
      unfold Network.compressLoop
      rcases hstep u with e | e
      · rw [e, ok_bind]
        rcases List.mem_cons.mp hm with rfl | hm
        · rw [hbad] at e; cases e
        · exact ih _ hm
      · rw [e]; rfl
  unfold Network.compressLonelyNodes
  rw [hloop _ _ hv]
  rfl

/-- **C50, the negation.** Without commodities, `compress_lonely_nodes` raises `ValueError` on a node whose only edge is a
loop. -/
theorem C50_loop_fails : ∃ ops : List RoadOp, RoadOpsOk [] false ops ∧ ∃ n : Network Unit,
    runNet Network.empty ops = .ok n ∧ n.compressLonelyNodes = .error .value :=
  ⟨[.add ⟨0, 0, 1, 1⟩], ⟨rfl, trivial⟩, _, rfl, rfl⟩

/-- **C50** (part: networks without commodities and loops). `compress_lonely_nodes` returns a consistent network on some
of the nodes; between nodes it keeps, a walk of the new network is a walk of the old one with the same travel time and at
least the same capacities, and for every old walk there is a new one, no longer and no narrower. Missing: networks with
commodities, where the code raises. -/
theorem C50_compress_partial {P : Type} {n : Network P} {l : List Road} (h : Holds n l false) (hcom : n.commodities = [])
    (hloop : ∀ r ∈ l, r.tail ≠ r.head) (hpos : ∀ r ∈ l, 0 ≤ r.travelTime) :
    ∃ n' l', n.compressLonelyNodes = .ok n' ∧ Holds n' l' false ∧ n'.commodities = [] ∧
      (∀ w ∈ n'.graph.nodes, w ∈ n.graph.nodes) ∧
      ∀ a ∈ n'.graph.nodes, ∀ b ∈ n'.graph.nodes, ∀ c,
        (∀ t, Walk l' c a b t → Walk l c a b t) ∧ (∀ t, Walk l c a b t → ∃ t' ≤ t, Walk l' c a b t') :=
  Network.compress_spec h hcom hloop hpos

/-- **C50** (part: networks without commodities). `remove_unnecessary_nodes` then removes everything, without an
exception: no node is on a path from a source to a sink. -/
theorem C50_remove_nodes_partial {P : Type} {n : Network P} {l : List Road} {b : Bool} (h : Holds n l b) (hcom : n.commodities = []) :
    ∃ n', n.removeUnnecessaryNodes = .ok n' ∧ Holds n' [] b ∧ n'.graph.nodes = [] ∧ n'.commodities = [] := by
  obtain ⟨n', l', h1, h2, h3, h4, h5, h6, h7⟩ := Network.removeNodes_spec n.graph.nodes h h.graph.nodes (fun _ h => h)
  have hn : n'.graph.nodes = [] := List.eq_nil_iff_forall_not_mem.mpr (fun w hw => ((h4 w).mp hw).2 ((h4 w).mp hw).1)
  have he : n'.graph.edges = [] := by
    rw [List.eq_nil_iff_forall_not_mem]
    intro r hr
    obtain ⟨a, b, _⟩ := (h6 r).mp hr
    exact b (h.graph.ends r a).1
  have hl : l' = [] := by
    have := Network.holds_len h2
    rw [he] at this
    exact List.length_eq_zero_iff.mp this.symm
  subst hl
  refine ⟨n', ?_, h2, hn, h3.trans hcom⟩
  unfold Network.removeUnnecessaryNodes
  rw [hcom]
  simp only [Network.importantNodes, ok_bind, List.not_mem_nil, not_false_eq_true, decide_true, List.filter_true]
  exact h1

/-- **C50**, hypotheses met: a node to compress, a cycle that vanishes, and a commodity to fail on. -/
example : ∃ n : Network Unit, ∃ l, Holds n l false ∧ n.commodities = [] ∧ (∀ r ∈ l, r.tail ≠ r.head) ∧ (∀ r ∈ l, 0 ≤ r.travelTime) ∧
    l.length = 5 ∧ (n.compressLonelyNodes.map (fun n => (n.graph.nodes, n.travelTime))) = .ok ([0, 2], [7, 3]) := by
  have hok : RoadOpsOk [] false [.add ⟨0, 1, 1, 2⟩, .add ⟨1, 2, 2, 3⟩, .add ⟨0, 2, 7, 1⟩, .add ⟨2, 3, 1, 1⟩, .add ⟨3, 2, 1, 1⟩] := by
    simp [RoadOpsOk, stepRev]
  obtain ⟨n, h1, h2⟩ := C49_aligned (P := Unit) _ hok
  refine ⟨n, _, h2, ?_, ?_, ?_, rfl, ?_⟩
  · have : (runNet (Network.empty : Network Unit) [.add ⟨0, 1, 1, 2⟩, .add ⟨1, 2, 2, 3⟩, .add ⟨0, 2, 7, 1⟩, .add ⟨2, 3, 1, 1⟩, .add ⟨3, 2, 1, 1⟩]).map
      (fun n => n.commodities) = .ok [] := rfl
    rw [h1] at this
    simpa [Except.map] using this
  · simp [stepRoads]
  · simp [stepRoads]
  · have : (runNet (Network.empty : Network Unit) [.add ⟨0, 1, 1, 2⟩, .add ⟨1, 2, 2, 3⟩, .add ⟨0, 2, 7, 1⟩, .add ⟨2, 3, 1, 1⟩, .add ⟨3, 2, 1, 1⟩]).bind
      (fun n => n.compressLonelyNodes.map (fun n => (n.graph.nodes, n.travelTime))) = .ok ([0, 2], [7, 3]) := by decide +kernel
    rw [h1] at this
    exact this

/-- **C51** (part: graphs that are not reversed, every node with an edge, commodities between nodes of the network).
A network read back from its pickle has the same edges in the same order, ids, attributes, nodes, orders of adjacency
lists, and commodities. Missing: the other networks, where the code loses nodes or flips edges. -/
theorem C51_roundtrip_partial {P : Type} {n : Network P} {l : List Road} (h : Holds n l false)
    (hiso : ∀ v ∈ n.graph.nodes, ∃ r ∈ l, v = r.tail ∨ v = r.head)
    (hcom : ∀ c ∈ n.commodities, c.sink ∈ n.graph.nodes ∧ ∀ s ∈ c.sources, s.1 ∈ n.graph.nodes) :
    ∃ n', Network.setstate n.getstate = .ok n' ∧ Holds n' l false ∧ n'.commodities = n.commodities ∧
      (∀ v, v ∈ n'.graph.nodes ↔ v ∈ n.graph.nodes) ∧
      ∀ v ∈ n.graph.nodes,
        (n'.graph.outgoing v).map (fun r => (n'.graph.edge r).id) = (n.graph.outgoing v).map (fun r => (n.graph.edge r).id) ∧
        (n'.graph.incoming v).map (fun r => (n'.graph.edge r).id) = (n.graph.incoming v).map (fun r => (n.graph.edge r).id) := by
  have hst : n.graph.getstate = ⟨pairs n.graph, false⟩ := by
    unfold Graph.getstate Spec.pairs Graph.nodeFrom Graph.nodeTo
    rw [h.rev]; rfl
  obtain ⟨a1, a2, a3, a4⟩ := Graph.setstate_spec (pairs n.graph) Graph.empty Graph.empty_consistent rfl
  have hs : Graph.setstate n.graph.getstate = (pairs n.graph).foldl (fun g p => g.addEdge p.1 p.2) Graph.empty := by
    rw [hst]; rfl
  rw [← hs] at a1 a2 a3 a4
  have hn : ∀ v, v ∈ (Graph.setstate n.graph.getstate).nodes ↔ v ∈ n.graph.nodes := by
    intro v
    rw [a4]
    constructor
    · rintro (hv | ⟨p, hp, hv⟩)
      · simp [Graph.empty] at hv
      · obtain ⟨r, hr, rfl⟩ := List.mem_map.mp hp
        have := h.graph.ends r hr
        unfold Graph.nodeFrom Graph.nodeTo at this
        rw [h.rev] at this
        rcases hv with rfl | rfl
        · exact this.1
        · exact this.2
    · intro hv
      right
      obtain ⟨r, hr, e⟩ := hiso v hv
      rw [h.pairs]
      exact ⟨(r.tail, r.head), List.mem_map.mpr ⟨r, hr, rfl⟩, e⟩
  have hh : Holds (⟨Graph.setstate n.graph.getstate, n.capacity, n.travelTime, n.commodities⟩ : Network P) l false :=
    ⟨a1, a2, by rw [a3]; show [] ++ _ = _; rw [List.nil_append]; exact h.pairs, h.cap, h.time⟩
  have hends : Graph.ends (Graph.setstate n.graph.getstate) = Graph.ends n.graph := by
    have : ∀ g : Graph, g.reversed = false → Graph.ends g = pairs g := by
      intro g hg; unfold Graph.ends Spec.pairs Graph.nodeFrom Graph.nodeTo; rw [hg]; rfl
    rw [this _ a2, this _ h.rev, hh.pairs, h.pairs]
  refine ⟨_, ?_, hh, rfl, hn, ?_⟩
  · unfold Network.setstate
    rw [Network.addCommodities_spec]
    · simp [Network.getstate]
    · intro c hc
      obtain ⟨c1, c2⟩ := hcom c hc
      exact ⟨(hn _).mpr c1, fun s hs => (hn _).mpr (c2 s hs)⟩
  · intro v hv
    constructor
    · rw [h.graph.out v hv]
      show ((Graph.setstate n.graph.getstate).outgoing v).map _ = _
      rw [a1.out v ((hn v).mpr hv)]
      rw [Graph.map_id_filter a1 (fun p => p.1 = v), Graph.map_id_filter h.graph (fun p => p.1 = v), hends]
    · rw [h.graph.inc v hv]
      show ((Graph.setstate n.graph.getstate).incoming v).map _ = _
      rw [a1.inc v ((hn v).mpr hv)]
      rw [Graph.map_id_filter a1 (fun p => p.2 = v), Graph.map_id_filter h.graph (fun p => p.2 = v), hends]

/-- **C51**, hypotheses met, on the sample history. -/
example : ∃ n : Network Unit, ∃ l, runNet Network.empty roadOps = .ok n ∧ Holds n l false ∧ l.length = 3 ∧
    ∀ v ∈ n.graph.nodes, ∃ r ∈ l, v = r.tail ∨ v = r.head := by
  obtain ⟨n, h1, h2⟩ := C49_aligned (P := Unit) roadOps (by simp [roadOps, RoadOpsOk, stepRoads, stepRev])
  refine ⟨n, _, h1, h2, rfl, ?_⟩
  have : (runNet (Network.empty : Network Unit) roadOps).map (fun n => n.graph.nodes) = .ok [0, 1, 2] := by rfl
  rw [h1] at this
  simp only [Except.map, Except.ok.injEq] at this
  rw [this]
  simp [roadOps, stepRoads]

/-- **C51, the negation.** A reversed graph comes back with its edge flipped (against what its own adjacency lists say). -/
theorem C51_reversed_fails : ∃ ops : List RoadOp, RoadOpsOk [] false ops ∧ ∃ n n' : Network Unit,
    runNet Network.empty ops = .ok n ∧ Network.setstate n.getstate = .ok n' ∧
    n.graph.edges.map (fun r => (n.graph.nodeFrom r, n.graph.nodeTo r)) = [(1, 0)] ∧
    n'.graph.edges.map (fun r => (n'.graph.nodeFrom r, n'.graph.nodeTo r)) = [(0, 1)] ∧ ¬ Consistent n'.graph := by
  refine ⟨[.add ⟨0, 1, 1, 1⟩, .reverse], ⟨rfl, trivial, trivial⟩, _, _, rfl, rfl, rfl, rfl, ?_⟩
  intro h
  have := h.out 0 (by decide)
  revert this
  decide

/-- **C51, the negation.** A node without edges is lost; if it is the sink of a commodity, reading the pickle fails. -/
theorem C51_isolated_fails : ∃ ops : List RoadOp, RoadOpsOk [] false ops ∧ ∃ n n1 : Network Unit,
    runNet Network.empty ops = .ok n ∧ n.graph.nodes = [0, 1, 2] ∧
    (Network.setstate n.getstate).map (fun m => m.graph.nodes) = .ok [0, 1] ∧
    n.addCommodity [] 2 () = .ok n1 ∧
    (Network.setstate n1.getstate).map (fun m => m.graph.nodes) = .error .assertion :=
  ⟨[.add ⟨0, 1, 1, 1⟩, .add ⟨1, 2, 1, 1⟩, .remove 1], by simp [RoadOpsOk, stepRoads, stepRev], _, _, rfl, rfl, rfl, rfl, rfl⟩

end Verif.Props
