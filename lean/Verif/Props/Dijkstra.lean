import Verif.Proofs.DijkstraDyn
import Verif.Props.Graph

/-! Property theorems C39–C41 (src/core/dijkstra.py). -/

namespace Verif.Props
open Verif Verif.Spec Verif.Dijkstra

/-- **C39.** For a non-negative cost per edge, `reverse_dijkstra` terminates without an exception. It labels exactly the
nodes with a route to the sink inside `nodes`; each label is the length of such a route and at most `eps` per edge longer
than any; the label of the sink is 0. -/
theorem C39_distances {g : Graph} {costs : List ℚ} {nodes : List Nat} {sink : Nat} (hg : Consistent g)
    (hlen : costs.length = g.edges.length) (hpos : ∀ x ∈ costs, 0 ≤ x) (hsub : ∀ v ∈ nodes, v ∈ g.nodes) (hs : sink ∈ nodes) :
    ∃ dist, reverseDijkstra g sink costs nodes = .ok dist ∧
      (∀ v, (∃ d, dist v = some d) ↔ ∃ k L, Route g (costOf g costs) nodes sink v k L) ∧
      (∀ v d, dist v = some d → (∃ k, Route g (costOf g costs) nodes sink v k d) ∧
        ∀ k L, Route g (costOf g costs) nodes sink v k L → d ≤ L + k * eps) ∧
      dist sink = some 0 := by
  obtain ⟨dist, h1, h2, h3, _, _, h4⟩ := reverseDijkstra_spec hg hlen hpos hsub hs
  exact ⟨dist, h1, h2, h3, h4⟩

/-- **C39**, per edge: labels grow at most by the cost plus `eps` against an edge, and at every labelled node but the sink
some edge attains the label, so that each such node has an edge on a shortest route. -/
theorem C39_edges {g : Graph} {costs : List ℚ} {nodes : List Nat} {sink : Nat} {dist : Nat → Option ℚ} (hg : Consistent g)
    (hlen : costs.length = g.edges.length) (hpos : ∀ x ∈ costs, 0 ≤ x) (hsub : ∀ v ∈ nodes, v ∈ g.nodes) (hs : sink ∈ nodes)
    (h : reverseDijkstra g sink costs nodes = .ok dist) :
    (∀ e ∈ g.edges, g.nodeFrom e ∈ nodes → ∀ dw, dist (g.nodeTo e) = some dw →
        ∃ d, dist (g.nodeFrom e) = some d ∧ d ≤ costOf g costs e + dw + eps) ∧
    (∀ v d, dist v = some d → v ≠ sink → ∃ e ∈ g.edges, g.nodeFrom e = v ∧ ∃ dw, dist (g.nodeTo e) = some dw ∧ d = costOf g costs e + dw) := by
  obtain ⟨dist', h1, h2, h3, h4, h5, h6⟩ := reverseDijkstra_spec hg hlen hpos hsub hs
  rw [h] at h1; injection h1 with h1; subst h1
  exact ⟨h4, h5⟩

/-- **C39, the tolerance is needed.** A route shorter by less than `eps` can be missed. -/
theorem C39_not_exact : ∃ (n : Network Unit) (costs : List ℚ) (dist : Nat → Option ℚ) (L : ℚ),
    Holds n [⟨0, 1, 1, 1⟩, ⟨0, 2, 1, 1⟩, ⟨2, 1, 1, 1⟩] false ∧ reverseDijkstra n.graph 1 costs [0, 1, 2] = .ok dist ∧
    (∀ x ∈ costs, 0 ≤ x) ∧ dist 0 = some 2 ∧ L < 2 ∧ Route n.graph (costOf n.graph costs) [0, 1, 2] 1 0 2 L := by
  obtain ⟨n, h1, h2⟩ := C49_aligned (P := Unit) [.add ⟨0, 1, 1, 1⟩, .add ⟨0, 2, 1, 1⟩, .add ⟨2, 1, 1, 1⟩] (by simp [RoadOpsOk, stepRev])
  simp only [runNet, stepNet, ok_bind, Except.ok.injEq] at h1
  obtain ⟨dist, h3, _⟩ := C39_distances (g := n.graph) (costs := [2, 1, 1 - eps / 2]) (nodes := [0, 1, 2]) (sink := 1) h2.graph (by subst h1; rfl)
    (by unfold eps; decide +kernel) (by subst h1; decide) (by simp)
  have hd : dist 0 = some 2 := by
    have : (reverseDijkstra n.graph 1 [2, 1, 1 - eps / 2] [0, 1, 2]).map (fun d => d 0) = .ok (some 2) := by
      subst h1; unfold eps; decide +kernel
    rw [h3] at this
    simpa [Except.map] using this
  refine ⟨n, _, dist, 1 + (1 - eps / 2 + 0), h2, h3, by unfold eps; decide +kernel, hd, by unfold eps; decide +kernel, ?_⟩
  subst h1
  exact Route.cons (nodes := [0, 1, 2]) (sink := 1) (k := 1) (L := 1 - eps / 2 + 0) 1 (by decide) (by decide)
    (Route.cons (k := 0) (L := 0) 2 (by decide) (by decide) Route.nil)

/-- **C40.** For cost callables that are non-negative and first in first out from `phi` on, `dynamic_dijkstra` terminates
without an exception. Every returned time is the earliest possible arrival at that node; a node that can be reached is
returned or can only be reached at or after the arrival at the sink, so the sink is returned whenever it can be reached;
no returned time is later than that of the sink; costs are recorded for edges explored, taken at the earliest arrival at
their tail. -/
theorem C40_earliest {g : Graph} {c : Nat → ℚ → ℚ} {phi : ℚ} {source sink : Nat} {relevant : List Nat} {costs : List (ℚ → Py ℚ)}
    (hg : Consistent g) (hc : FifoCosts g phi costs c) (hs : source ∈ g.nodes) (hsub : ∀ v ∈ relevant, v ∈ g.nodes) :
    ∃ res, dynamicDijkstra g phi source sink relevant costs = .ok res ∧
      (∀ v a, res.arrival v = some a →
        Arrives g c relevant source phi v a ∧ ∀ t, Arrives g c relevant source phi v t → a ≤ t) ∧
      (∀ v t, Arrives g c relevant source phi v t →
        (∃ a, res.arrival v = some a) ∨ ∃ b, res.arrival sink = some b ∧ b ≤ t) ∧
      ((∃ t, Arrives g c relevant source phi sink t) → ∃ b, res.arrival sink = some b) ∧
      (∀ v a b, res.arrival v = some a → res.arrival sink = some b → a ≤ b) ∧
      (∀ e x, res.realized e = some x → e ∈ g.edges ∧ g.nodeTo e ∈ relevant ∧
        ∃ a, res.arrival (g.nodeFrom e) = some a ∧ x = c e a) := by
  obtain ⟨res, h1, h2⟩ := dynamicDijkstra_spec (sink := sink) hg hc hs hsub
  refine ⟨res, h1, fun v a ha => (h2.earliest v a ha).2, h2.all, ?_, h2.last, h2.real⟩
  rintro ⟨t, ht⟩
  rcases h2.all sink t ht with h | ⟨b, hb, _⟩
  · exact h
  · exact ⟨b, hb⟩

/-- **C41.** When the sink can be reached and is not the source, `get_active_edges_from_dijkstra` applied to the result of
the search returns, without an exception, each once, exactly the explored edges out of the source that are tight up to
`eps` and from whose head a route of such edges leads to the sink; there is at least one. -/
theorem C41_active {g : Graph} {c : Nat → ℚ → ℚ} {phi : ℚ} {source sink : Nat} {relevant : List Nat} {costs : List (ℚ → Py ℚ)} {res : Result}
    (hg : Consistent g) (hc : FifoCosts g phi costs c) (hs : source ∈ g.nodes) (ht : sink ∈ g.nodes) (hsub : ∀ v ∈ relevant, v ∈ g.nodes)
    (hres : dynamicDijkstra g phi source sink relevant costs = .ok res) (hne : source ≠ sink)
    (hreach : ∃ t, Arrives g c relevant source phi sink t) :
    ∃ S, activeEdges g res source sink = .ok S ∧ S ≠ [] ∧ S.Nodup ∧
      ∀ e, e ∈ S ↔ e ∈ g.edges ∧ g.nodeFrom e = source ∧ Tight g res eps e ∧ TightPath g res eps (g.nodeTo e) sink := by
  obtain ⟨res', h1, h2⟩ := dynamicDijkstra_spec (sink := sink) hg hc hs hsub
  rw [hres] at h1; injection h1 with h1; subst h1
  obtain ⟨t, hr⟩ := hreach
  have hb : ∃ b, res.arrival sink = some b := by
    rcases h2.all sink t hr with h | ⟨b, hb, _⟩
    · exact h
    · exact ⟨b, hb⟩
  obtain ⟨b, hb'⟩ := hb
  exact activeEdges_spec hg (fun e x hx => by obtain ⟨_, _, a, ha, _⟩ := h2.real e x hx; exact ⟨a, ha⟩) ⟨b, hb'⟩ ht (h2.path sink b hb') hne

/-- Leaving the tail at its earliest arrival, the head is reached at most `eps` after its earliest arrival. -/
def OnTime (g : Graph) (c : Nat → ℚ → ℚ) (relevant : List Nat) (source : Nat) (phi : ℚ) (res : Result) (e : Nat) : Prop :=
  g.nodeTo e ∈ relevant ∧ ∃ a b, res.arrival (g.nodeFrom e) = some a ∧ res.arrival (g.nodeTo e) = some b ∧
    (∀ t, Arrives g c relevant source phi (g.nodeFrom e) t → a ≤ t) ∧
    (∀ t, Arrives g c relevant source phi (g.nodeTo e) t → b ≤ t) ∧ a + c e a ≤ b + eps

/-- **C41**, complete for costs above `eps`: then the active edges are exactly those that start a route to the sink on
which every edge reaches its head at its earliest arrival, up to `eps`, whether explored or not. -/
theorem C41_complete {g : Graph} {c : Nat → ℚ → ℚ} {phi : ℚ} {source sink : Nat} {relevant : List Nat} {costs : List (ℚ → Py ℚ)} {res : Result}
    (hg : Consistent g) (hc : FifoCosts g phi costs c) (hs : source ∈ g.nodes) (ht : sink ∈ g.nodes) (hsub : ∀ v ∈ relevant, v ∈ g.nodes)
    (hres : dynamicDijkstra g phi source sink relevant costs = .ok res) (hne : source ≠ sink)
    (hreach : ∃ t, Arrives g c relevant source phi sink t) (hbig : ∀ e ∈ g.edges, ∀ t, phi ≤ t → eps < c e t) :
    ∃ S, activeEdges g res source sink = .ok S ∧
      ∀ e, e ∈ S ↔ e ∈ g.edges ∧ g.nodeFrom e = source ∧ OnTime g c relevant source phi res e ∧
        Relation.ReflTransGen (fun u v => ∃ e ∈ g.edges, g.nodeFrom e = u ∧ g.nodeTo e = v ∧ OnTime g c relevant source phi res e)
          (g.nodeTo e) sink := by
  obtain ⟨S, h1, _, _, h4⟩ := C41_active hg hc hs ht hsub hres hne hreach
  obtain ⟨res', p1, h2⟩ := dynamicDijkstra_spec (sink := sink) hg hc hs hsub
  rw [hres] at p1; injection p1 with p1; subst p1
  obtain ⟨t, hr⟩ := hreach
  have hb : ∃ b, res.arrival sink = some b := by
    rcases h2.all sink t hr with h | ⟨b, hb, _⟩
    · exact h
    · exact ⟨b, hb⟩
  obtain ⟨bs, hbs⟩ := hb
  have key : ∀ e ∈ g.edges, (Tight g res eps e ↔ OnTime g c relevant source phi res e) := by
    intro e he
    constructor
    · rintro ⟨x, a, b, y1, y2, y3, y4⟩
      obtain ⟨_, hw, a', z1, z2⟩ := h2.real e x y1
      rw [y2] at z1; injection z1 with z1; subst z1; subst z2
      exact ⟨hw, a, b, y2, y3, (h2.earliest _ _ y2).2.2, (h2.earliest _ _ y3).2.2, y4⟩
    · rintro ⟨hw, a, b, y2, y3, _, _, y4⟩
      have hp := (h2.earliest _ _ y2).1
      have hcb := hbig e he a hp
      have hns : g.nodeFrom e ≠ sink := by
        intro es
        rw [es] at y2
        have := h2.last _ _ _ y3 y2
        linarith
      rcases h2.explored _ a y2 hns e he rfl hw with hx | ⟨b', hb', hb''⟩
      · exact ⟨_, a, b, hx, y2, y3, y4⟩
      · rw [y3] at hb''; injection hb'' with hb''; subst hb''
        linarith
  refine ⟨S, h1, fun e => ?_⟩
  rw [h4]
  constructor
  · rintro ⟨x1, x2, x3, x4⟩
    exact ⟨x1, x2, (key e x1).mp x3, rtg_mono (fun a b ⟨e', y1, y2, y3, y4⟩ => ⟨e', y1, y2, y3, (key e' y1).mp y4⟩) x4⟩
  · rintro ⟨x1, x2, x3, x4⟩
    exact ⟨x1, x2, (key e x1).mpr x3, rtg_mono (fun a b ⟨e', y1, y2, y3, y4⟩ => ⟨e', y1, y2, y3, (key e' y1).mpr y4⟩) x4⟩

/-- **C41.** For `source = sink` no edge is explored and the final assertion fails. -/
theorem C41_source_is_sink {g : Graph} {phi : ℚ} {source : Nat} {relevant : List Nat} {costs : List (ℚ → Py ℚ)} :
    ∃ res, dynamicDijkstra g phi source source relevant costs = .ok res ∧ activeEdges g res source source = .error .assertion := by
  obtain ⟨q, q1, q2⟩ := Heap.rep_single (K := ℚ) (T := Nat) source phi
  unfold dynamicDijkstra
  rw [q1, ok_bind]
  unfold dynamicLoop
  rcases q2.cases with ⟨hd, hn⟩ | ⟨q1', w, k, hd, hkey, _, hpop, hM, _⟩
  · have := hn source; simp at this
  · have hlen' : q.len > 0 := List.length_pos_iff.mpr hd
    obtain ⟨root, hr0, hrk⟩ := Option.map_eq_some_iff.mp hkey
    have hws : w = source := by
      by_contra e; simp [e] at hM
    rw [if_pos hlen', rd_eq_ok.mpr hr0, ok_bind, hpop, ok_bind]
    simp only [hws, if_true]
    refine ⟨_, rfl, ?_⟩
    have hscan : ∀ (es A T Q : List Nat), activeScan g ⟨put (fun _ => none) source root.key, fun _ => none⟩ source source es A T Q = .ok (A, T, Q) := by
      intro es
      induction es with
      | nil => intros; rfl
      | cons e es ih => intro A T Q; rw [activeScan]; exact ih A T Q
    unfold activeEdges activeLoop
    rw [hscan]
    simp only [ok_bind]
    unfold activeLoop
    rfl

/-- A diamond with a slow detour: 0→1→3, 0→2→3, 0→3. -/
def diamond : List RoadOp := [.add ⟨0, 1, 1, 1⟩, .add ⟨1, 3, 1, 1⟩, .add ⟨0, 2, 1, 1⟩, .add ⟨2, 3, 1, 1⟩, .add ⟨0, 3, 1, 1⟩]

/-- Costs that grow and shrink with time, first in first out. -/
def diamondCosts : List (ℚ → Py ℚ) :=
  [fun _ => .ok 1, fun t => .ok (2 - min 1 (max 0 t)), fun _ => .ok (1/2), fun t => .ok (1 + max 0 t), fun _ => .ok 5]

/-- **C40, C41**, hypotheses met: costs that depend on time, two routes tie, both first edges are active. -/
example : ∃ n : Network Unit, runNet Network.empty diamond = .ok n ∧ Consistent n.graph ∧ 0 ∈ n.graph.nodes ∧ 3 ∈ n.graph.nodes ∧
    (∃ c, FifoCosts n.graph 0 diamondCosts c ∧ (∀ e ∈ n.graph.edges, ∀ t, 0 ≤ t → eps < c e t) ∧
      ∃ t, Arrives n.graph c [0, 1, 2, 3] 0 0 3 t) ∧
    ((dynamicDijkstra n.graph 0 0 3 [0, 1, 2, 3] diamondCosts).bind (fun r => (activeEdges n.graph r 0 3).map (fun S => (S, r.arrival 3)))) =
      .ok ([2, 0], some 2) := by
  obtain ⟨n, h1, h2⟩ := C49_aligned (P := Unit) diamond (by simp [diamond, RoadOpsOk, stepRev])
  have hn := h1
  simp only [diamond, runNet, stepNet, ok_bind, Except.ok.injEq] at hn
  have hedges : n.graph.edges = [0, 1, 2, 3, 4] := by subst hn; rfl
  have hids : (n.graph.edge 0).id = 0 ∧ (n.graph.edge 1).id = 1 ∧ (n.graph.edge 2).id = 2 ∧ (n.graph.edge 3).id = 3 ∧ (n.graph.edge 4).id = 4 := by
    subst hn; exact ⟨rfl, rfl, rfl, rfl, rfl⟩
  have hmm : ∀ s t : ℚ, s ≤ t → s + (2 - min 1 (max 0 s)) ≤ t + (2 - min 1 (max 0 t)) := by
    intro s t h
    rcases max_cases 0 s with ⟨a, a'⟩ | ⟨a, a'⟩ <;> rcases max_cases 0 t with ⟨b, b'⟩ | ⟨b, b'⟩ <;> rw [a, b] <;>
      rcases min_cases 1 s with ⟨c, c'⟩ | ⟨c, c'⟩ <;> rcases min_cases 1 t with ⟨d, d'⟩ | ⟨d, d'⟩ <;>
      rcases min_cases (1 : ℚ) 0 with ⟨e, e'⟩ | ⟨e, e'⟩ <;> linarith
  refine ⟨n, h1, h2.graph, by subst hn; decide, by subst hn; decide, ⟨fun e t => match e with
    | 0 => 1 | 1 => 2 - min 1 (max 0 t) | 2 => 1/2 | 3 => 1 + max 0 t | _ => 5, ⟨?_, ?_, ?_⟩, ?_, ?_⟩, ?_⟩
  · intro e he
    rw [hedges] at he
    simp only [List.mem_cons, List.not_mem_nil, or_false] at he
    rcases he with rfl | rfl | rfl | rfl | rfl
    · rw [hids.1]; exact ⟨_, rfl, fun t _ => rfl⟩
    · rw [hids.2.1]; exact ⟨_, rfl, fun t _ => rfl⟩
    · rw [hids.2.2.1]; exact ⟨_, rfl, fun t _ => rfl⟩
    · rw [hids.2.2.2.1]; exact ⟨_, rfl, fun t _ => rfl⟩
    · rw [hids.2.2.2.2]; exact ⟨_, rfl, fun t _ => rfl⟩
  · intro e he t _
    have := min_le_left (1 : ℚ) (max 0 t)
    have := le_max_left (0 : ℚ) t
    rw [hedges] at he
    simp only [List.mem_cons, List.not_mem_nil, or_false] at he
    rcases he with rfl | rfl | rfl | rfl | rfl <;> simp only <;> linarith
  · intro e he s t _ hst
    have := max_le_max (le_refl (0:ℚ)) hst
    rw [hedges] at he
    simp only [List.mem_cons, List.not_mem_nil, or_false] at he
    rcases he with rfl | rfl | rfl | rfl | rfl <;> simp only <;> first | linarith | exact hmm s t hst
  · intro e he t _
    have := min_le_left (1 : ℚ) (max 0 t)
    have := le_max_left (0 : ℚ) t
    have he1 : eps < 1/2 := by unfold eps; decide +kernel
    rw [hedges] at he
    simp only [List.mem_cons, List.not_mem_nil, or_false] at he
    rcases he with rfl | rfl | rfl | rfl | rfl <;> simp only <;> linarith
  · subst hn
    exact ⟨_, Arrives.step 4 (by decide) (by decide) Arrives.start⟩
  · subst hn
    unfold diamondCosts
    decide +kernel

end Verif.Props
