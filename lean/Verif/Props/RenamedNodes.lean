import Verif.Props.ReproducibleBuild
import Verif.Props.AvgTravelTime
import Verif.Proofs.RenameNodesOk

/-! Property theorems C124 (src/core/network.py, src/core/graph.py, src/core/flow_builder.py): the names of the nodes of a network do not matter. -/

namespace Verif.Props
open Verif Spec Builder

variable {P : Type} {σ : Nat → Nat}

/-- **C124**: adding roads and commodities with other names for the nodes gives the network with other names for its nodes, or raises the same exception. -/
theorem C124_same_calls (hσ : Function.Injective σ) (roads : List (Nat × Nat × ℚ × ℚ)) (cs : List (Commodity P)) :
    (∀ n, buildUp roads cs = .ok n → ∃ n', buildUp (roads.map (fun r => (σ r.1, σ r.2.1, r.2.2))) (cs.map (renameCommodity σ)) = .ok n' ∧ NodesRenamed σ n n') ∧
    ∀ e, buildUp roads cs = .error e → buildUp (roads.map (fun r => (σ r.1, σ r.2.1, r.2.2))) (cs.map (renameCommodity σ)) = .error e := by
  have h := Renode.buildUp_ren hσ roads cs
  constructor
  · intro n hn
    rw [hn] at h
    cases hb : buildUp (roads.map (fun r => (σ r.1, σ r.2.1, r.2.2))) (cs.map (renameCommodity σ)) with
    | error e => rw [hb] at h; exact h.elim
    | ok n' => rw [hb] at h; exact ⟨n', rfl, h⟩
  · intro e hn
    rw [hn] at h
    cases hb : buildUp (roads.map (fun r => (σ r.1, σ r.2.1, r.2.2))) (cs.map (renameCommodity σ)) with
    | error e' => rw [hb] at h; exact congrArg Except.error h.symm
    | ok n' => rw [hb] at h; exact h.elim

/-- **C124**: the travel times and arrival times that the searches compute are the same at the renamed nodes, and so are the active edges; a search that raises raises the same. -/
theorem C124_searches (hσ : Function.Injective σ) {g g' : Graph} (hg : GraphRenamed σ g g') :
    (∀ sink costs nodes,
      (∀ l, Dijkstra.reverseDijkstra g sink costs nodes = .ok l → ∃ l', Dijkstra.reverseDijkstra g' (σ sink) costs (nodes.map σ) = .ok l' ∧ ∀ v, l' (σ v) = l v) ∧
      ∀ e, Dijkstra.reverseDijkstra g sink costs nodes = .error e → Dijkstra.reverseDijkstra g' (σ sink) costs (nodes.map σ) = .error e) ∧
    ∀ phi s sink nodes costs,
      (∀ r, Dijkstra.dynamicDijkstra g phi s sink nodes costs = .ok r → ∃ r', Dijkstra.dynamicDijkstra g' phi (σ s) (σ sink) (nodes.map σ) costs = .ok r' ∧
        (∀ v, r'.arrival (σ v) = r.arrival v) ∧ r'.realized = r.realized ∧ ∀ v, Dijkstra.activeEdges g' r' (σ v) (σ sink) = Dijkstra.activeEdges g r v sink) ∧
      ∀ e, Dijkstra.dynamicDijkstra g phi s sink nodes costs = .error e → Dijkstra.dynamicDijkstra g' phi (σ s) (σ sink) (nodes.map σ) costs = .error e := by
  constructor
  · intro sink costs nodes
    have h := Renode.reverseDijkstra_ren hσ hg sink costs nodes
    constructor
    · intro l hl
      rw [hl] at h
      cases hb : Dijkstra.reverseDijkstra g' (σ sink) costs (nodes.map σ) with
      | error e => rw [hb] at h; exact h.elim
      | ok l' => rw [hb] at h; exact ⟨l', rfl, h⟩
    · intro e hl
      rw [hl] at h
      cases hb : Dijkstra.reverseDijkstra g' (σ sink) costs (nodes.map σ) with
      | error e' => rw [hb] at h; exact congrArg Except.error h.symm
      | ok l' => rw [hb] at h; exact h.elim
  · intro phi s sink nodes costs
    have h := Renode.dynamicDijkstra_ren hσ hg phi s sink nodes costs
    constructor
    · intro r hr
      rw [hr] at h
      cases hb : Dijkstra.dynamicDijkstra g' phi (σ s) (σ sink) (nodes.map σ) costs with
      | error e => rw [hb] at h; exact h.elim
      | ok r' => rw [hb] at h; exact ⟨r', rfl, h.1, h.2, fun v => Renode.activeEdges_ren hσ hg h v sink⟩
    · intro e hr
      rw [hr] at h
      cases hb : Dijkstra.dynamicDijkstra g' phi (σ s) (σ sink) (nodes.map σ) costs with
      | error e' => rw [hb] at h; exact congrArg Except.error h.symm
      | ok r' => rw [hb] at h; exact h.elim

/-- **C124**: the average travel time of a commodity is the same. -/
theorem C124_average (hσ : Function.Injective σ) {n n' : Network P} (hn : NodesRenamed σ n n') (flow : DFlow) (i : Nat) (horizon : ℚ) :
    AvgTravelTime.avgTravelTime n' flow i horizon = AvgTravelTime.avgTravelTime n flow i horizon := by
  unfold AvgTravelTime.avgTravelTime
  rw [hn.commodities]
  unfold rd
  rw [List.getElem?_map]
  cases n.commodities[i]? with
  | none => rfl
  | some c =>
    simp only [Option.map_some, ok_bind]
    have h1 : AvgTravelTime.sinkOutflows n' flow i (renameCommodity σ c) = AvgTravelTime.sinkOutflows n flow i c := by
      unfold AvgTravelTime.sinkOutflows
      rw [show (renameCommodity σ c).sink = σ c.sink from rfl, Renode.in_ren hn.graph]
      simp only [hn.graph.ids]
    have h2 : (renameCommodity σ c).sources.map Prod.snd = c.sources.map Prod.snd := by
      simp only [renameCommodity, List.map_map]; rfl
    rw [h1, h2]

variable [DecidableEq P] {n n' : Network P} {ord ord' : List Nat → List Nat} {preds : P → Predictor} {d : ℚ} {b0 : Builder P} {k : Nat}

/-- **C124**: building the flow of the network with other names for its nodes gives the same flow after each number of rounds, the same predictions and the
same next routing time, or raises the same exception in the same round; whatever the network, the predictors and the interval are, as long as
sets of nodes are iterated over in corresponding orders. -/
theorem C124_same_flow (hσ : Function.Injective σ) (hn : NodesRenamed σ n n') (hord : ∀ l, ord (l.map σ) = (ord l).map σ) (d : Option ℚ) :
    (∀ e, Builder.init n d = .error e → Builder.init n' d = .error e) ∧
    ∀ b, Builder.init n d = .ok b → ∃ b', Builder.init n' d = .ok b' ∧ ∀ k,
      (∀ e, rounds ord preds k { b with built := true } = .error e → rounds ord preds k { b' with built := true } = .error e) ∧
      ∀ c, rounds ord preds k { b with built := true } = .ok c → ∃ c', rounds ord preds k { b' with built := true } = .ok c' ∧
        c'.flow = c.flow ∧ c'.cache = c.cache ∧ c'.nextReroute = c.nextReroute ∧ c'.route = c.route ∧ c'.handle = c.handle.map σ := by
  have h := Renode.init_ren hσ hn d
  constructor
  · intro e he
    rw [he] at h
    cases hb : Builder.init n' d with
    | error e' => rw [hb] at h; exact congrArg Except.error h.symm
    | ok b' => rw [hb] at h; exact h.elim
  · intro b hb
    rw [hb] at h
    cases hb' : Builder.init n' d with
    | error e => rw [hb'] at h; exact h.elim
    | ok b' =>
      rw [hb'] at h
      have h : Renode.BRen σ b b' := h
      have h' : Renode.BRen σ { b with built := true } { b' with built := true } :=
        ⟨h.net, h.interval, h.active, rfl, h.handle, h.flow, h.next, h.route, h.important, h.inflow, h.sinks, h.changes, h.cache⟩
      refine ⟨b', rfl, fun k => ?_⟩
      have hr := Renode.rounds_ren (preds := preds) hσ hord h' k
      constructor
      · intro e he
        rw [he] at hr
        cases hc : rounds ord preds k { b' with built := true } with
        | error e' => rw [hc] at hr; exact congrArg Except.error hr.symm
        | ok c' => rw [hc] at hr; exact hr.elim
      · intro c hc
        rw [hc] at hr
        cases hc' : rounds ord preds k { b' with built := true } with
        | error e => rw [hc'] at hr; exact hr.elim
        | ok c' =>
          rw [hc'] at hr
          have hr : Renode.BRen σ c c' := hr
          exact ⟨c', rfl, hr.flow, hr.cache, hr.next, hr.route, hr.handle⟩

theorem dedup_ren (hσ : Function.Injective σ) (l : List Nat) : (l.map σ).dedup = l.dedup.map σ := List.dedup_map_of_injective hσ l

/-- **C124**, in any order: if building touches no tolerance, then building the network with other names for its nodes, iterating over sets in any other order, touches no
tolerance either and records the same flow after each number of rounds. -/
theorem C124_any_order (hσ : Function.Injective σ) (hn : NodesRenamed σ n n') (h : Building n ord preds d b0 k) (hord' : OrderOk ord') (hbl : ∀ p, Blind (preds p))
    (hsh : SharedNodes n preds) :
    ∃ b0', Building n' ord' preds d b0' k ∧ ∃ b c, rounds ord preds k b0 = .ok b ∧ rounds ord' preds k b0' = .ok c ∧ SameRecord b.flow c.flow ∧
      (∀ e, SameReading b.flow c.flow e) ∧ b.cache = c.cache ∧ b.nextReroute = c.nextReroute ∧ b.route = c.route ∧ ∀ v, σ v ∈ c.handle ↔ v ∈ b.handle := by
  obtain ⟨h1, b, c, r1, r2, s1, s2, s3, s4, s5, s6⟩ := C109_order h dedup_order hbl hsh
  obtain ⟨a, ha, rfl⟩ := h.made
  obtain ⟨a', ha', hk⟩ := (C124_same_flow (preds := preds) hσ hn (dedup_ren hσ) (some d)).2 a ha
  obtain ⟨c', r3, q1, q2, q3, q4, q5⟩ := (hk k).2 c r2
  have hren := Renode.init_ren hσ hn (some d)
  rw [ha, ha'] at hren
  have hren : Renode.BRen σ a a' := hren
  have hren' : Renode.BRen σ { a with built := true } { a' with built := true } :=
    ⟨hren.net, hren.interval, hren.active, rfl, hren.handle, hren.flow, hren.next, hren.route, hren.important, hren.inflow, hren.sinks, hren.changes, hren.cache⟩
  have h2 : Building n' List.dedup preds d { a' with built := true } k :=
    ⟨Renode.inputOk_ren hσ hn h.input, dedup_order, Renode.predictorsOk_ren hn h.predictors, h.interval, ⟨a', ha', rfl⟩, Renode.clear_ren hσ (dedup_ren hσ) hren' h1.clear⟩
  obtain ⟨h3, x, y, t1, t2, u1, u2, u3, u4, u5, u6⟩ := C109_order h2 hord' hbl (Renode.shared_ren hσ hn hsh)
  rw [r3] at t1; injection t1 with t1; subst t1
  rw [q1] at u1 u2
  refine ⟨_, h3, b, y, r1, t2, ?_, ?_, by rw [s3, ← q2, u3], by rw [s4, ← q3, u4], by rw [s5, ← q4, u5], fun v => ?_⟩
  · exact ⟨s1.phi.trans u1.phi, fun e => ⟨(s1.edge e).inRates.trans (u1.edge e).inRates, (s1.edge e).inTotal.trans (u1.edge e).inTotal, (s1.edge e).outRates.trans (u1.edge e).outRates,
      (s1.edge e).outTotal.trans (u1.edge e).outTotal, (s1.edge e).queue.trans (u1.edge e).queue⟩⟩
  · intro e
    obtain ⟨v, w, _, t, a1, a2, a3⟩ := s2 e
    obtain ⟨v', w', _, t', b1, b2, b3⟩ := u2 e
    rw [a2] at b1; injection b1 with b1; injection b1 with b1 b4
    subst b1
    exact ⟨v, w', _, t', a1, b2, a3.nodup, b3.nodup', fun i => (a3.same i).trans (b3.same i)⟩
  · rw [← u6, q5, Renode.mem_ren hσ, s6]

/-- The network of C43 with nodes 7, 8, 9 for 0, 1, 2. -/
def movedNet : Network (Fin 3) :=
  { ((((Network.empty : Network (Fin 3)).addEdge 7 8 1 1).addEdge 7 8 1 2).addEdge 7 9 4 1).addEdge 8 9 1 1 with
    commodities := buildNet.commodities.map (renameCommodity (· + 7)) }

theorem movedNet_renamed : NodesRenamed (· + 7) buildNet movedNet := by
  have h := Renode.roads_ren (P := Fin 3) (σ := (· + 7)) (add_left_injective 7) [(0, 1, 1, 1), (0, 1, 1, 2), (0, 2, 4, 1), (1, 2, 1, 1)] _ _ Renode.empty_ren
  exact ⟨h.graph, h.capacity, h.travelTime, rfl⟩

/-- The hypotheses are met by the example of C43; more flow enters the first road at time 1 than its capacity, 1. -/
example : Function.Injective (fun v : Nat => v + 7) ∧ NodesRenamed (· + 7) buildNet movedNet ∧ movedNet.graph.nodes = [7, 8, 9] ∧ OrderOk (fun l => l.dedup.reverse) ∧
    (∀ p, Blind (buildPreds p)) ∧ SharedNodes buildNet buildPreds ∧
    ∃ b0 b, Building buildNet List.dedup buildPreds 2 b0 7 ∧ rounds List.dedup buildPreds 7 b0 = .ok b ∧ inRate b.flow 0 0 1 = 3 / 2 ∧ inRate b.flow 0 1 1 = 1 / 2 := by
  refine ⟨add_left_injective 7, movedNet_renamed, by decide +kernel, reverse_order, buildPreds_blind, buildNet_shared, ?_⟩
  obtain ⟨b0, h1, h2, b, h3, h4⟩ := buildB_sound (show buildB List.dedup buildPreds buildNet 2 7 (fun b => decide (inRate b.flow 0 0 1 = 3 / 2 ∧ inRate b.flow 0 1 1 = 1 / 2)) = true by decide +kernel)
  obtain ⟨x1, x2⟩ := of_decide_eq_true h4
  exact ⟨_, b, ⟨buildNet_ok, dedup_order, buildPreds_ok, by norm_num, ⟨b0, h1, rfl⟩, h2⟩, h3, x1, x2⟩

/-- Roads and commodities are accepted under both sets of names, or refused under both. -/
example : (match buildUp (P := Nat) [(0, 1, 1, 1), (1, 2, 1, 1)] [⟨[(0, ⟨[0], [1], ((0 : ℚ) : WithBot ℚ), ⊤⟩)], 2, 0⟩],
      buildUp (P := Nat) [(7, 8, 1, 1), (8, 9, 1, 1)] [⟨[(7, ⟨[0], [1], ((0 : ℚ) : WithBot ℚ), ⊤⟩)], 9, 0⟩] with
    | .ok n, .ok n' => decide (n.graph.nodes = [0, 1, 2] ∧ n'.graph.nodes = [7, 8, 9])
    | _, _ => false) = true ∧
    (match buildUp (P := Nat) [(0, 1, 1, 1), (1, 2, 1, 1)] [⟨[(2, ⟨[0], [1], ((0 : ℚ) : WithBot ℚ), ⊤⟩)], 5, 0⟩] with
    | .ok _ => false
    | .error e => decide (e = .assertion)) = true := by decide +kernel

end Verif.Props
