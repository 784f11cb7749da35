import Verif.Proofs.Drained
import Verif.Props.Earliest

/-! C77 and C93 for flows whose queues are worked off in time. -/

namespace Verif.Props
open Verif Verif.Spec Verif.BF Verif.Evaluate Verif.AvgTravelTime Verif.Conservation

variable {P : Type} {n : Network P} {flow : DFlow} {arr : Nat → ℚ → ℚ} {H0 horizon : ℚ} {lines : List (ℚ × ℚ)} {kinks : List ℚ}

/-- The label of the source: defined exactly at the times from which the sink can be reached up to the horizon, with the earliest arrival as value. -/
theorem drained_label (hn : InputOk n) (hr : Reached n.data flow) (harr : TravelsAlways n flow arr) {source sink : Nat} (hd : Drained n flow arr sink H0 horizon lines kinks)
    (hphi : H0 ≤ flow.phi) (hsource : source ∈ n.graph.nodes) (hsink : sink ∈ n.graph.nodes) (hpath : Path n.graph source sink) {fuel : Nat} (hfuel : n.graph.nodes.length + 1 ≤ fuel) :
    ∃ labels p, optLabels fuel n flow horizon source sink = .ok labels ∧ labels source = some p ∧ GoodLabel p ∧ (∃ v, p.eval 0 = .ok v ∧ v < horizon) ∧
      ∀ t, 0 ≤ t → ((∃ x, p.eval t = .ok x) ↔ ∃ y, GetsTo n.graph arr n.graph.nodes sink source t y ∧ y ≤ horizon) ∧
        ∀ x, p.eval t = .ok x → GetsTo n.graph arr n.graph.nodes sink source t x ∧ ∀ y, GetsTo n.graph arr n.graph.nodes sink source t y → x ≤ y := by
  have he := eps_pos
  have h0 : 0 ≤ H0 := hd.turns 0 ⟨le_refl _, Or.inl rfl⟩
  have hH : H0 + eps < horizon := hd.before 0 sink H0 (Nat.zero_le _) (.here H0)
  obtain ⟨back, b1, _, b3⟩ := Graph.nodesReaching_spec hn.graph hsink
  obtain ⟨fwd, f1, _, f3⟩ := Graph.reachableNodes_spec hn.graph hsource
  set nodes := back.filter (· ∈ fwd) with hnodes
  have hmem : ∀ u, u ∈ nodes ↔ Path n.graph source u ∧ Path n.graph u sink := by
    intro u
    rw [hnodes, List.mem_filter, b3, decide_eq_true_eq, f3]
    exact and_comm
  have hpn : ∀ u, Path n.graph source u → u ∈ n.graph.nodes := by
    intro u hu
    rcases Relation.ReflTransGen.cases_tail hu with h | ⟨w, _, e, he, _, h⟩
    · rw [h]; exact hsource
    · rw [← h]; exact (hn.graph.ends e he).2
  have hsub : ∀ u ∈ nodes, u ∈ n.graph.nodes := fun u hu => hpn u ((hmem u).mp hu).1
  have hcard : (sink :: nodes).toFinset.card ≤ n.graph.nodes.length := by
    rw [← List.toFinset_card_of_nodup hn.graph.nodes]
    refine Finset.card_le_card (fun u hu => ?_)
    rw [List.mem_toFinset] at hu ⊢
    rcases List.mem_cons.mp hu with rfl | hu
    · exact hsink
    · exact hsub u hu
  have hidx : ∀ i (hi : i < n.graph.edges.length), n.graph.edges[i] ∈ n.graph.edges ∧ (n.graph.edge n.graph.edges[i]).id = i := fun i hi => ⟨List.getElem_mem hi, hn.graph.ids i hi⟩
  have hcost := fun r (hre : r ∈ n.graph.edges) => Drained.cost_ok hn hr harr hd hphi (by linarith : H0 < horizon) h0 hre
  obtain ⟨costs, c1, c2, c3⟩ := Builder.mapPy_ok (fun e => queueCost n horizon (flow.queues e) e) (List.range n.graph.edges.length) (by
    intro i hi
    have hi' := List.mem_range.mp hi
    obtain ⟨f, g1, _⟩ := hcost _ (hidx i hi').1
    rw [(hidx i hi').2] at g1
    exact ⟨f, g1⟩)
  rw [List.length_range] at c2
  have harr' : (fun (e : Nat) (t : ℚ) => t + (arr e t - t)) = arr := by funext e t; ring
  have hfuns : ∀ r ∈ n.graph.edges, ∃ h : (n.graph.edge r).id < costs.length, CostOk 0 (costs[(n.graph.edge r).id]'h).free ∧ (costs[(n.graph.edge r).id]'h).WF ∧ (horizon : WithTop ℚ) ≤ (costs[(n.graph.edge r).id]'h).hi ∧
      (∀ t ∈ (costs[(n.graph.edge r).id]'h).times, t ≤ H0 ∧ t ∈ kinks) ∧ ∀ t, 0 ≤ t → (costs[(n.graph.edge r).id]'h).fn t = arr r t - t := by
    intro r hre
    obtain ⟨i, hi, rfl⟩ := List.getElem_of_mem hre
    have hid := (hidx i hi).2
    obtain ⟨f, g1, g2⟩ := hcost _ hre
    rw [hid] at g1
    obtain ⟨f', k1, k2⟩ := c3 i i (List.getElem?_range hi)
    rw [g1] at k2
    injection k2 with k2
    subst k2
    obtain ⟨hl, k1⟩ := List.getElem?_eq_some_iff.mp k1
    refine ⟨by rw [hid]; exact hl, ?_⟩
    simp only [hid, k1]
    exact g2
  obtain ⟨labels, l1, l2⟩ := bellmanFord_horizon (g := n.graph) (nodes := nodes) (sink := sink) (costs := costs) (c := fun e t => arr e t - t) (fuel := fuel) (kinks := kinks) (lines := lines)
    (phi := 0) (H0 := H0) (H := horizon)
    (by
      intro w hw
      rcases List.mem_cons.mp hw with rfl | hw
      · exact hn.graph.inc _ hsink
      · exact hn.graph.inc _ (hsub w hw))
    h0
    (by
      intro f hf
      obtain ⟨i, hi, rfl⟩ := List.getElem_of_mem hf
      have hi' : i < n.graph.edges.length := by omega
      obtain ⟨h, g1, g2, g3, g4, _⟩ := hfuns _ (hidx i hi').1
      simp only [(hidx i hi').2] at g1 g2 g3 g4
      exact ⟨g1, g2, g3, g4⟩)
    (fun r hre => by
      obtain ⟨h, _, _, _, _, g⟩ := hfuns r hre
      exact ⟨h, g⟩)
    hd.const (by omega)
    (by
      rw [harr']
      exact fun k v t y hk ht h => hd.onLines k v t y (by omega) ht (ride_more h hsub))
    hd.clear hd.turns
    (by
      rw [harr']
      intro k v y hk h
      have := hd.before k v y (by omega) (ride_more h hsub)
      linarith)
  rw [harr'] at l2
  have hgets : ∀ t y, GetsTo n.graph arr n.graph.nodes sink source t y ↔ GetsTo n.graph arr nodes sink source t y := by
    intro t y
    constructor
    · rintro ⟨k, h⟩
      exact ⟨k, (ride_between h Relation.ReflTransGen.refl (fun u h1 h2 => (hmem u).mpr ⟨h1, h2⟩)).2⟩
    · rintro ⟨k, h⟩
      exact ⟨k, ride_more h hsub⟩
  have hex : ∃ y, GetsTo n.graph arr n.graph.nodes sink source 0 y := by
    have : ∀ u, Path n.graph u sink → ∀ t, ∃ y k, Ride n.graph arr n.graph.nodes sink k u t y := by
      intro u hu
      induction hu using Relation.ReflTransGen.head_induction_on with
      | refl => intro t; exact ⟨t, 0, .here t⟩
      | head h _ ih =>
        obtain ⟨e, e1, rfl, rfl⟩ := h
        intro t
        obtain ⟨y, k, hy⟩ := ih (arr e t)
        exact ⟨y, k + 1, .drive e e1 (hn.graph.ends e e1).1 hy⟩
    obtain ⟨y, k, h⟩ := this source hpath 0
    exact ⟨y, k, h⟩
  rcases l2 source with ⟨_, a⟩ | ⟨p, d, p1, p2, p3⟩
  · obtain ⟨y, hy⟩ := hex
    exact absurd ((hgets 0 y).mp hy) (a 0 y (le_refl _))
  · have hw := p2.wf
    have hfifo : Fifo n.graph 0 arr := by
      refine ⟨fun e hee t ht => ?_, fun e hee s t hs hst => ?_⟩
      · obtain ⟨h, g, _, _, _, g5⟩ := hfuns e hee
        have := g.nonneg t ht
        have e1 : (costs[(n.graph.edge e).id]'h).free.fn t = (costs[(n.graph.edge e).id]'h).fn t := rfl
        rw [e1, g5 t ht] at this
        linarith
      · obtain ⟨h, g, _, _, _, g5⟩ := hfuns e hee
        have := g.order s t hs hst
        have e1 : ∀ t, (costs[(n.graph.edge e).id]'h).free.fn t = (costs[(n.graph.edge e).id]'h).fn t := fun _ => rfl
        rw [e1, e1, g5 s hs, g5 t (by linarith)] at this
        linarith
    have hdend : H0 + d + eps < horizon := by
      obtain ⟨k, hk, hlen⟩ : ∃ k, Ride n.graph arr n.graph.nodes sink k source H0 (H0 + d) ∧ k ≤ n.graph.nodes.length := by
        obtain ⟨l, hl⟩ := gets_trip (p3 H0 h0).1
        obtain ⟨l', y', s1, s2, s3⟩ := hl.short hfifo h0
        have e1 := (p3 H0 h0).2 y' ⟨_, s2.ride⟩
        have : y' = H0 + d := by rw [p2.atEnd] at e1 s1; linarith
        rw [this] at s2
        exact ⟨_, ride_more s2.ride hsub, by omega⟩
      exact hd.before k source _ hlen hk
    have hhi : p.hi = ((horizon - d : ℚ) : WithTop ℚ) := p2.hi
    have hdom : ∀ t, p.inDom t ↔ 0 ≤ t ∧ t ≤ horizon - d := fun t => p2.inDom
    have hgood : GoodLabel p := by
      refine ⟨hw.valid, p2.lo, ⟨horizon - d, hhi, by linarith⟩, ?_, ?_, ?_⟩
      · intro s t x y hst hs ht
        obtain ⟨d1, rfl⟩ := eval_fn hw hs
        obtain ⟨d2, rfl⟩ := eval_fn hw ht
        exact p2.mono s t ((hdom s).mp d1).1 hst
      · intro t v hv
        obtain ⟨d1, rfl⟩ := eval_fn hw hv
        have ht := ((hdom t).mp d1).1
        obtain ⟨l, hl⟩ := gets_trip (p3 t ht).1
        exact hl.later hfifo ht
      · intro t ht
        refine ⟨fun hpos => ?_, fun e hee hlt => ?_⟩
        · have := hd.clear.turns 0 t ⟨le_refl _, Or.inl rfl⟩ (p2.on.turn t ht) hpos
          linarith
        · rw [hhi] at hee
          have := WithTop.coe_eq_coe.mp hee
          have h1 := p2.early t ht
          linarith
    have hall : ∀ t, 0 ≤ t → ((∃ x, p.eval t = .ok x) ↔ ∃ y, GetsTo n.graph arr n.graph.nodes sink source t y ∧ y ≤ horizon) ∧
        ∀ x, p.eval t = .ok x → GetsTo n.graph arr n.graph.nodes sink source t x ∧ ∀ y, GetsTo n.graph arr n.graph.nodes sink source t y → x ≤ y := by
      intro t ht
      refine ⟨⟨?_, ?_⟩, ?_⟩
      · rintro ⟨x, hx⟩
        obtain ⟨hdm, rfl⟩ := eval_fn hw hx
        exact ⟨_, (hgets _ _).mpr (p3 t ht).1, (p2.below ht).mpr ((hdom t).mp hdm).2⟩
      · rintro ⟨y, hy, hyH⟩
        have := (p3 t ht).2 y ((hgets _ _).mp hy)
        exact ⟨_, PL.eval_eq hw ((hdom t).mpr ⟨ht, (p2.below ht).mp (by linarith)⟩)⟩
      · intro x hx
        obtain ⟨_, rfl⟩ := eval_fn hw hx
        exact ⟨(hgets _ _).mpr (p3 t ht).1, fun y hy => (p3 t ht).2 y ((hgets _ _).mp hy)⟩
    refine ⟨labels, p, ?_, p1, hgood, ⟨p.fn 0, PL.eval_eq hw ((hdom 0).mpr ⟨le_refl _, by linarith⟩), ?_⟩, hall⟩
    · unfold optLabels
      rw [c1, ok_bind, b1, ok_bind, f1, ok_bind]
      exact l1
    · have := p2.mono 0 H0 (le_refl _) h0
      rw [p2.atEnd] at this
      linarith

/-- **C77** for a whole call on a flow whose queues do not change from a time on from which everybody arrives before the horizon: the result is the average travel time of those who leave the source
in `[0, min(inflow_horizon, horizon)]` at a constant rate and take a fastest way. -/
theorem C77_drained_partial (hn : InputOk n) (hr : Reached n.data flow) (harr : TravelsAlways n flow arr) {c : Commodity P} (hd : Drained n flow arr c.sink H0 horizon lines kinks)
    (hphi : H0 ≤ flow.phi) {source : Nat} {f : RC} (hs : c.sources = [(source, f)]) (hsource : source ∈ n.graph.nodes) (hsink : c.sink ∈ n.graph.nodes) (hpath : Path n.graph source c.sink)
    {inflowHorizon : WithTop ℚ} (hin : (0 : WithTop ℚ) < inflowHorizon) {fuel : Nat} (hfuel : n.graph.nodes.length + 1 ≤ fuel) :
    ∃ x, optimalAverage fuel n flow inflowHorizon horizon c = .ok x ∧ OptimalTime n.graph arr source c.sink horizon (capAt inflowHorizon horizon) x := by
  obtain ⟨labels, p, l1, l2, l3, ⟨v, l4, l5⟩, l6⟩ := drained_label hn hr harr hd hphi hsource hsink hpath hfuel
  obtain ⟨x, x1, h, F, A, x2, x3, x4, x5, x6, x7⟩ := C77_optimal_partial fuel n flow inflowHorizon horizon c source f hs labels l1 p l2 l3 hin v l4 l5
  refine ⟨x, x1, h, F, A, x2, x3, fun t h1 h2 => ?_, fun t h1 h2 => (l6 t h1).2 _ (x5 t h1 h2), x6, x7⟩
  rw [← x4 t h1 h2, ← (l6 t h1).1]
  constructor
  · rintro ⟨y, hy⟩
    obtain ⟨z, z1, z2⟩ := (l6 t h1).1.mp ⟨y, hy⟩
    exact ⟨y, hy, le_trans (((l6 t h1).2 y hy).2 z z1) z2⟩
  · rintro ⟨y, hy, _⟩
    exact ⟨y, hy⟩

/-- **C93** for a flow whose queues do not change from a time on from which everybody arrives before the horizon: the reported optimal average travel time is at most the average travel time of every
commodity with the same source and sink and a constant inflow. -/
theorem C93_drained_partial [DecidableEq P] {ord : List Nat → List Nat} {preds : P → Predictor} {d : ℚ} {b0 : Builder P} {k : Nat} (h : Building n ord preds d b0 k) {b : Builder P}
    (hb : rounds ord preds k b0 = .ok b) {i : Nat} {c : Commodity P} (hc : n.commodities[i]? = some c) {source : Nat} {f : RC} (hsrc : c.sources = [(source, f)]) {inflowHorizon : WithTop ℚ} {r : ℚ}
    (hu : (0 : WithTop ℚ) < inflowHorizon) (hphi : horizon ≤ b.flow.phi) (hrate : ∀ x, 0 ≤ x → x < capAt inflowHorizon horizon → stepValue f x = r)
    (hstop : ∀ x, capAt inflowHorizon horizon ≤ x → x < horizon → stepValue f x = 0) (harr : TravelsAlways n b.flow arr) (hd : Drained n b.flow arr c.sink H0 horizon lines kinks)
    {c' : Commodity P} {f' : RC} (hsrc' : c'.sources = [(source, f')]) (hsink : c'.sink = c.sink) {fuel : Nat} (hfuel : n.graph.nodes.length + 1 ≤ fuel)
    (hin : Apart eps (0 :: (c.sources.map (fun s => s.2.times)).flatten)) (hout : Apart eps (0 :: ((sinkOutflows n b.flow i c).map RC.times).flatten))
    {a : ℚ} (ha : avgTravelTime n b.flow i horizon = .ok a) : ∃ x, optimalAverage fuel n b.flow inflowHorizon horizon c' = .ok x ∧ x ≤ a := by
  have hcm := List.mem_of_getElem? hc
  have hs := h.input.source c hcm (source, f) (by rw [hsrc]; simp)
  have hH : H0 + eps < horizon := hd.before 0 c.sink H0 (Nat.zero_le _) (.here H0)
  have he := eps_pos
  obtain ⟨labels, p, l1, l2, l3, ⟨v, l4, l5⟩, l6⟩ := drained_label h.input (building_reached h hb) harr hd (by linarith) hs.1 (h.input.sink c hcm) hs.2.1 hfuel
  refine C93_reported_partial h hb hc hsrc hu hphi hrate hstop (fun e hee t h1 _ => harr e hee t h1) hsrc' hsink (by rw [hsink]; exact l1) l2 l3 l4 l5 ?_ hin hout ha
  intro t y h1 _ h3 h4
  obtain ⟨x, hx⟩ := (l6 t h1).1.mpr ⟨y, h3, h4.le⟩
  exact ⟨x, hx, ((l6 t h1).2 x hx).2 y h3⟩

/-- One road. A queue builds up until time 1 and is worked off at time 2. -/
def emptiedNet : Network (Fin 1) :=
  { ((Network.empty : Network (Fin 1)).addEdge 0 1 1 1) with
    commodities := [⟨[(0, ⟨[0, 1], [2, 0], ((0 : ℚ) : WithBot ℚ), ⊤⟩)], 1, 0⟩] }

theorem emptiedNet_ok : InputOk emptiedNet := by
  have hg : Consistent emptiedNet.graph := by
    refine ⟨by decide +kernel, by decide +kernel, by decide +kernel, by decide +kernel, by decide +kernel, by decide +kernel, ?_⟩
    have : ∀ i : Fin 1, (emptiedNet.graph.edge (emptiedNet.graph.edges[i.1]'(by have := i.2; exact this))).id = i.1 := by decide +kernel
    intro i h
    exact this ⟨i, h⟩
  have e01 : Path emptiedNet.graph 0 1 := Relation.ReflTransGen.single ⟨0, by decide +kernel, rfl, rfl⟩
  have i1 : InflowOk ⟨[0, 1], [2, 0], ((0 : ℚ) : WithBot ℚ), ⊤⟩ := ⟨rfl, by simp, by decide +kernel, by decide +kernel, rfl, rfl, by decide +kernel⟩
  refine ⟨hg, rfl, rfl, by decide +kernel, by decide +kernel, by decide +kernel, by decide +kernel, ?_, ?_, ?_⟩
  · intro c hc s hs
    simp only [emptiedNet, List.mem_cons, List.not_mem_nil, or_false] at hc
    subst hc
    simp only [List.mem_cons, List.not_mem_nil, or_false] at hs
    subst hs
    exact ⟨by decide +kernel, e01, i1⟩
  · decide +kernel
  · unfold eps
    have : ∀ c ∈ emptiedNet.commodities, ∀ s ∈ c.sources, ∀ c' ∈ emptiedNet.commodities, ∀ s' ∈ c'.sources,
      ∀ a ∈ s.2.times, ∀ b ∈ s'.2.times, (a < b → (1 : ℚ) / 10000000000 < b - a) := by decide +kernel
    exact fun c hc s hs c' hc' s' hs' _ => this c hc s hs c' hc' s' hs'

theorem emptiedNet_built : ∃ b0 b, Building emptiedNet List.dedup (fun _ => Predictors.zero 1) 2 b0 5 ∧ rounds List.dedup (fun _ => Predictors.zero 1) 5 b0 = .ok b ∧ b.flow.phi = 6 ∧
    b.flow.queues 0 = ⟨[0, 1, 2], [0, 1, 0], 0, 0, ⊥, ⊤⟩ ∧ avgTravelTime emptiedNet b.flow 0 5 = .ok (3 / 2) ∧
    Apart eps (0 :: ((sinkOutflows emptiedNet b.flow 0 ⟨[(0, ⟨[0, 1], [2, 0], ((0 : ℚ) : WithBot ℚ), ⊤⟩)], 1, 0⟩).map RC.times).flatten) := by
  obtain ⟨b0, h1, h2, b, h3, h4⟩ := Builder.buildB_sound (show Builder.buildB List.dedup (fun _ => Predictors.zero 1) emptiedNet 2 5 (fun b => decide (b.flow.phi = 6) &&
    (decide (b.flow.queues 0 = ⟨[0, 1, 2], [0, 1, 0], 0, 0, ⊥, ⊤⟩) && (decide ((avgTravelTime emptiedNet b.flow 0 5).toOption = some (3 / 2)) &&
      decide (((sinkOutflows emptiedNet b.flow 0 ⟨[(0, ⟨[0, 1], [2, 0], ((0 : ℚ) : WithBot ℚ), ⊤⟩)], 1, 0⟩).map RC.times).flatten = [0, 1, 3])))) = true by decide +kernel)
  simp only [Bool.and_eq_true, decide_eq_true_eq] at h4
  refine ⟨_, b, ⟨emptiedNet_ok, dedup_order, ?_, by norm_num, ⟨b0, h1, rfl⟩, h2⟩, h3, h4.1, h4.2.1, ?_, ?_⟩
  · intro p f0 f calls t h0 hc hr _ ht
    exact Predictors.zero_ok emptiedNet_ok t f
  · cases he : avgTravelTime emptiedNet b.flow 0 5 with
    | error e => rw [he] at h4; cases h4.2.2.1
    | ok v => rw [he] at h4; injection h4.2.2.1 with h; rw [h]
  · rw [h4.2.2.2]
    unfold Apart eps
    decide +kernel

/-- The time when one is through the road. -/
def emptiedArr (_ : Nat) (t : ℚ) : ℚ := if t ≤ 1 then 2 * t + 1 else if t ≤ 2 then 3 else t + 1

def emptiedLines : List (ℚ × ℚ) := [(1, 0), (2, 1), (0, 3), (1, 1)]

theorem emptied_queue (t : ℚ) (ht : 0 ≤ t) : ∃ q, PL.eval ⟨[0, 1, 2], [0, 1, 0], 0, 0, ⊥, ⊤⟩ t = .ok q ∧ emptiedArr 0 t = t + 1 + q / 1 := by
  have hv : ValidPL ⟨[0, 1, 2], [0, 1, 0], 0, 0, ⊥, ⊤⟩ := ⟨by decide, by decide, by unfold eps; decide +kernel, by decide +kernel⟩
  refine ⟨_, PL.eval_eq hv.wf ⟨bot_le, le_top⟩, ?_⟩
  unfold emptiedArr
  by_cases h1 : t ≤ 1
  · rw [if_pos h1, PL.fn_mid hv.wf (i := 0) (by decide) (by simpa using ht) (by simpa using h1)]
    norm_num
    ring
  · rw [if_neg h1]
    by_cases h2 : t ≤ 2
    · rw [if_pos h2, PL.fn_mid hv.wf (i := 1) (by decide) (by simpa using (not_le.mp h1).le) (by simpa using h2)]
      norm_num
      ring
    · rw [if_neg h2, PL.fn_right hv.wf (by simpa using (not_le.mp h2).le)]
      norm_num

theorem emptied_ride {k v : Nat} {t y : ℚ} (h : Ride emptiedNet.graph emptiedArr emptiedNet.graph.nodes 1 k v t y) : y = t ∨ y = emptiedArr 0 t := by
  have s1 : ∀ v, 1 = v → ∀ k t y, Ride emptiedNet.graph emptiedArr emptiedNet.graph.nodes 1 k v t y → y = t := by
    intro v hv k t y h
    cases h with
    | here => rfl
    | drive e hm hin h =>
      have : e = 0 := by simpa [emptiedNet] using (show e ∈ [0] from hm)
      subst this
      exact absurd hv (by decide +kernel)
  cases h with
  | here => exact Or.inl rfl
  | drive e hm hin h =>
    have : e = 0 := by simpa using (show e ∈ [0] from hm)
    subst this
    exact Or.inr (s1 _ (by decide +kernel) _ _ _ h)

theorem emptied_turns : ∀ t, Turn 0 emptiedLines [0, 1, 2] t → t ∈ [(0 : ℚ), 1, 2, 3] := by
  rintro t ⟨h0, h | h | ⟨l, hl, l', hl', hne, he⟩⟩
  · subst h; simp
  · simp only [List.mem_cons, List.not_mem_nil, or_false] at h ⊢
    tauto
  · have hcase : ∀ l ∈ emptiedLines, ∀ l' ∈ emptiedLines, l.1 ≠ l'.1 → (l'.2 - l.2) / (l.1 - l'.1) ∈ [(0 : ℚ), 1, 2, 3] ∨ (l'.2 - l.2) / (l.1 - l'.1) < 0 := by
      unfold emptiedLines; decide +kernel
    have e : t = (l'.2 - l.2) / (l.1 - l'.1) := by
      unfold lineAt at he
      rw [eq_div_iff (sub_ne_zero.mpr hne)]
      linarith
    rcases hcase l hl l' hl' hne with h | h
    · rw [e]; exact h
    · rw [e] at h0; linarith

theorem emptied_drained {flow : DFlow} (hq : flow.queues 0 = ⟨[0, 1, 2], [0, 1, 0], 0, 0, ⊥, ⊤⟩) :
    TravelsAlways emptiedNet flow emptiedArr ∧ Drained emptiedNet flow emptiedArr 1 3 5 emptiedLines [0, 1, 2] := by
  have hE : ∀ e ∈ emptiedNet.graph.edges, e = 0 := by
    intro e he
    simpa using (show e ∈ [0] from he)
  have hid : (emptiedNet.graph.edge 0).id = 0 := rfl
  have hline : ∀ t, 0 ≤ t → ∃ l ∈ emptiedLines, emptiedArr 0 t = lineAt l t := by
    intro t _
    unfold emptiedArr emptiedLines lineAt
    split
    · exact ⟨(2, 1), by simp, by ring⟩
    · split
      · exact ⟨(0, 3), by simp, by ring⟩
      · exact ⟨(1, 1), by simp, by ring⟩
  refine ⟨?_, ?_, ?_, ?_, ?_, ?_, ?_, ?_, ?_⟩
  · intro e he t ht
    obtain rfl := hE e he
    obtain ⟨q, q1, q2⟩ := emptied_queue t ht
    exact ⟨1, 1, q, rfl, rfl, by rw [hid, hq]; exact q1, q2⟩
  · intro e _ t ht
    unfold emptiedArr
    rw [if_neg (by linarith), if_neg (by linarith), if_neg (by norm_num), if_neg (by norm_num)]
    ring
  · intro e he t ht
    obtain rfl := hE e he
    rw [hid, hq] at ht
    exact ht
  · decide +kernel
  · intro e he cap hcap i j m m' hm hm'
    obtain rfl := hE e he
    rw [hid, hq] at hm hm'
    have : (1 : ℚ) = cap := Option.some.inj hcap
    subst this
    have hr := PL.gradient_range hm
    have hr' := PL.gradient_range hm'
    have key : ∀ i : Int, -1 ≤ i ∧ i < (3 : Nat) → ∀ m, PL.gradient ⟨[0, 1, 2], [0, 1, 0], 0, 0, ⊥, ⊤⟩ i = .ok m → m ∈ [(0 : ℚ), 1, -1] := by
      intro i hi m hm
      have : i = -1 ∨ i = 0 ∨ i = 1 ∨ i = 2 := by omega
      have hg : ∀ i ∈ [(-1 : Int), 0, 1, 2], ∃ m ∈ [(0 : ℚ), 1, -1], PL.gradient ⟨[0, 1, 2], [0, 1, 0], 0, 0, ⊥, ⊤⟩ i = .ok m := by decide +kernel
      obtain ⟨m2, a, b⟩ := hg i (by simpa using this)
      rw [hm] at b
      injection b with b
      rw [b]; exact a
    have hall : ∀ m ∈ [(0 : ℚ), 1, -1], ∀ m' ∈ [(0 : ℚ), 1, -1], m = m' ∨ 1000 * eps * 1 ≤ |m - m'| := by unfold eps; decide +kernel
    exact hall m (key i hr m hm) m' (key j hr' m' hm')
  · intro k v t y _ ht h
    rcases emptied_ride h with rfl | rfl
    · exact ⟨(1, 0), by simp [emptiedLines], by unfold lineAt; ring⟩
    · exact hline t ht
  · have ht := emptied_turns
    refine ⟨by unfold emptiedLines eps; decide +kernel, fun s t hs ht' => ?_, fun t h => ?_⟩
    · have : ∀ s ∈ [(0 : ℚ), 1, 2, 3], ∀ t ∈ [(0 : ℚ), 1, 2, 3], s < t → s + eps < t := by unfold eps; decide +kernel
      exact this s (ht s hs) t (ht t ht')
    · have : ∀ t ∈ [(0 : ℚ), 1, 2, 3], ∀ l ∈ emptiedLines, ∀ l' ∈ emptiedLines, lineAt l t = lineAt l' t ∨ 1000 * eps < |lineAt l t - lineAt l' t| := by
        unfold emptiedLines eps lineAt; decide +kernel
      exact this t (ht t h)
  · intro t ht
    have : ∀ t ∈ [(0 : ℚ), 1, 2, 3], t ≤ 3 := by decide +kernel
    exact this t (emptied_turns t ht)
  · intro k v y _ h
    rcases emptied_ride h with rfl | rfl
    · unfold eps; norm_num
    · unfold eps emptiedArr; norm_num

/-- The hypotheses of `C77_drained_partial` and `C93_drained_partial` hold for this flow with `H0 = 3` and horizon 5; those who leave until time 1 need 3/2 on average and at least that long. -/
example : ∃ b0 b c x, Building emptiedNet List.dedup (fun _ => Predictors.zero 1) 2 b0 5 ∧ rounds List.dedup (fun _ => Predictors.zero 1) 5 b0 = .ok b ∧ emptiedNet.commodities[0]? = some c ∧
    avgTravelTime emptiedNet b.flow 0 5 = .ok (3 / 2) ∧ optimalAverage 3 emptiedNet b.flow ((1 : ℚ) : WithTop ℚ) 5 c = .ok x ∧ OptimalTime emptiedNet.graph emptiedArr 0 1 5 1 x ∧ x ≤ 3 / 2 := by
  obtain ⟨b0, b, h1, h2, h3, h4, h5, h6⟩ := emptiedNet_built
  obtain ⟨d1, d2⟩ := emptied_drained h4
  have hcap : capAt ((1 : ℚ) : WithTop ℚ) 5 = 1 := by
    show min (1 : ℚ) 5 = 1
    norm_num
  have hs := h1.input.source _ (List.mem_of_getElem? (show emptiedNet.commodities[0]? = some ⟨[(0, ⟨[0, 1], [2, 0], ((0 : ℚ) : WithBot ℚ), ⊤⟩)], 1, 0⟩ from rfl)) _ (List.mem_singleton.mpr rfl)
  have hpos : (0 : WithTop ℚ) < ((1 : ℚ) : WithTop ℚ) := WithTop.coe_lt_coe.mpr one_pos
  obtain ⟨x, x1, x2⟩ := C77_drained_partial (c := ⟨[(0, ⟨[0, 1], [2, 0], ((0 : ℚ) : WithBot ℚ), ⊤⟩)], 1, 0⟩) h1.input (building_reached h1 h2) d1 d2 (by rw [h3]; norm_num) rfl hs.1 (by decide +kernel) hs.2.1
    hpos (fuel := 3) (by decide +kernel)
  obtain ⟨x', y1, y2⟩ := C93_drained_partial (i := 0) (c := ⟨[(0, ⟨[0, 1], [2, 0], ((0 : ℚ) : WithBot ℚ), ⊤⟩)], 1, 0⟩) (c' := ⟨[(0, ⟨[0, 1], [2, 0], ((0 : ℚ) : WithBot ℚ), ⊤⟩)], 1, 0⟩) h1 h2 rfl rfl
    hpos (r := 2) (by rw [h3]; norm_num)
    (by
      rw [hcap]; intro t a c
      have : t < 1 := c
      have h : ¬ (1 : ℚ) ≤ t := not_le.mpr this
      rw [Builder.stepValue_fn hs.2.2 (by linarith)]
      unfold RC.fn RC.idx RC.cnt; simp [a, h])
    (by
      rw [hcap]; intro t a _
      have h : (0 : ℚ) ≤ t := by linarith
      rw [Builder.stepValue_fn hs.2.2 (by linarith)]
      unfold RC.fn RC.idx RC.cnt; simp [a, h])
    d1 d2 rfl rfl (fuel := 3) (by decide +kernel) (by unfold Apart eps; decide +kernel) h6 h5
  rw [x1] at y1
  injection y1 with y1
  subst y1
  rw [hcap] at x2
  exact ⟨b0, b, _, x, h1, h2, rfl, h5, x1, x2, y2⟩

end Verif.Props
