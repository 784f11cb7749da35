import Verif.Proofs.BuilderInflow

/-! The inflow that the flow builder sets at the nodes it handles. -/

namespace Verif
open Spec

namespace Builder
variable {P : Type} [DecidableEq P] {n : Network P} {preds : P → Predictor}

theorem distribute_spec (hn : InputOk n) {ord : List Nat → List Nat} (hord : OrderOk ord) {dd : ℚ} {v : Nat} (hv : v ∈ n.graph.nodes) {outs : List Rates} {net : Rates} :
    ∀ (is : List Nat) {b : Builder P} {pr : P → Option (List PL)} {d : List (Nat × Rates)}, Static n dd b → Caches n preds b pr → CanPredict n preds b →
    is.Nodup → TableOk d → (∀ e ∈ n.graph.outgoing v, (n.graph.edge e).id ∈ d.map Prod.fst) →
    (∀ i ∈ is, eps ≤ (outs.map (fun o => o.get i)).sum + net.get i → ∃ c, n.commodities[i]? = some c ∧ Between n.graph c v ∧ v ≠ c.sink) →
    ∃ d' A C pr', distribute ord preds v outs net is b d = .ok (d', { b with active := A, cache := C }) ∧
      Caches n preds { b with active := A, cache := C } pr' ∧ (∀ q l, pr q = some l → pr' q = some l) ∧
      (∀ q l, pr' q = some l → pr q = some l ∨ (preds q).predict b.route b.flow = .ok l) ∧
      TableOk d' ∧ d'.map Prod.fst = d.map Prod.fst ∧ (∀ k j, j ∉ is → val d' k j = val d k j) ∧
      ∀ i ∈ is, ((outs.map (fun o => o.get i)).sum + net.get i < eps → ∀ k, val d' k i = val d k i) ∧
        (eps ≤ (outs.map (fun o => o.get i)).sum + net.get i → ∃ c S, n.commodities[i]? = some c ∧ Between n.graph c v ∧ EdgesOk n.graph c.sink v S ∧
          ActiveFor n preds b.route pr' i v S ∧
          ∀ k, val d' k i = if ∃ e ∈ S, (n.graph.edge e).id = k then ((outs.map (fun o => o.get i)).sum + net.get i) / S.length else val d k i) := by
  intro is
  induction is with
  | nil =>
    intro b pr d hs hc hp _ ht _ _
    exact ⟨d, b.active, b.cache, pr, rfl, hc, fun _ _ h => h, fun _ _ h => Or.inl h, ht, rfl, fun _ _ _ => rfl, by simp⟩
  | cons i is ih =>
    intro b pr d hs hc hp hnd ht hk hcom
    rw [List.nodup_cons] at hnd
    unfold distribute
    simp only
    by_cases hx : (outs.map (fun o => o.get i)).sum + net.get i < eps
    · rw [if_pos hx]
      obtain ⟨d', A, C, pr', a1, a2, a3, a4, a5, a6, a7, a8⟩ := ih hs hc hp hnd.2 ht hk (fun j hj => hcom j (by simp [hj]))
      refine ⟨d', A, C, pr', a1, a2, a3, a4, a5, a6, ?_, ?_⟩
      · intro k j hj; exact a7 k j (fun hc => hj (by simp [hc]))
      · intro j hj
        rcases List.mem_cons.mp hj with rfl | hj
        · exact ⟨fun _ k => a7 k j hnd.1, fun hle => absurd hx (not_lt.mpr hle)⟩
        · exact a8 j hj
    · rw [if_neg hx]
      have hle := not_lt.mp hx
      have hpos : 0 < (outs.map (fun o => o.get i)).sum + net.get i := lt_of_lt_of_le eps_pos hle
      obtain ⟨c, hc1, hc2, hc3⟩ := hcom i (by simp) hle
      obtain ⟨a, A1, C1, pr1, g1, g2, g3, g4, g5, g6⟩ := getActive_ok hn hord hs hc hp hc1 hc2 hc3
      rw [g1, ok_bind]
      simp only
      have hlen : (0 : ℚ) < (a.length : ℚ) := by exact_mod_cast List.length_pos_iff.mpr g5.ne
      have hdiv : pyDiv ((outs.map (fun o => o.get i)).sum + net.get i) (a.length : ℚ) = .ok (((outs.map (fun o => o.get i)).sum + net.get i) / a.length) := by
        unfold pyDiv; rw [if_neg (ne_of_gt hlen)]
      obtain ⟨d1, s1, s2, s3, s4⟩ := spread_spec (g := n.graph) (i := i) (div_pos hpos hlen) a ht (fun e he => hk e (g5.out e he))
      have hsp : spread b.net.graph i (((outs.map (fun o => o.get i)).sum + net.get i) / a.length) a d = .ok d1 := by rw [hs.net]; exact s1
      rw [hdiv, ok_bind, hsp, ok_bind]
      have hs1 : Static n dd { b with active := A1, cache := C1 } := ⟨hs.net, hs.interval, hs.imp, hs.sinks⟩
      obtain ⟨d', A, C, pr', a1, a2, a3, a4, a5, a6, a7, a8⟩ := ih hs1 g2 hp hnd.2 s2 (by rw [s3]; exact hk) (fun j hj => hcom j (by simp [hj]))
      refine ⟨d', A, C, pr', a1, a2, fun q l h => a3 q l (g3 q l h), ?_, a5, by rw [a6, s3], ?_, ?_⟩
      · intro q l h
        rcases a4 q l h with h | h
        · exact g4 q l h
        · exact Or.inr h
      · intro k j hj
        rw [List.mem_cons, not_or] at hj
        rw [a7 k j hj.2, s4, if_neg (fun hc => hj.1 hc.1)]
      · intro j hj
        rcases List.mem_cons.mp hj with rfl | hj
        · refine ⟨fun h => absurd h hx, fun _ => ⟨c, a, hc1, hc2, g5, ActiveFor.mono a3 g6, ?_⟩⟩
          intro k
          rw [a7 k j hnd.1, s4]
          simp only [true_and]
        · have hji : j ≠ i := fun e => hnd.1 (e ▸ hj)
          obtain ⟨x1, x2⟩ := a8 j hj
          refine ⟨fun h k => ?_, fun h => ?_⟩
          · rw [x1 h, s4, if_neg (fun hc => hji hc.1)]
          · obtain ⟨c', S, y1, y2, y3, y4, y5⟩ := x2 h
            refine ⟨c', S, y1, y2, y3, y4, fun k => ?_⟩
            have hsame : val d1 k j = val d k j := by rw [s4, if_neg (fun hc => hji hc.1)]
            rw [y5, hsame]

/-- Flow of a commodity is only where it is of use. -/
def Supp (n : Network P) (s : DFlow) : Prop :=
  ∀ e ∈ n.graph.edges, ∀ i, (¬ ∃ c, n.commodities[i]? = some c ∧ Between n.graph c (n.graph.nodeTo e)) →
    (s.inflow (n.graph.edge e).id).Zero i ∧ (s.outflow (n.graph.edge e).id).Zero i

/-- The table says how every commodity leaves node `v`. -/
def NodeOut (n : Network P) (preds : P → Predictor) (s : DFlow) (t : ℚ) (pr : P → Option (List PL)) (d : List (Nat × Rates)) (v : Nat) : Prop :=
  ∀ i, (IsSink n i v ∨ arriving n s v i s.phi < eps → ∀ e ∈ n.graph.outgoing v, val d (n.graph.edge e).id i = 0) ∧
    (¬ IsSink n i v → eps ≤ arriving n s v i s.phi → ∃ c A, n.commodities[i]? = some c ∧ Between n.graph c v ∧ EdgesOk n.graph c.sink v A ∧
      ActiveFor n preds t pr i v A ∧ ∀ e ∈ n.graph.outgoing v, val d (n.graph.edge e).id i = if e ∈ A then arriving n s v i s.phi / A.length else 0)

omit [DecidableEq P] in
theorem arriving_eq {s : DFlow} (h : FlowOk n s) (v i : Nat) {t : ℚ} (ht : 0 ≤ t) :
    arriving n s v i t = ((n.graph.incoming v).map (fun e => FRC.rate (s.outflow (n.graph.edge e).id).funs i t)).sum + networkRate n v i t := by
  unfold arriving
  congr 2
  apply List.map_congr_left
  intro e _
  exact outRate_eq h _ i ht

omit [DecidableEq P] in
theorem networkRate_pos (hn : InputOk n) {v i : Nat} {t : ℚ} (h : networkRate n v i t ≠ 0) : ∃ c, n.commodities[i]? = some c ∧ Between n.graph c v := by
  unfold networkRate at h
  cases hc : n.commodities[i]? with
  | none => rw [hc] at h; exact absurd rfl h
  | some c =>
    rw [hc] at h
    simp only at h
    cases hl : c.sources.lookup v with
    | none => rw [hl] at h; exact absurd rfl h
    | some f =>
      have hm := FRC.mem_of_lookup hl
      exact ⟨c, rfl, (hn.source c (List.mem_of_getElem? hc) _ hm).2.1, _, hm, .refl⟩

omit [DecidableEq P] in
/-- Where flow of a commodity arrives, the node is of use to it. -/
theorem arriving_between (hn : InputOk n) {s : DFlow} (h : FlowOk n s) (hsupp : Supp n s) {v i : Nat} (hv : v ∈ n.graph.nodes) {t : ℚ} (ht : 0 ≤ t)
    (hne : arriving n s v i t ≠ 0) : ∃ c, n.commodities[i]? = some c ∧ Between n.graph c v := by
  by_contra hcon
  apply hne
  rw [arriving_eq h v i ht]
  have h1 : networkRate n v i t = 0 := by
    by_contra hc; exact hcon (networkRate_pos hn hc)
  have h2 : ((n.graph.incoming v).map (fun e => FRC.rate (s.outflow (n.graph.edge e).id).funs i t)).sum = 0 := by
    apply List.sum_eq_zero
    intro x hx
    obtain ⟨e, he, rfl⟩ := List.mem_map.mp hx
    obtain ⟨he1, he2⟩ := (inc_mem hn.graph hv).mp he
    refine (hsupp e he1 i ?_).2 t ht
    rw [he2]; exact hcon
  rw [h1, h2, add_zero]

/-- What handling nodes leaves as it was. -/
structure Kept (b b' : Builder P) : Prop where
  net : b'.net = b.net
  interval : b'.interval = b.interval
  built : b'.built = b.built
  handle : b'.handle = b.handle
  next : b'.nextReroute = b.nextReroute
  route : b'.route = b.route
  important : b'.important = b.important
  sinkIds : b'.sinkIds = b.sinkIds
  changes : b'.changes = b.changes

theorem newInflow_spec (hn : InputOk n) {ord : List Nat → List Nat} (hord : OrderOk ord) {dd : ℚ} :
    ∀ (vs : List Nat) {b : Builder P} {pr : P → Option (List PL)} {d : List (Nat × Rates)}, Static n dd b → Caches n preds b pr → FlowOk n b.flow → Supp n b.flow →
    (∀ v ∈ n.graph.nodes, (b.netInflow v).Reads b.flow.phi (networkRate n v)) →
    (∀ (looks : List Nat) f, runFlow n.data b.flow (looks.map FlowCall.look) = .ok f → ∀ p, ∃ ps, (preds p).predict b.route f = .ok ps ∧ PredictionOk n b.route ps) →
    vs.Nodup → (∀ v ∈ vs, v ∈ n.graph.nodes) → TableOk d →
    ∃ d' b' pr' looks, newInflow ord preds vs b d = .ok (d', b') ∧ Kept b b' ∧ Caches n preds b' pr' ∧ FlowOk n b'.flow ∧ SameRates b.flow b'.flow ∧
      runFlow n.data b.flow (looks.map FlowCall.look) = .ok b'.flow ∧ (∀ v ∈ n.graph.nodes, (b'.netInflow v).Reads b.flow.phi (networkRate n v)) ∧
      (∀ q l, pr q = some l → pr' q = some l) ∧
      (∀ q l, pr' q = some l → pr q = some l ∨ ∃ pre f, pre <+: looks ∧ runFlow n.data b.flow (pre.map FlowCall.look) = .ok f ∧ (preds q).predict b.route f = .ok l) ∧
      TableOk d' ∧ (∀ k, k ∈ d'.map Prod.fst ↔ k ∈ d.map Prod.fst ∨ ∃ v ∈ vs, ∃ e ∈ n.graph.outgoing v, (n.graph.edge e).id = k) ∧
      (∀ k j, (¬ ∃ v ∈ vs, ∃ e ∈ n.graph.outgoing v, (n.graph.edge e).id = k) → val d' k j = val d k j) ∧
      ∀ v ∈ vs, NodeOut n preds b.flow b.route pr' d' v := by
  intro vs
  induction vs with
  | nil =>
    intro b pr d hs hc hf hsu hr hp _ _ ht
    refine ⟨d, b, pr, [], rfl, ⟨rfl, rfl, rfl, rfl, rfl, rfl, rfl, rfl, rfl⟩, hc, hf, SameRates.refl _, rfl, hr, fun _ _ h => h, fun _ _ h => Or.inl h, ht, by simp, by simp, by simp⟩
  | cons v vs ih =>
    intro b pr d hs hc hf hsu hr hp hnd hvs ht
    rw [List.nodup_cons] at hnd
    have hv := hvs v (by simp)
    have hg := hn.graph
    obtain ⟨t1, t2, t3⟩ := reset_spec (g := n.graph) (n.graph.outgoing v) ht
    obtain ⟨outs, s1, o1, o2, o3, o4, o5, o6, o7⟩ := outflows_spec (n := n) (n.graph.incoming v) hf
    obtain ⟨net, c1, q1, q2, q3, q4, _, _⟩ := (hr v hv).query
    have o4' : runFlow n.data b.flow (((n.graph.incoming v).map (fun e => (n.graph.edge e).id)).map FlowCall.look) = .ok s1 := by
      rw [List.map_map]; exact o4
    have hphi : s1.phi = b.flow.phi := o3.phi
    have h0 : 0 ≤ b.flow.phi := hf.phi_nonneg
    have hX : ∀ i, (outs.map (fun o => o.get i)).sum + net.get i = arriving n b.flow v i b.flow.phi := by
      intro i
      rw [arriving_eq hf v i h0, o6, q3]
    -- the builder after reading
    obtain ⟨b1, hb1⟩ : ∃ b1 : Builder P, b1 = { b with flow := s1, netInflow := setAt b.netInflow v c1 } := ⟨_, rfl⟩
    have hs1 : Static n dd b1 := by subst hb1; exact ⟨hs.net, hs.interval, hs.imp, hs.sinks⟩
    have hc1 : Caches n preds b1 pr := by subst hb1; exact ⟨hc.cache, hc.active⟩
    have hp1 : CanPredict n preds b1 := by
      intro p
      have := hp ((n.graph.incoming v).map (fun e => (n.graph.edge e).id)) s1 (by rw [List.map_map]; exact o4) p
      subst hb1; exact this
    obtain ⟨used, hused⟩ : ∃ used, used = ((outs.flatten ++ net).map Prod.fst).filter (fun i => ¬ i ∈ b.sinkIds v) := ⟨_, rfl⟩
    have hmem : ∀ i, i ∈ ord used ↔ (i ∈ outs.flatten.map Prod.fst ∨ i ∈ net.map Prod.fst) ∧ ¬ IsSink n i v := by
      intro i
      rw [(hord used).2, hused, List.mem_filter, List.map_append, List.mem_append, decide_eq_true_eq, hs.sinks]
    have hzero : ∀ i, i ∉ ord used → ¬ IsSink n i v → arriving n b.flow v i b.flow.phi = 0 := by
      intro i hi hsk
      rw [hmem] at hi
      have hno : ¬ (i ∈ outs.flatten.map Prod.fst ∨ i ∈ net.map Prod.fst) := fun hc => hi ⟨hc, hsk⟩
      rw [not_or] at hno
      rw [← hX]
      have z1 : net.get i = 0 := by
        apply Rates.get_of_not_has
        intro hh
        obtain ⟨x, hx⟩ := Rates.has_iff.mp hh
        exact hno.2 (List.mem_map.mpr ⟨_, hx, rfl⟩)
      have z2 : (outs.map (fun o => o.get i)).sum = 0 := by
        apply List.sum_eq_zero
        intro x hx
        obtain ⟨o, ho, rfl⟩ := List.mem_map.mp hx
        apply Rates.get_of_not_has
        intro hh
        obtain ⟨x, hx⟩ := Rates.has_iff.mp hh
        exact hno.1 (List.mem_map.mpr ⟨_, List.mem_flatten.mpr ⟨o, ho, hx⟩, rfl⟩)
      rw [z1, z2, add_zero]
    obtain ⟨d1, A, C, pr1, e1, e2, e3, e4, e5, e6, e7, e8⟩ := distribute_spec (outs := outs) (net := net) hn hord hv (ord used) hs1 hc1 hp1 (hord used).1 t1
      (fun e he => (t2 _).mpr (Or.inr ⟨e, he, rfl⟩)) (by
        intro i hi hle
        rw [hX] at hle
        obtain ⟨c, x1, x2⟩ := arriving_between hn hf hsu hv h0 (ne_of_gt (lt_of_lt_of_le eps_pos hle))
        refine ⟨c, x1, x2, fun e => ((hmem i).mp hi).2 ⟨c, x1, e.symm⟩⟩)
    obtain ⟨b2, hb2⟩ : ∃ b2 : Builder P, b2 = { b1 with active := A, cache := C } := ⟨_, rfl⟩
    rw [← hb2] at e1 e2
    have hk2 : Kept b b2 := by subst hb2; subst hb1; exact ⟨rfl, rfl, rfl, rfl, rfl, rfl, rfl, rfl, rfl⟩
    have hfl2 : b2.flow = s1 := by subst hb2; subst hb1; rfl
    have hro2 : b2.route = b.route := hk2.route
    have hni2 : b2.netInflow = setAt b.netInflow v c1 := by subst hb2; subst hb1; rfl
    have hs2 : Static n dd b2 := by subst hb2; exact ⟨hs1.net, hs1.interval, hs1.imp, hs1.sinks⟩
    have hsu2 : Supp n b2.flow := by
      intro e he i hno
      rw [hfl2]
      obtain ⟨z1, z2⟩ := hsu e he i hno
      refine ⟨by rw [o3.inflow]; exact z1, ?_⟩
      intro x hx
      rw [o3.funs]; exact z2 x hx
    have hr2 : ∀ u ∈ n.graph.nodes, (b2.netInflow u).Reads b2.flow.phi (networkRate n u) := by
      intro u hu
      rw [hni2, hfl2, hphi]
      by_cases huv : u = v
      · subst huv; rw [DFlow.setAt_self]; exact q4
      · rw [DFlow.setAt_ne _ _ huv]; exact hr u hu
    obtain ⟨d', b', pr', looks, f1, f2, f3, f4, f5, f6, f7, f8, f9, f10, f11, f12, f13⟩ := ih hs2 e2 (by rw [hfl2]; exact o2) hsu2 hr2 (by
      intro looks f hrun p
      rw [hro2]
      rw [hfl2] at hrun
      refine hp ((n.graph.incoming v).map (fun e => (n.graph.edge e).id) ++ looks) f ?_ p
      rw [List.map_append, runFlow_append _ _ o4']; exact hrun) hnd.2 (fun u hu => hvs u (by simp [hu])) e5
    -- disjoint outgoing edges
    have hdisj : ∀ e ∈ n.graph.outgoing v, ¬ ∃ u ∈ vs, ∃ e' ∈ n.graph.outgoing u, (n.graph.edge e').id = (n.graph.edge e).id := by
      rintro e he ⟨u, hu, e', he', hid⟩
      obtain ⟨x1, x2⟩ := (out_mem hg hv).mp he
      obtain ⟨y1, y2⟩ := (out_mem hg (hvs u (by simp [hu]))).mp he'
      have := id_inj hg y1 x1 hid
      subst this
      rw [x2] at y2
      exact hnd.1 (y2 ▸ hu)
    refine ⟨d', b', pr', (n.graph.incoming v).map (fun e => (n.graph.edge e).id) ++ looks, ?_, ?_, f3, f4, ?_, ?_, ?_, fun q l h => f8 q l (e3 q l h), ?_, f10, ?_, ?_, ?_⟩
    · unfold newInflow
      rw [hs.net]
      simp only
      rw [o1, ok_bind]
      simp only
      rw [hphi, q1, ok_bind]
      simp only
      rw [← hused]
      have : ({ b with flow := s1, netInflow := setAt b.netInflow v c1 } : Builder P) = b1 := hb1.symm
      rw [← hs.net, this, hs.net, e1, ok_bind]
      exact f1
    · exact ⟨f2.net.trans hk2.net, f2.interval.trans hk2.interval, f2.built.trans hk2.built, f2.handle.trans hk2.handle, f2.next.trans hk2.next,
        f2.route.trans hk2.route, f2.important.trans hk2.important, f2.sinkIds.trans hk2.sinkIds, f2.changes.trans hk2.changes⟩
    · rw [hfl2] at f5; exact o3.trans f5
    · rw [hfl2] at f6
      rw [List.map_append, runFlow_append _ _ o4']; exact f6
    · intro u hu
      have := f7 u hu
      rw [hfl2, hphi] at this; exact this
    · intro q l h
      rcases f9 q l h with h | ⟨pre, f, h1, h2, h3⟩
      · rcases e4 q l h with h | h
        · exact Or.inl h
        · right
          refine ⟨(n.graph.incoming v).map (fun e => (n.graph.edge e).id), s1, List.prefix_append _ _, o4', ?_⟩
          subst hb1; exact h
      · right
        rw [hfl2] at h2
        rw [hro2] at h3
        refine ⟨(n.graph.incoming v).map (fun e => (n.graph.edge e).id) ++ pre, f, ?_, ?_, h3⟩
        · exact (List.prefix_append_right_inj _).mpr h1
        · rw [List.map_append, runFlow_append _ _ o4']; exact h2
    · intro k
      rw [f11, e6, t2]
      simp only [List.mem_cons, exists_eq_or_imp]
      rw [or_assoc]
    · intro k j hno
      have h1 : ¬ ∃ u ∈ vs, ∃ e ∈ n.graph.outgoing u, (n.graph.edge e).id = k := by
        rintro ⟨u, hu, x⟩; exact hno ⟨u, by simp [hu], x⟩
      have h2 : ¬ ∃ e ∈ n.graph.outgoing v, (n.graph.edge e).id = k := fun x => hno ⟨v, by simp, x⟩
      rw [f12 k j h1]
      have h3 : val d1 k j = val (reset n.graph (n.graph.outgoing v) d) k j := by
        by_cases hj : j ∈ ord used
        · obtain ⟨x1, x2⟩ := e8 j hj
          by_cases hlt : (outs.map (fun o => o.get j)).sum + net.get j < eps
          · exact x1 hlt k
          · obtain ⟨c, S, _, _, y3, _, y5⟩ := x2 (not_lt.mp hlt)
            rw [y5, if_neg]
            rintro ⟨e, he, hid⟩
            exact h2 ⟨e, y3.out e he, hid⟩
        · exact e7 k j hj
      rw [h3, t3, if_neg h2]
    · intro u hu
      rcases List.mem_cons.mp hu with rfl | hu
      · intro i
        have hval : ∀ e ∈ n.graph.outgoing u, val d' (n.graph.edge e).id i = val d1 (n.graph.edge e).id i := fun e he => f12 _ i (hdisj e he)
        have hres : ∀ e ∈ n.graph.outgoing u, val (reset n.graph (n.graph.outgoing u) d) (n.graph.edge e).id i = 0 := by
          intro e he; rw [t3, if_pos ⟨e, he, rfl⟩]
        constructor
        · intro hstop e he
          rw [hval e he]
          by_cases hi : i ∈ ord used
          · obtain ⟨x1, x2⟩ := e8 i hi
            have hlt : arriving n b.flow u i b.flow.phi < eps := hstop.resolve_left ((hmem i).mp hi).2
            rw [x1 (by rw [hX]; exact hlt), hres e he]
          · rw [e7 _ i hi, hres e he]
        · intro hns hle
          have hi : i ∈ ord used := by
            by_contra hc
            have := hzero i hc hns
            rw [this] at hle
            exact absurd hle (not_le.mpr eps_pos)
          obtain ⟨_, x2⟩ := e8 i hi
          obtain ⟨c, S, y1, y2, y3, y4, y5⟩ := x2 (by rw [hX]; exact hle)
          have hro1 : b1.route = b.route := by subst hb1; rfl
          rw [hro1] at y4
          refine ⟨c, S, y1, y2, y3, ActiveFor.mono f8 y4, ?_⟩
          intro e he
          rw [hval e he, y5, hX, hres e he]
          by_cases heS : e ∈ S
          · rw [if_pos ⟨e, heS, rfl⟩, if_pos heS]
          · rw [if_neg heS, if_neg]
            rintro ⟨e', he', hid⟩
            have h1 := ((out_mem hg hv).mp (y3.out e' he')).1
            have h2 := ((out_mem hg hv).mp he).1
            exact heS (id_inj hg h1 h2 hid ▸ he')
      · have := f13 u hu
        unfold NodeOut at this ⊢
        rw [hfl2, hro2, hphi] at this
        simp only [o3.arriving (n := n)] at this
        exact this

end Builder
end Verif
