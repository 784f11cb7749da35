import Verif.Proofs.BuilderRoutes

/-! `_get_costs` and `_get_active_edges`. -/

namespace Verif
open Spec

namespace Builder
variable {P : Type} [DecidableEq P] {n : Network P} {preds : P → Predictor}

/-- What never changes in a builder. -/
structure Static (n : Network P) (d : ℚ) (b : Builder P) : Prop where
  net : b.net = n
  interval : b.interval = some d
  imp : ∀ (i : Nat) (c : Commodity P), n.commodities[i]? = some c → ∃ L, b.important[i]? = some L ∧ ∀ v, v ∈ L ↔ Between n.graph c v
  sinks : ∀ v i, i ∈ b.sinkIds v ↔ IsSink n i v

/-- A stored list of active edges is right, if the node is of use to the commodity. -/
def ActiveOk (n : Network P) (preds : P → Predictor) (t : ℚ) (pr : P → Option (List PL)) (i v : Nat) (a : List Nat) : Prop :=
  ∃ c, n.commodities[i]? = some c ∧ (Between n.graph c v → v ≠ c.sink → EdgesOk n.graph c.sink v a ∧ ActiveFor n preds t pr i v a)

/-- What is stored in the builder comes from the predictions `pr`. -/
structure Caches (n : Network P) (preds : P → Predictor) (b : Builder P) (pr : P → Option (List PL)) : Prop where
  cache : ∀ p, (b.cache p = none ∧ pr p = none) ∨ ∃ costs ps, b.cache p = some costs ∧ pr p = some ps ∧ PredictionOk n b.route ps ∧ CostsFrom n b.route ps costs
  active : ∀ i v a, b.active i v = some a → ActiveOk n preds b.route pr i v a

theorem ActiveFor.mono {t : ℚ} {pr pr' : P → Option (List PL)} (hm : ∀ p ps, pr p = some ps → pr' p = some ps) {i v : Nat} {a : List Nat}
    (h : ActiveFor n preds t pr i v a) : ActiveFor n preds t pr' i v a := by
  obtain ⟨c, l, h1, h2, h3⟩ := h
  exact ⟨c, l, h1, hm _ _ h2, h3⟩

theorem ActiveOk.mono {t : ℚ} {pr pr' : P → Option (List PL)} (hm : ∀ p ps, pr p = some ps → pr' p = some ps) {i v : Nat} {a : List Nat}
    (h : ActiveOk n preds t pr i v a) : ActiveOk n preds t pr' i v a := by
  obtain ⟨c, h1, h2⟩ := h
  exact ⟨c, h1, fun x y => ⟨(h2 x y).1, ActiveFor.mono hm (h2 x y).2⟩⟩

/-- The predictor of a builder gives a valid prediction now. -/
def CanPredict (n : Network P) (preds : P → Predictor) (b : Builder P) : Prop :=
  ∀ p, ∃ ps, (preds p).predict b.route b.flow = .ok ps ∧ PredictionOk n b.route ps

theorem getCosts_ok (hn : InputOk n) {d : ℚ} {b : Builder P} {pr : P → Option (List PL)} (hs : Static n d b) (hc : Caches n preds b pr)
    (hp : CanPredict n preds b) (p : P) :
    ∃ costs C pr' ps, getCosts preds b p = .ok (costs, { b with cache := C }) ∧ Caches n preds { b with cache := C } pr' ∧
      (∀ q l, pr q = some l → pr' q = some l) ∧ (∀ q l, pr' q = some l → pr q = some l ∨ (preds q).predict b.route b.flow = .ok l) ∧
      pr' p = some ps ∧ PredictionOk n b.route ps ∧ CostsFrom n b.route ps costs := by
  unfold getCosts
  rcases hc.cache p with ⟨h1, h2⟩ | ⟨costs, ps, h1, h2, h3, h4⟩
  · rw [h1]
    simp only
    obtain ⟨ps, e1, e2⟩ := hp p
    obtain ⟨costs, c1, c2⟩ := costs_ok hn e2
    rw [e1, ok_bind, hs.net, c1, ok_bind]
    have hm : ∀ q l, pr q = some l → (fun q => if q = p then some ps else pr q) q = some l := by
      intro q l hq
      by_cases hqp : q = p
      · rw [hqp, h2] at hq; cases hq
      · simp only [hqp, if_false, hq]
    refine ⟨costs, fun q => if q = p then some costs else b.cache q, fun q => if q = p then some ps else pr q, ps, rfl, ⟨?_, ?_⟩, hm, ?_, by simp, e2, c2⟩
    · intro q
      by_cases hqp : q = p
      · right; exact ⟨costs, ps, by simp [hqp], by simp [hqp], e2, c2⟩
      · simpa only [hqp, if_false] using hc.cache q
    · intro i v a ha; exact (hc.active i v a ha).mono hm
    · intro q l hq
      by_cases hqp : q = p
      · subst hqp
        simp at hq; subst hq; exact Or.inr e1
      · simp only [hqp, if_false] at hq; exact Or.inl hq
  · rw [h1]
    exact ⟨costs, b.cache, pr, ps, rfl, hc, fun _ _ h => h, fun _ _ h => Or.inl h, h2, h3, h4⟩

theorem assign_ok {G : Nat → Nat → List Nat → Prop} {p : P} {v : Nat} {a : List Nat} : ∀ (js : List Nat) (d : Nat → Nat → Option (List Nat)),
    (∀ j ∈ js, ∃ c, n.commodities[j]? = some c ∧ (c.predictor = p → G j v a)) → (∀ j u x, d j u = some x → G j u x) →
    ∃ d', assign n p v a js d = .ok d' ∧ (∀ j u x, d' j u = some x → G j u x) ∧ (∀ j u, d j u ≠ none → d' j u ≠ none) ∧
      ∀ j ∈ js, ∀ c, n.commodities[j]? = some c → c.predictor = p → d' j v ≠ none := by
  intro js
  induction js with
  | nil => intro d _ h; exact ⟨d, rfl, h, fun _ _ h => h, by simp⟩
  | cons j js ih =>
    intro d h hd
    obtain ⟨c, hc, hG⟩ := h j (by simp)
    unfold assign
    rw [rd_eq_ok.mpr hc, ok_bind]
    by_cases hcp : c.predictor = p
    · rw [if_pos hcp]
      obtain ⟨d', a1, a2, a3, a4⟩ := ih (fun i u => if i = j ∧ u = v then some a else d i u) (fun k hk => h k (by simp [hk])) (by
        intro i u x hx
        by_cases hi : i = j ∧ u = v
        · rw [if_pos hi] at hx; injection hx with hx; subst hx
          rw [hi.1, hi.2]; exact hG hcp
        · rw [if_neg hi] at hx; exact hd i u x hx)
      have hset : d' j v ≠ none := a3 j v (by simp)
      refine ⟨d', a1, a2, ?_, ?_⟩
      · intro i u hu
        apply a3
        by_cases hi : i = j ∧ u = v
        · rw [if_pos hi]; simp
        · rw [if_neg hi]; exact hu
      · intro k hk c' hc' hp'
        rcases List.mem_cons.mp hk with rfl | hk
        · exact hset
        · exact a4 k hk c' hc' hp'
    · rw [if_neg hcp]
      obtain ⟨d', a1, a2, a3, a4⟩ := ih d (fun k hk => h k (by simp [hk])) hd
      refine ⟨d', a1, a2, a3, ?_⟩
      intro k hk c' hc' hp'
      rcases List.mem_cons.mp hk with rfl | hk
      · rw [hc] at hc'; injection hc' with hc'; subst hc'; exact absurd hp' hcp
      · exact a4 k hk c' hc' hp'

theorem constLoop_ok {ord : List Nat → List Nat} (hord : OrderOk ord) {dd : ℚ} {b : Builder P} (hs : Static n dd b) {i : Nat} {c : Commodity P}
    (hi : n.commodities[i]? = some c) {costs : List ℚ} {dist : Nat → Option ℚ} {G : Nat → Nat → List Nat → Prop} :
    ∀ (vs : List Nat) (d : Nat → Nat → Option (List Nat)),
    (∀ v ∈ vs, v ≠ c.sink → ∃ a, constActive n.graph costs dist v (n.graph.outgoing v) = .ok a ∧ a ≠ [] ∧
      ∀ j c', n.commodities[j]? = some c' → c'.sink = c.sink → c'.predictor = c.predictor → G j v a) →
    (∀ j u x, d j u = some x → G j u x) →
    ∃ d', constLoop ord b c costs dist vs d = .ok d' ∧ (∀ j u x, d' j u = some x → G j u x) ∧ (∀ j u, d j u ≠ none → d' j u ≠ none) ∧
      ∀ v ∈ vs, v ≠ c.sink → d' i v ≠ none := by
  intro vs
  induction vs with
  | nil => intro d _ h; exact ⟨d, rfl, h, fun _ _ h => h, by simp⟩
  | cons v vs ih =>
    intro d h hd
    unfold constLoop
    by_cases hv : v = c.sink
    · rw [if_pos hv]
      obtain ⟨d', a1, a2, a3, a4⟩ := ih d (fun u hu => h u (by simp [hu])) hd
      refine ⟨d', a1, a2, a3, ?_⟩
      intro u hu hus
      rcases List.mem_cons.mp hu with rfl | hu
      · exact absurd hv hus
      · exact a4 u hu hus
    · rw [if_neg hv]
      obtain ⟨a, e1, e2, e3⟩ := h v (by simp) hv
      rw [hs.net, e1, ok_bind, pyAssert_true (List.length_pos_iff.mpr e2), ok_bind]
      have hids : ∀ j, j ∈ ord (b.sinkIds c.sink) ↔ IsSink n j c.sink := fun j => by rw [(hord _).2, hs.sinks]
      obtain ⟨d1, b1, b2, b3, b4⟩ := assign_ok (n := n) (p := c.predictor) (v := v) (a := a) (G := G) (ord (b.sinkIds c.sink)) d (by
        intro j hj
        obtain ⟨c', h1, h2⟩ := (hids j).mp hj
        exact ⟨c', h1, fun h3 => e3 j c' h1 h2 h3⟩) hd
      rw [b1, ok_bind]
      obtain ⟨d', a1, a2, a3, a4⟩ := ih d1 (fun u hu => h u (by simp [hu])) b2
      refine ⟨d', a1, a2, fun j u hu => a3 j u (b3 j u hu), ?_⟩
      intro u hu hus
      rcases List.mem_cons.mp hu with rfl | hu
      · exact a3 i u (b4 i ((hids i).mpr ⟨c, hi, rfl⟩) c hi rfl)
      · exact a4 u hu hus

theorem FirstEdges.congr {g : Graph} (hg : Consistent g) {c c' : Nat → ℚ} (h : ∀ e ∈ g.edges, c e = c' e) {sink v : Nat} (hv : v ∈ g.nodes) {A : List Nat}
    (hA : ∀ e ∈ A, e ∈ g.outgoing v) (hf : FirstEdges g c sink v A) : FirstEdges g c' sink v A := by
  have hb : ∀ e ∈ g.edges, c' e = c e := fun e he => (h e he).symm
  refine ⟨?_, ?_⟩
  · intro e he
    have hee := ((out_mem hg hv).mp (hA e he)).1
    obtain ⟨k, L, h1, h2⟩ := hf.sound e he
    refine ⟨k, L, route_congr h h1, fun k' L' hr => ?_⟩
    rw [← h e hee]; exact h2 k' L' (route_congr hb hr)
  · intro e he k L hr hm
    have hee := ((out_mem hg hv).mp he).1
    refine hf.complete e he k L (route_congr hb hr) (fun k' L' hr' => ?_)
    rw [h e hee]; exact hm k' L' (route_congr h hr')

theorem between_nodes (hn : InputOk n) {c : Commodity P} (hc : c ∈ n.commodities) {v : Nat} (h : Between n.graph c v) : v ∈ n.graph.nodes := by
  obtain ⟨_, s, hs, hp⟩ := h
  exact path_nodes hn.graph hp (hn.source c hc s hs).1

/-- The active edges of a commodity at a node of use to it. -/
theorem getActive_ok (hn : InputOk n) {ord : List Nat → List Nat} (hord : OrderOk ord) {d : ℚ} {b : Builder P} {pr : P → Option (List PL)}
    (hs : Static n d b) (hc : Caches n preds b pr) (hp : CanPredict n preds b) {i v : Nat} {c : Commodity P} (hi : n.commodities[i]? = some c)
    (hv : Between n.graph c v) (hvs : v ≠ c.sink) :
    ∃ a A C pr', getActive ord preds b i v = .ok (a, { b with active := A, cache := C }) ∧ Caches n preds { b with active := A, cache := C } pr' ∧
      (∀ q l, pr q = some l → pr' q = some l) ∧ (∀ q l, pr' q = some l → pr q = some l ∨ (preds q).predict b.route b.flow = .ok l) ∧
      EdgesOk n.graph c.sink v a ∧ ActiveFor n preds b.route pr' i v a := by
  have e := hs.net
  subst e
  have hcm := List.mem_of_getElem? hi
  unfold getActive
  cases hb : b.active i v with
  | some a =>
    obtain ⟨c', h1, h2⟩ := hc.active i v a hb
    rw [hi] at h1; injection h1 with h1; subst h1
    obtain ⟨h3, h4⟩ := h2 hv hvs
    exact ⟨a, b.active, b.cache, pr, rfl, hc, fun _ _ h => h, fun _ _ h => Or.inl h, h3, h4⟩
  | none =>
    simp only
    obtain ⟨L, hL, hLm⟩ := hs.imp i c hi
    rw [rd_eq_ok.mpr hi, ok_bind, rd_eq_ok.mpr hL, ok_bind]
    obtain ⟨costs, C, pr', ps, g1, g2, g3, g4, g5, g6, g7⟩ := getCosts_ok hn hs hc hp c.predictor
    have hvL := (hLm v).mpr hv
    have hsub : ∀ u ∈ L, u ∈ b.net.graph.nodes := fun u hu => between_nodes hn hcm ((hLm u).mp hu)
    have hcl := between_closed hLm
    have hsink : c.sink ∈ L := by
      rw [hLm]
      obtain ⟨s, hs', hp'⟩ := hv.2
      exact ⟨.refl, s, hs', hp'.trans hv.1⟩
    by_cases hk : (preds c.predictor).constant = true
    · rw [if_pos hk, g1, ok_bind]
      simp only
      obtain ⟨consts, k1, k2, k3, k4⟩ := consts_ok hn g6 g7
      rw [k1, ok_bind]
      obtain ⟨dist, r1, _⟩ := Dijkstra.reverseDijkstra_spec hn.graph k2 k3 hsub hsink
      rw [r1, ok_bind]
      have hs' : Static b.net d { b with cache := C } := ⟨rfl, hs.interval, hs.imp, hs.sinks⟩
      obtain ⟨A, a1, a2, a3, a4⟩ := constLoop_ok (n := b.net) hord hs' hi (costs := consts) (dist := dist)
        (G := ActiveOk b.net preds b.route pr') (ord L) b.active (by
          intro u hu hus
          rw [(hord L).2] at hu
          obtain ⟨a, x1, x2, x3⟩ := constActive_ok hn.graph k2 k3 hsub hsink hcl r1 hu hus ((hLm u).mp hu).1
          refine ⟨a, x1, x2.ne, ?_⟩
          intro j c' hj hsk hpr
          refine ⟨c', hj, fun hbt hns => ⟨hsk ▸ x2, c', ps, hj, hpr ▸ g5, ?_, ?_⟩⟩
          · intro _ cost hcost
            rw [hsk]
            exact FirstEdges.congr hn.graph (k4 cost hcost) (hsub u hu) x2.out x3
          · intro hf; rw [hpr, hk] at hf; cases hf)
        (g2.active)
      rw [a1, ok_bind]
      have hne := a4 v ((hord L).2 v |>.mpr hvL) hvs
      cases hA : A i v with
      | none => exact absurd hA hne
      | some a =>
        simp only
        obtain ⟨c', h1, h2⟩ := a2 i v a hA
        rw [hi] at h1; injection h1 with h1; subst h1
        obtain ⟨h3, h4⟩ := h2 hv hvs
        exact ⟨a, A, C, pr', rfl, ⟨g2.cache, a2⟩, g3, g4, h3, h4⟩
    · rw [if_neg hk, g1, ok_bind]
      simp only
      obtain ⟨cc, hcc⟩ := g7.costs
      obtain ⟨res, a, r1, r2, r3, r4⟩ := dynamic_ok hn.graph (fifo_ok g6 g7 hcc) hsub hsink hcl (fun u hu => ((hLm u).mp hu).1) hvL hvs
      rw [r1, ok_bind, r2, ok_bind]
      have hact : ActiveFor b.net preds b.route pr' i v a := by
        refine ⟨c, ps, hi, g5, fun h => absurd h hk, fun _ cost hcost => ?_⟩
        obtain ⟨res', a', r1', r2', _, r4'⟩ := dynamic_ok hn.graph (fifo_ok g6 g7 hcost) hsub hsink hcl (fun u hu => ((hLm u).mp hu).1) hvL hvs
        rw [r1] at r1'; injection r1' with r1'; subst r1'
        rw [r2] at r2'; injection r2' with r2'; subst r2'
        exact r4'
      refine ⟨a, fun j u => if j = i ∧ u = v then some a else b.active j u, C, pr', rfl, ⟨g2.cache, ?_⟩, g3, g4, r3, hact⟩
      intro j u x hx
      simp only at hx
      by_cases hj : j = i ∧ u = v
      · rw [if_pos hj] at hx; injection hx with hx; subst hx
        rw [hj.1, hj.2]
        exact ⟨c, hi, fun _ _ => ⟨r3, hact⟩⟩
      · rw [if_neg hj] at hx; exact g2.active j u x hx

end Builder
end Verif
