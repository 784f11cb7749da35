import Verif.Proofs.TwinActive

/-! The order in which the flow builder visits sets does not matter: the table of new inflows. -/

namespace Verif
open Spec

namespace Builder
variable {P : Type} [DecidableEq P] {n : Network P} {preds : P → Predictor}

theorem spread_keys_twin {g : Graph} {i : Nat} {x : ℚ} : ∀ (es : List Nat) {d d' : List (Nat × Rates)}, spread g i x es d = .ok d' → ∀ e ∈ es, (g.edge e).id ∈ d.map Prod.fst := by
  intro es
  induction es with
  | nil => intro d d' _ e he; cases he
  | cons y es ih =>
    intro d d' h e he
    unfold spread at h
    by_cases hin : (d.lookup (g.edge y).id).isSome = true
    · rw [if_pos hin] at h
      rcases List.mem_cons.mp he with rfl | he
      · exact lookup_isSome.mp hin
      · have := ih h e he
        rw [keys_upd (fun r : Rates => r.filter (fun q => q.1 ≠ i) ++ [(i, x)]) (g.edge y).id d] at this
        exact this
    · rw [if_neg hin] at h; cases h

theorem distribute_det {imp : List (List Nat)} (hsh : Share n imp preds) {ord : List Nat → List Nat} (hord : OrderOk ord) {t : ℚ} {R : P → Py (List PL)} {v : Nat}
    {outs : List Rates} {net : Rates} : ∀ (is : List Nat) {b b' : Builder P} {d d' : List (Nat × Rates)}, Det n imp preds t R b → is.Nodup → TableOk d →
    distribute ord preds v outs net is b d = .ok (d', b') →
    ∃ A C, b' = { b with active := A, cache := C } ∧ Det n imp preds t R b' ∧ TableOk d' ∧ d'.map Prod.fst = d.map Prod.fst ∧
      (∀ q, C q ≠ none ↔ b.cache q ≠ none ∨ ∃ i ∈ is, eps ≤ (outs.map (fun o => o.get i)).sum + net.get i ∧ ∃ c, n.commodities[i]? = some c ∧ c.predictor = q) ∧
      (∀ (k j : Nat), j ∉ is ∨ (outs.map (fun o => o.get j)).sum + net.get j < eps → val d' k j = val d k j) ∧
      ∀ i ∈ is, eps ≤ (outs.map (fun o => o.get i)).sum + net.get i → ∃ S, Fixed n imp preds t R i v S ∧
        ∀ (k : Nat), val d' k i = if ∃ e ∈ S, (n.graph.edge e).id = k then ((outs.map (fun o => o.get i)).sum + net.get i) / S.length else val d k i := by
  intro is
  induction is with
  | nil =>
    intro b b' d d' h _ ht he
    injection he with he; injection he with h1 h2; subst h1; subst h2
    exact ⟨b.active, b.cache, rfl, h, ht, rfl, by simp, fun _ _ _ => rfl, by simp⟩
  | cons i is ih =>
    intro b b' d d' h hnd ht he
    rw [List.nodup_cons] at hnd
    unfold distribute at he
    simp only at he
    by_cases hx : (outs.map (fun o => o.get i)).sum + net.get i < eps
    · rw [if_pos hx] at he
      obtain ⟨A, C, a1, a2, a3, a4, a5, a6, a7⟩ := ih h hnd.2 ht he
      refine ⟨A, C, a1, a2, a3, a4, ?_, ?_, ?_⟩
      · intro q
        rw [a5 q]
        simp only [List.mem_cons, exists_eq_or_imp]
        constructor
        · rintro (hc | hc)
          · exact Or.inl hc
          · exact Or.inr (Or.inr hc)
        · rintro (hc | ⟨hc, _⟩ | hc)
          · exact Or.inl hc
          · exact absurd hx (not_lt.mpr hc)
          · exact Or.inr hc
      · intro k j hj
        refine a6 k j ?_
        rcases hj with hj | hj
        · exact Or.inl (fun hc => hj (by simp [hc]))
        · exact Or.inr hj
      · intro j hj hle
        rcases List.mem_cons.mp hj with rfl | hj
        · exact absurd hx (not_lt.mpr hle)
        · exact a7 j hj hle
    · rw [if_neg hx] at he
      have hle := not_lt.mp hx
      have hpos : 0 < (outs.map (fun o => o.get i)).sum + net.get i := lt_of_lt_of_le eps_pos hle
      obtain ⟨⟨a, b1⟩, e1, he⟩ := bind_eq_ok.mp he
      obtain ⟨x, e2, he⟩ := bind_eq_ok.mp he
      obtain ⟨d1, e3, he⟩ := bind_eq_ok.mp he
      simp only at e2 e3 he
      obtain ⟨A1, C1, c, costs, rfl, g1, g2, g3, g4, g5⟩ := getActive_det hsh hord h e1
      simp only [h.net] at e3
      have hlen : (a.length : ℚ) ≠ 0 := by
        intro hc
        unfold pyDiv at e2
        rw [if_pos hc] at e2; cases e2
      have hlen' : (0 : ℚ) < a.length := lt_of_le_of_ne (by positivity) (Ne.symm hlen)
      have hxe : x = ((outs.map (fun o => o.get i)).sum + net.get i) / a.length := by
        unfold pyDiv at e2
        rw [if_neg hlen] at e2
        injection e2 with e2; exact e2.symm
      obtain ⟨d2, s1, s2, s3, s4⟩ := spread_spec (g := n.graph) (i := i) (x := x) (hxe ▸ div_pos hpos hlen') a ht (spread_keys_twin _ e3)
      rw [e3] at s1; injection s1 with s1; subst s1
      obtain ⟨A, C, a1, a2, a3, a4, a5, a6, a7⟩ := ih g1 hnd.2 s2 he
      refine ⟨A, C, a1, a2, a3, by rw [a4, s3], ?_, ?_, ?_⟩
      · intro q
        rw [a5 q]
        simp only [List.mem_cons, exists_eq_or_imp]
        rw [g5 q, or_assoc]
        have : q = c.predictor ↔ eps ≤ (outs.map (fun o => o.get i)).sum + net.get i ∧ ∃ c, n.commodities[i]? = some c ∧ c.predictor = q := by
          constructor
          · intro hq; exact ⟨hle, c, g2, hq.symm⟩
          · rintro ⟨_, c', y1, y2⟩
            rw [g2] at y1; injection y1 with y1; subst y1; exact y2.symm
        rw [this]
      · intro k j hj
        have hji : j ≠ i := by
          rintro rfl
          rcases hj with hj | hj
          · exact hj (by simp)
          · exact hx hj
        rw [a6 k j (by
          rcases hj with hj | hj
          · exact Or.inl (fun hc => hj (by simp [hc]))
          · exact Or.inr hj), s4, if_neg (fun hc => hji hc.1)]
      · intro j hj hle'
        rcases List.mem_cons.mp hj with rfl | hj
        · refine ⟨a, ⟨c, costs, g2, g1.cache _ _ g3, g4⟩, fun k => ?_⟩
          rw [a6 k j (Or.inl hnd.1), s4, hxe]
          simp only [true_and]
        · have hji : j ≠ i := fun e => hnd.1 (e ▸ hj)
          obtain ⟨S, y1, y2⟩ := a7 j hj hle'
          refine ⟨S, y1, fun k => ?_⟩
          have hsame : val d1 k j = val d k j := by rw [s4, if_neg (fun hc => hji hc.1)]
          rw [y2, hsame]

/-- What the costs `R` and the flow `f` make of the outflow of commodity `i` into edge `k`, out of node `v`. -/
def Entry (n : Network P) (imp : List (List Nat)) (preds : P → Predictor) (t : ℚ) (R : P → Py (List PL)) (f : DFlow) (v k i : Nat) (x : ℚ) : Prop :=
  (IsSink n i v ∨ arriving n f v i f.phi < eps → x = 0) ∧
  (¬ IsSink n i v → eps ≤ arriving n f v i f.phi → ∃ S, Fixed n imp preds t R i v S ∧ x = if ∃ e ∈ S, (n.graph.edge e).id = k then arriving n f v i f.phi / S.length else 0)

omit [DecidableEq P] in
theorem Entry.unique {imp : List (List Nat)} {t : ℚ} {R : P → Py (List PL)} {f g : DFlow} (hphi : f.phi = g.phi) (hg : ∀ v i, arriving n f v i f.phi = arriving n g v i g.phi) {v k i : Nat} {x y : ℚ}
    (hx : Entry n imp preds t R f v k i x) (hy : Entry n imp preds t R g v k i y) : x = y := by
  by_cases hs : IsSink n i v
  · rw [hx.1 (Or.inl hs), hy.1 (Or.inl hs)]
  · by_cases ha : arriving n f v i f.phi < eps
    · rw [hx.1 (Or.inr ha), hy.1 (Or.inr (hg v i ▸ ha))]
    · obtain ⟨S, h1, h2⟩ := hx.2 hs (not_lt.mp ha)
      obtain ⟨S', h1', h2'⟩ := hy.2 hs (hg v i ▸ not_lt.mp ha)
      have := h1.unique h1'
      subst this
      rw [h2, h2', hg v i]

omit [DecidableEq P] in
theorem outflows_twin {g : Graph} {D : EdgeData} {F : DFlow} : ∀ (es : List Nat) {s s' : DFlow} {vs : List Rates}, DFlow.Twin D s F → outflows g es s = .ok (vs, s') → DFlow.Twin D s' F := by
  intro es
  induction es with
  | nil => intro s s' vs h he; injection he with he; injection he with _ h2; subst h2; exact h
  | cons e es ih =>
    intro s s' vs h he
    unfold outflows at he
    obtain ⟨⟨v, s1⟩, e1, he⟩ := bind_eq_ok.mp he
    obtain ⟨⟨rest, s2⟩, e2, he⟩ := bind_eq_ok.mp he
    injection he with he; injection he with _ h2; subst h2
    exact ih (DFlow.look_twin h e1).1 e2

theorem newInflow_det (hn : InputOk n) {imp : List (List Nat)} (hsh : Share n imp preds) {ord : List Nat → List Nat} (hord : OrderOk ord) {t : ℚ} {R : P → Py (List PL)} {F : DFlow}
    (hbl : ∀ s, DFlow.Twin n.data s F → ∀ p, (preds p).predict t s = (preds p).predict t F) :
    ∀ (vs : List Nat) {b b' : Builder P} {d d' : List (Nat × Rates)}, Det n imp preds t R b → DFlow.Twin n.data b.flow F → FlowOk n b.flow →
    (∀ v ∈ n.graph.nodes, (b.netInflow v).Reads b.flow.phi (networkRate n v)) → vs.Nodup → (∀ v ∈ vs, v ∈ n.graph.nodes) → TableOk d →
    newInflow ord preds vs b d = .ok (d', b') →
    Det n imp preds t R b' ∧ DFlow.Twin n.data b'.flow F ∧ TableOk d' ∧
      (∀ q, b'.cache q ≠ none ↔ b.cache q ≠ none ∨ ∃ v ∈ vs, ∃ i, ¬ IsSink n i v ∧ eps ≤ arriving n b.flow v i b.flow.phi ∧ ∃ c, n.commodities[i]? = some c ∧ c.predictor = q) ∧
      (∀ k, k ∈ d'.map Prod.fst ↔ k ∈ d.map Prod.fst ∨ ∃ v ∈ vs, ∃ e ∈ n.graph.outgoing v, (n.graph.edge e).id = k) ∧
      (∀ (k j : Nat), (¬ ∃ v ∈ vs, ∃ e ∈ n.graph.outgoing v, (n.graph.edge e).id = k) → val d' k j = val d k j) ∧
      ∀ v ∈ vs, ∀ e ∈ n.graph.outgoing v, ∀ i, Entry n imp preds t R b.flow v (n.graph.edge e).id i (val d' (n.graph.edge e).id i) := by
  intro vs
  induction vs with
  | nil =>
    intro b b' d d' h htw hf hr _ _ ht he
    injection he with he; injection he with h1 h2; subst h1; subst h2
    exact ⟨h, htw, ht, by simp, by simp, by simp, by simp⟩
  | cons v vs ih =>
    intro b b' d d' h htw hf hr hnd hvs ht he
    rw [List.nodup_cons] at hnd
    have hv := hvs v (by simp)
    have hg := hn.graph
    obtain ⟨t1, t2, t3⟩ := reset_spec (g := n.graph) (n.graph.outgoing v) ht
    obtain ⟨outs, s1, o1, o2, o3, o4, o5, o6, o7⟩ := outflows_spec (n := n) (n.graph.incoming v) hf
    obtain ⟨net, c1, q1, q2, q3, q4, _, _⟩ := (hr v hv).query
    have hphi : s1.phi = b.flow.phi := o3.phi
    have h0 : 0 ≤ b.flow.phi := hf.phi_nonneg
    have hX : ∀ i, (outs.map (fun o => o.get i)).sum + net.get i = arriving n b.flow v i b.flow.phi := by
      intro i
      rw [arriving_eq hf v i h0, o6, q3]
    have htw1 : DFlow.Twin n.data s1 F := outflows_twin _ htw o1
    unfold newInflow at he
    rw [h.net] at he
    simp only at he
    rw [o1, ok_bind] at he
    simp only at he
    rw [hphi, q1, ok_bind] at he
    simp only at he
    obtain ⟨⟨d1, b2⟩, e1, he⟩ := bind_eq_ok.mp he
    simp only at he
    obtain ⟨b1, hb1⟩ : ∃ b1 : Builder P, b1 = { b with flow := s1, netInflow := setAt b.netInflow v c1 } := ⟨_, rfl⟩
    have hdet1 : Det n imp preds t R b1 := by
      subst hb1
      refine ⟨h.net, h.important, h.route, h.sinks, h.cache, ?_, h.active⟩
      intro q hq
      rw [← h.now q hq]
      unfold costsNow
      simp only
      rw [hbl s1 htw1, hbl b.flow htw]
    have hbb : ({ b with flow := s1, netInflow := setAt b.netInflow v c1 } : Builder P) = b1 := hb1.symm
    obtain ⟨used, hused⟩ : ∃ used, used = ((outs.flatten ++ net).map Prod.fst).filter (fun i => ¬ i ∈ b.sinkIds v) := ⟨_, rfl⟩
    rw [← hused] at e1
    rw [← h.net, hbb, h.net] at e1
    have hmem : ∀ i, i ∈ ord used ↔ (i ∈ outs.flatten.map Prod.fst ∨ i ∈ net.map Prod.fst) ∧ ¬ IsSink n i v := by
      intro i
      rw [(hord used).2, hused, List.mem_filter, List.map_append, List.mem_append, decide_eq_true_eq, h.sinks]
    have hzero : ∀ i, i ∉ ord used → ¬ IsSink n i v → arriving n b.flow v i b.flow.phi = 0 := by
      intro i hi hsk
      rw [hmem] at hi
      have hno : ¬ (i ∈ outs.flatten.map Prod.fst ∨ i ∈ net.map Prod.fst) := fun hc => hi ⟨hc, hsk⟩
      rw [not_or] at hno
      rw [← hX]
      have z1 : net.get i = 0 := by
        apply Rates.get_of_not_has
        intro hh
        obtain ⟨x, hx⟩ := Rates.has_iff.mp hh
        exact hno.2 (List.mem_map.mpr ⟨_, hx, rfl⟩)
      have z2 : (outs.map (fun o => o.get i)).sum = 0 := by
        apply List.sum_eq_zero
        intro x hx
        obtain ⟨o, ho, rfl⟩ := List.mem_map.mp hx
        apply Rates.get_of_not_has
        intro hh
        obtain ⟨x, hx⟩ := Rates.has_iff.mp hh
        exact hno.1 (List.mem_map.mpr ⟨_, List.mem_flatten.mpr ⟨o, ho, hx⟩, rfl⟩)
      rw [z1, z2, add_zero]
    have hused' : ∀ i, i ∈ ord used ∧ eps ≤ (outs.map (fun o => o.get i)).sum + net.get i ↔ ¬ IsSink n i v ∧ eps ≤ arriving n b.flow v i b.flow.phi := by
      intro i
      rw [hX]
      constructor
      · rintro ⟨x, y⟩; exact ⟨((hmem i).mp x).2, y⟩
      · rintro ⟨x, y⟩
        refine ⟨?_, y⟩
        by_contra hc
        have := hzero i hc x
        rw [this] at y
        exact absurd eps_pos (not_lt.mpr y)
    obtain ⟨A, C, rfl, a2, a3, a4, a5, a6, a7⟩ := distribute_det hsh hord (ord used) hdet1 (hord used).1 t1 e1
    have hfl2 : ({ b1 with active := A, cache := C } : Builder P).flow = s1 := by subst hb1; rfl
    have hni2 : ({ b1 with active := A, cache := C } : Builder P).netInflow = setAt b.netInflow v c1 := by subst hb1; rfl
    have hca1 : b1.cache = b.cache := by subst hb1; rfl
    have hr2 : ∀ u ∈ n.graph.nodes, ((({ b1 with active := A, cache := C } : Builder P).netInflow) u).Reads s1.phi (networkRate n u) := by
      intro u hu
      rw [hni2, hphi]
      by_cases huv : u = v
      · subst huv; rw [DFlow.setAt_self]; exact q4
      · rw [DFlow.setAt_ne _ _ huv]; exact hr u hu
    obtain ⟨f1, f2, f3, f4, f5, f6, f7⟩ := ih a2 (by rw [hfl2]; exact htw1) (by rw [hfl2]; exact o2) (by rw [hfl2]; exact hr2) hnd.2 (fun u hu => hvs u (by simp [hu])) a3 he
    have harr : ∀ u i, arriving n s1 u i s1.phi = arriving n b.flow u i b.flow.phi := by
      intro u i
      rw [o3.arriving, hphi]
    rw [hfl2] at f4 f7
    have hdisj : ∀ e ∈ n.graph.outgoing v, ¬ ∃ u ∈ vs, ∃ e' ∈ n.graph.outgoing u, (n.graph.edge e').id = (n.graph.edge e).id := by
      rintro e he ⟨u, hu, e', he', hid⟩
      obtain ⟨x1, x2⟩ := (out_mem hg hv).mp he
      obtain ⟨y1, y2⟩ := (out_mem hg (hvs u (by simp [hu]))).mp he'
      have := id_inj hg y1 x1 hid
      subst this
      rw [x2] at y2
      exact hnd.1 (y2 ▸ hu)
    refine ⟨f1, f2, f3, ?_, ?_, ?_, ?_⟩
    · intro q
      rw [f4 q]
      simp only
      rw [a5 q, hca1]
      simp only [List.mem_cons, exists_eq_or_imp, harr]
      rw [or_assoc]
      have : (∃ i ∈ ord used, eps ≤ (outs.map (fun o => o.get i)).sum + net.get i ∧ ∃ c, n.commodities[i]? = some c ∧ c.predictor = q) ↔
          ∃ i, ¬ IsSink n i v ∧ eps ≤ arriving n b.flow v i b.flow.phi ∧ ∃ c, n.commodities[i]? = some c ∧ c.predictor = q := by
        constructor
        · rintro ⟨i, x1, x2, x3⟩
          obtain ⟨y1, y2⟩ := (hused' i).mp ⟨x1, x2⟩
          exact ⟨i, y1, y2, x3⟩
        · rintro ⟨i, x1, x2, x3⟩
          obtain ⟨y1, y2⟩ := (hused' i).mpr ⟨x1, x2⟩
          exact ⟨i, y1, y2, x3⟩
      rw [this]
    · intro k
      rw [f5, a4, t2]
      simp only [List.mem_cons, exists_eq_or_imp]
      rw [or_assoc]
    · intro k j hno
      have h1 : ¬ ∃ u ∈ vs, ∃ e ∈ n.graph.outgoing u, (n.graph.edge e).id = k := by
        rintro ⟨u, hu, x⟩; exact hno ⟨u, by simp [hu], x⟩
      have h2 : ¬ ∃ e ∈ n.graph.outgoing v, (n.graph.edge e).id = k := fun x => hno ⟨v, by simp, x⟩
      rw [f6 k j h1]
      have h3 : val d1 k j = val (reset n.graph (n.graph.outgoing v) d) k j := by
        by_cases hj : j ∈ ord used ∧ eps ≤ (outs.map (fun o => o.get j)).sum + net.get j
        · obtain ⟨S, y1, y2⟩ := a7 j hj.1 hj.2
          rw [y2, if_neg]
          rintro ⟨e, he, hid⟩
          exact h2 ⟨e, Fixed.out hn hv y1 e he, hid⟩
        · refine a6 k j ?_
          by_cases hm : j ∈ ord used
          · exact Or.inr (not_le.mp (fun hc => hj ⟨hm, hc⟩))
          · exact Or.inl hm
      rw [h3, t3, if_neg h2]
    · intro u hu e heo i
      rcases List.mem_cons.mp hu with rfl | hu
      · have hval : val d' (n.graph.edge e).id i = val d1 (n.graph.edge e).id i := f6 _ i (hdisj e heo)
        have hres : val (reset n.graph (n.graph.outgoing u) d) (n.graph.edge e).id i = 0 := by rw [t3, if_pos ⟨e, heo, rfl⟩]
        rw [hval]
        refine ⟨fun hs => ?_, fun h1 h2 => ?_⟩
        · rw [← hres]
          refine a6 _ i ?_
          rw [hX]
          rcases hs with hs | hs
          · left; intro hc; exact ((hmem i).mp hc).2 hs
          · exact Or.inr hs
        · obtain ⟨y1, y2⟩ := (hused' i).mpr ⟨h1, h2⟩
          obtain ⟨S, z1, z2⟩ := a7 i y1 y2
          refine ⟨S, z1, ?_⟩
          rw [z2, hres, hX]
      · have := f7 u hu e heo i
        unfold Entry at this ⊢
        rw [harr] at this
        exact this

end Builder
end Verif
