import Verif.Proofs.TwinNode

/-! The order in which the flow builder visits sets does not matter: rounds. -/

namespace Verif
open Spec

namespace DFlow

theorem clear_twin {net : EdgeData} {s t : DFlow} (h : Twin net s t) {e : Nat} {v w : Rates} (hv : SameDict v w) (hc : Clear net s e v) : Clear net t e w := by
  obtain ⟨P, C, Q, D, r1, r2, tw, twc⟩ := h.loc
  have tl := tw e
  obtain ⟨a, a', x1, x2, x3⟩ := tl.inflow.last
  obtain ⟨b, b', y1, y2, y3⟩ := tl.outflow.last
  have hq : s.queues e = t.queues e := tl.queue
  have hai : (s.inflow e).acc = (t.inflow e).acc := tl.inflow.acc
  have hao : (s.outflow e).acc = (t.outflow e).acc := tl.outflow.acc
  simp only [DFlow.loc] at x1 x2 y1 y2
  intro q lin lout z h1 h2 h3 h4
  rw [x2] at h2; injection h2 with h2; subst h2
  rw [y2] at h3; injection h3 with h3; subst h3
  rw [← hq, ← h.phi] at h1
  rw [← hq] at h4
  have := hc q a b z h1 x1 y1 h4
  have hg : v.get = w.get := funext hv.get
  have hga : a.values.get = a'.values.get := funext x3.2.get
  have hgb : b.values.get = b'.values.get := funext y3.2.get
  rw [← hai, ← hao, ← hq, ← h.phi, ← x3.1, ← y3.1]
  obtain ⟨c1, c2, c3, c4, c5, c6, c7, c8, c9, c10⟩ := this
  rw [hv.total] at c2 c5 c6 c8 c9 c10
  rw [hg] at c3 c6 c10
  rw [hga] at c3
  rw [hgb] at c6
  exact ⟨c1, c2, c3, c4, c5, c6, c7, c8, c9, c10⟩

end DFlow

theorem minKey_same {h h' : Heap EVal (Nat × Nat × ℚ)} {M : Nat × Nat × ℚ → Option EVal} (hr : h.Rep M) (hr' : h'.Rep M) : h.minKey = h'.minKey := by
  obtain ⟨k, a1, a2, a3⟩ := hr.minKey
  obtain ⟨k', b1, b2, b3⟩ := hr'.minKey
  rw [a1, b1]
  congr 1
  apply le_antisymm
  · rcases b3 with ⟨x, hx⟩ | ⟨rfl, _⟩
    · exact a2 x k' hx
    · exact le_top
  · rcases a3 with ⟨x, hx⟩ | ⟨rfl, _⟩
    · exact b2 x k hx
    · exact le_top

namespace Builder
variable {P : Type} [DecidableEq P] {n : Network P} {preds : P → Predictor}

/-- The stored active edges follow from the stored costs. -/
def ActDet (n : Network P) (imp : List (List Nat)) (preds : P → Predictor) (b : Builder P) : Prop :=
  ∀ i v a, b.active i v = some a → ∃ c costs, n.commodities[i]? = some c ∧ b.cache c.predictor = some costs ∧ actOf n imp preds b.route i v costs = .ok a

/-- The costs that will be used: the stored ones, and those predicted now. -/
def costsOf (n : Network P) (preds : P → Predictor) (t : ℚ) (F : DFlow) (C : P → Option (List PL)) (q : P) : Py (List PL) :=
  match C q with
  | some c => .ok c
  | none => costsNow n preds t F q

/-- The routing period of the round begins with it. -/
def Due (b : Builder P) : Prop := b.flow.phi ≥ b.nextReroute

/-- The nodes handled in the round. -/
def Handled (n : Network P) (W : Nat × Nat × ℚ → Bool) (b : Builder P) (v : Nat) : Prop :=
  (Due b ∧ v ∈ n.graph.nodes) ∨ (¬ Due b ∧ (v ∈ b.handle ∨ ∃ x, W x = true ∧ x.2.1 = v ∧ x.2.2 ≤ b.flow.phi))

open Classical in
/-- The stored costs in the round. -/
noncomputable def kept (b : Builder P) : P → Option (List PL) := if Due b then fun _ => none else b.cache

open Classical in
/-- The time of the predictions in the round. -/
noncomputable def since (b : Builder P) : ℚ := if Due b then b.nextReroute else b.route

open Classical in
theorem prepare_det (hn : InputOk n) {imp : List (List Nat)} (hsh : Share n imp preds) {ord : List Nat → List Nat} (hord : OrderOk ord)
    {d : ℚ} {f0 : DFlow} {cs : List FlowCall} {hist : Nat → P → Option (List PL)} {K : Nat} {W0 W : Nat × Nat × ℚ → Bool} {b b' : Builder P}
    (h : Inv n preds d f0 cs hist K W0 b) (hW : b.changes.Rep (wmap W)) (hWb : ∀ x, W x = true → Break n.commodities x) (himp : b.important = imp) (hact : ActDet n imp preds b) {F : DFlow}
    (htw : DFlow.Twin n.data b.flow F)
    (hbl : ∀ s, DFlow.Twin n.data s F → ∀ p t, (preds p).predict t s = (preds p).predict t F)
    {l : List (Nat × Rates)} {T : ℚ} (he : prepare ord preds b = .ok (l, T, b')) :
    Det n imp preds (since b) (costsOf n preds (since b) F (kept b)) b' ∧ DFlow.Twin n.data b'.flow F ∧ TableOk l ∧
      (∀ q, b'.cache q ≠ none ↔ kept b q ≠ none ∨ ∃ v, Handled n W b v ∧ ∃ i, ¬ IsSink n i v ∧ eps ≤ arriving n b.flow v i b.flow.phi ∧ ∃ c, n.commodities[i]? = some c ∧ c.predictor = q) ∧
      (∀ k, k ∈ l.map Prod.fst ↔ ∃ v, Handled n W b v ∧ ∃ e ∈ n.graph.outgoing v, (n.graph.edge e).id = k) ∧
      (∀ v, Handled n W b v → ∀ e ∈ n.graph.outgoing v, ∀ i,
        Entry n imp preds (since b) (costsOf n preds (since b) F (kept b)) b.flow v (n.graph.edge e).id i (val l (n.graph.edge e).id i)) ∧
      b'.nextReroute = (if Due b then b.nextReroute + d else b.nextReroute) ∧
      (∃ W', b'.changes.Rep (wmap W') ∧ ∀ x, W' x = true ↔ W x = true ∧ b.flow.phi < x.2.2) ∧
      ∃ k, b'.changes.minKey = .ok k ∧ (min (ev b'.nextReroute) k).toRat = .ok T := by
  unfold prepare at he
  obtain ⟨h1, W1, H1, p1, p2, p3, p4⟩ := popChanges_spec (b.changes.len + 1) b W hW (by omega)
  rw [p1, ok_bind] at he
  obtain ⟨b2, e1, he⟩ := bind_eq_ok.mp he
  obtain ⟨⟨l', b3⟩, e2, he⟩ := bind_eq_ok.mp he
  simp only at he
  obtain ⟨k, e3, he⟩ := bind_eq_ok.mp he
  obtain ⟨T', e4, he⟩ := bind_eq_ok.mp he
  injection he with he; injection he with x1 x2; injection x2 with x2 x3
  subst x1; subst x2; subst x3
  -- after the routing part
  have hre : Det n imp preds (since b) (costsOf n preds (since b) F (kept b)) b2 ∧ b2.flow = b.flow ∧ b2.netInflow = b.netInflow ∧ b2.changes = h1 ∧
      b2.nextReroute = (if Due b then b.nextReroute + d else b.nextReroute) ∧ b2.cache = kept b ∧ ∀ v, v ∈ b2.handle ↔ Handled n W b v := by
    unfold reroute at e1
    simp only [h.static.interval] at e1
    have hsplit : ∀ q x, kept b q = some x → costsOf n preds (since b) F (kept b) q = .ok x := by
      intro q x hq; unfold costsOf; rw [hq]
    have hnow : ∀ q, kept b q = none → costsNow n preds (since b) b.flow q = costsOf n preds (since b) F (kept b) q := by
      intro q hq; unfold costsOf; rw [hq]; simp only; unfold costsNow; rw [hbl _ htw]
    by_cases hd : Due b
    · have hd' := hd
      unfold Due at hd'
      rw [if_pos hd'] at e1
      injection e1 with e1; subst e1
      have hk : kept b = fun _ => none := by unfold kept; rw [if_pos hd]
      have hs : since b = b.nextReroute := by unfold since; rw [if_pos hd]
      refine ⟨⟨h.static.net, himp, hs.symm, h.static.sinks, ?_, ?_, ?_⟩, rfl, rfl, rfl, by rw [if_pos hd], hk.symm, ?_⟩
      · intro q x hq; cases hq
      · intro q _; exact hnow q (by rw [hk])
      · intro i v a ha; cases ha
      · intro v
        simp only [h.static.net]
        unfold Handled
        simp [hd]
    · have hd' := hd
      unfold Due at hd'
      rw [if_neg hd'] at e1
      injection e1 with e1; subst e1
      have hk : kept b = b.cache := by unfold kept; rw [if_neg hd]
      have hs : since b = b.route := by unfold since; rw [if_neg hd]
      refine ⟨⟨h.static.net, himp, hs.symm, h.static.sinks, ?_, ?_, ?_⟩, rfl, rfl, rfl, by rw [if_neg hd], hk.symm, ?_⟩
      · intro q x hq; exact hsplit q x (by rw [hk]; exact hq)
      · intro q hq; exact hnow q (by rw [hk]; exact hq)
      · rw [hs]; exact hact
      · intro v
        simp only [List.mem_append, p4 v]
        unfold Handled
        simp [hd]
  obtain ⟨r1, r2, r3, r4, r5, r6, r7⟩ := hre
  have hnodes : ∀ v, Handled n W b v → v ∈ n.graph.nodes := by
    rintro v (⟨_, hv⟩ | ⟨_, hv | ⟨x, hx, hxv, _⟩⟩)
    · exact hv
    · exact h.handle v hv
    · exact hxv ▸ break_node hn (hWb x hx)
  have hbl' : ∀ s, DFlow.Twin n.data s F → ∀ p, (preds p).predict (since b) s = (preds p).predict (since b) F := fun s hs p => hbl s hs p _
  obtain ⟨g1, g2, g3, g4, g5, g6, g7⟩ := newInflow_det hn hsh hord hbl' (ord b2.handle) r1 (by rw [r2]; exact htw) (by rw [r2]; exact h.flow)
    (by rw [r2, r3]; exact h.reads) (hord _).1 (fun v hv => hnodes v ((r7 v).mp (((hord _).2 v).mp hv))) ⟨by simp, by simp⟩ e2
  have hH : ∀ v, v ∈ ord b2.handle ↔ Handled n W b v := fun v => by rw [(hord _).2, r7]
  -- what handling keeps
  have hkeep : ∀ (vs : List Nat) {b b' : Builder P} {d d' : List (Nat × Rates)}, newInflow ord preds vs b d = .ok (d', b') → b'.nextReroute = b.nextReroute ∧ b'.changes = b.changes := by
    intro vs
    induction vs with
    | nil => intro b b' d d' h; injection h with h; injection h with _ h2; subst h2; exact ⟨rfl, rfl⟩
    | cons v vs ih =>
      intro b b' d d' h
      unfold newInflow at h
      simp only at h
      obtain ⟨⟨outs, s1⟩, _, h⟩ := bind_eq_ok.mp h
      obtain ⟨⟨net, c1⟩, _, h⟩ := bind_eq_ok.mp h
      simp only at h
      obtain ⟨⟨d1, b2⟩, e2, h⟩ := bind_eq_ok.mp h
      obtain ⟨y1, y2⟩ := ih h
      have hdist : ∀ (is : List Nat) {b b' : Builder P} {d d' : List (Nat × Rates)}, distribute ord preds v outs net is b d = .ok (d', b') → b'.nextReroute = b.nextReroute ∧ b'.changes = b.changes := by
        intro is
        induction is with
        | nil => intro b b' d d' h; injection h with h; injection h with _ h2; subst h2; exact ⟨rfl, rfl⟩
        | cons i is ih =>
          intro b b' d d' h
          unfold distribute at h
          simp only at h
          split at h
          · exact ih h
          · obtain ⟨⟨a, b1⟩, e1, h⟩ := bind_eq_ok.mp h
            obtain ⟨x, _, h⟩ := bind_eq_ok.mp h
            obtain ⟨d1, _, h⟩ := bind_eq_ok.mp h
            obtain ⟨z1, z2⟩ := ih h
            have hga : b1.nextReroute = b.nextReroute ∧ b1.changes = b.changes := by
              have hgc : ∀ {p : P} {b b' : Builder P} {c : List PL}, getCosts preds b p = .ok (c, b') → b'.nextReroute = b.nextReroute ∧ b'.changes = b.changes := by
                intro p b b' c h
                unfold getCosts at h
                split at h
                · injection h with h; injection h with _ h2; subst h2; exact ⟨rfl, rfl⟩
                · obtain ⟨_, _, h⟩ := bind_eq_ok.mp h
                  obtain ⟨_, _, h⟩ := bind_eq_ok.mp h
                  injection h with h; injection h with _ h2; subst h2; exact ⟨rfl, rfl⟩
              unfold getActive at e1
              split at e1
              · injection e1 with e1; injection e1 with _ h2; subst h2; exact ⟨rfl, rfl⟩
              · obtain ⟨_, _, e1⟩ := bind_eq_ok.mp e1
                obtain ⟨_, _, e1⟩ := bind_eq_ok.mp e1
                split at e1
                · obtain ⟨⟨_, b4⟩, k1, e1⟩ := bind_eq_ok.mp e1
                  simp only at e1
                  obtain ⟨_, _, e1⟩ := bind_eq_ok.mp e1
                  obtain ⟨_, _, e1⟩ := bind_eq_ok.mp e1
                  obtain ⟨_, _, e1⟩ := bind_eq_ok.mp e1
                  split at e1
                  · injection e1 with e1; injection e1 with _ h2; subst h2; have hgk := hgc k1; exact ⟨hgk.1, hgk.2⟩
                  · cases e1
                · obtain ⟨⟨_, b4⟩, k1, e1⟩ := bind_eq_ok.mp e1
                  simp only at e1
                  obtain ⟨_, _, e1⟩ := bind_eq_ok.mp e1
                  obtain ⟨_, _, e1⟩ := bind_eq_ok.mp e1
                  injection e1 with e1; injection e1 with _ h2; subst h2; have hgk := hgc k1; exact ⟨hgk.1, hgk.2⟩
            exact ⟨z1.trans hga.1, z2.trans hga.2⟩
      obtain ⟨z1, z2⟩ := hdist _ e2
      exact ⟨y1.trans z1, y2.trans z2⟩
  obtain ⟨k1, k2⟩ := hkeep _ e2
  refine ⟨g1, g2, g3, ?_, ?_, ?_, k1.trans r5, ⟨W1, by rw [k2, r4]; exact p2, p3⟩, k, e3, e4⟩
  · intro q
    rw [g4 q, r6, r2]
    simp only [hH]
  · intro j
    rw [g5 j]
    simp only [hH, List.map_nil, List.not_mem_nil, false_or]
  · intro v hv e heo i
    have := g7 v ((hH v).mpr hv) e heo i
    rw [r2] at this; exact this

omit [DecidableEq P] in
theorem arriving_twin {D : EdgeData} {f g : DFlow} (h : DFlow.Twin D f g) (v i : Nat) : arriving n f v i f.phi = arriving n g v i g.phi := by
  obtain ⟨P', C, Q, E, r1, r2, tw, twc⟩ := h.loc
  unfold arriving
  rw [h.phi]
  congr 2
  apply List.map_congr_left
  intro e _
  have hf : (f.outflow (n.graph.edge e).id).funs = (g.outflow (n.graph.edge e).id).funs := (tw _).outflow.funs
  unfold outRate FRC.rateAt
  rw [hf]

/-- Builders that cannot be told apart between rounds. -/
structure BTwin (n : Network P) (imp : List (List Nat)) (preds : P → Predictor) (b c : Builder P) : Prop where
  imp1 : b.important = imp
  imp2 : c.important = imp
  next : b.nextReroute = c.nextReroute
  route : b.route = c.route
  cache : b.cache = c.cache
  act1 : ActDet n imp preds b
  act2 : ActDet n imp preds c
  flow : DFlow.Twin n.data b.flow c.flow
  handle : ∀ v, v ∈ b.handle ↔ v ∈ c.handle
  heap : ∃ W, b.changes.Rep (wmap W) ∧ c.changes.Rep (wmap W) ∧ ∀ x, W x = true → Break n.commodities x

/-- One round of twins: if one of them goes on, so does the other, and they stay twins. -/
theorem step_twin (hn : InputOk n) {imp : List (List Nat)} (hsh : Share n imp preds) {ord ord' : List Nat → List Nat} (hord : OrderOk ord) (hord' : OrderOk ord') (hp : PredictorsOk n preds)
    (hbl : ∀ s s', DFlow.Twin n.data s s' → ∀ p t, (preds p).predict t s = (preds p).predict t s')
    {d : ℚ} (hd : 0 < d) {f0 : DFlow} (hf0 : DFlow.init = .ok f0) {cs cs' : List FlowCall} {hist hist' : Nat → P → Option (List PL)} {K K' : Nat} {W W' : Nat × Nat × ℚ → Bool}
    {b c : Builder P} (hb : Inv n preds d f0 cs hist K W b) (hc : Inv n preds d f0 cs' hist' K' W' c) (tw : BTwin n imp preds b c)
    (hclear : ∀ l T b', b.prepare ord preds = .ok (l, T, b') → ∀ p ∈ l, ∀ cur x, (b'.flow.inflow p.1).getValuesAtTime b'.flow.phi = .ok (cur, x) → cur.dictEq p.2 = false →
      Clear b'.net.data b'.flow p.1 p.2) :
    ∃ b1 c1 cs1 cs2 h1 h2 K1 K2 W1 W2, b.step ord preds = .ok b1 ∧ c.step ord' preds = .ok c1 ∧ Inv n preds d f0 cs1 h1 K1 W1 b1 ∧ Inv n preds d f0 cs2 h2 K2 W2 c1 ∧
      BTwin n imp preds b1 c1 ∧
      ∀ l T c', c.prepare ord' preds = .ok (l, T, c') → ∀ p ∈ l, ∀ cur x, (c'.flow.inflow p.1).getValuesAtTime c'.flow.phi = .ok (cur, x) → cur.dictEq p.2 = false →
        Clear c'.net.data c'.flow p.1 p.2 := by
  classical
  obtain ⟨l, T, b', cs1, hist1, k1, W1, H1, p1, p2, p3, p4⟩ := prepare_spec hn hord hp hd hf0 hb
  obtain ⟨m, U, c', cs2, hist2, k2, W2, H2, q1, q2, q3, q4⟩ := prepare_spec hn hord' hp hd hf0 hc
  obtain ⟨V, hV1, hV2, hVb⟩ := tw.heap
  obtain ⟨a1, a2, a3, a4, a5, a6, a7, ⟨X1, a8, a9⟩, kb, a10, a11⟩ := prepare_det hn hsh hord hb hV1 hVb tw.imp1 tw.act1 tw.flow (fun s hs p t => hbl s _ hs p t) p1
  obtain ⟨e1, e2, e3, e4, e5, e6, e7, ⟨X2, e8, e9⟩, kc, e10, e11⟩ := prepare_det hn hsh hord' hc hV2 hVb tw.imp2 tw.act2 a2.symm (fun s hs p t => hbl s _ hs p t) q1
  -- the same data
  have hdue : Due b ↔ Due c := by unfold Due; rw [tw.flow.phi, tw.next]
  have hkept : kept b = kept c := by unfold kept; simp only [hdue, tw.cache]
  have hsince : since b = since c := by unfold since; simp only [hdue, tw.next, tw.route]
  have hcosts : costsOf n preds (since b) c.flow (kept b) = costsOf n preds (since c) b'.flow (kept c) := by
    funext q
    rw [hkept, hsince]
    unfold costsOf
    split
    · rfl
    · unfold costsNow; rw [hbl _ _ a2]
  have hhand : ∀ v, Handled n V b v ↔ Handled n V c v := by
    intro v; unfold Handled; rw [hdue, tw.handle v, tw.flow.phi]
  have harr : ∀ v i, arriving n b.flow v i b.flow.phi = arriving n c.flow v i c.flow.phi := arriving_twin tw.flow
  have hX : ∀ x, X1 x = X2 x := by
    intro x
    have : X1 x = true ↔ X2 x = true := by rw [a9, e9, tw.flow.phi]
    exact Bool.eq_iff_iff.mpr this
  have hX' : X1 = X2 := funext hX
  subst hX'
  have hnext : b'.nextReroute = c'.nextReroute := by rw [a7, e7, tw.next]; simp only [hdue]
  have hT : T = U := by
    rw [minKey_same a8 e8, e10] at a10
    injection a10 with a10; subst a10
    rw [hnext, e11] at a11
    injection a11 with a11; exact a11.symm
  subst hT
  have hkeys : ∀ j, j ∈ l.map Prod.fst ↔ j ∈ m.map Prod.fst := by
    intro j; rw [a5, e5]; simp only [hhand]
  have hnone : ∀ (t : List (Nat × Rates)) (j : Nat), t.lookup j = none ↔ j ∉ t.map Prod.fst := by
    intro t j
    rw [← lookup_isSome]
    cases t.lookup j <;> simp
  have htab : DFlow.SameTable l m := by
    refine ⟨a3.keys, e3.keys, ?_, ?_⟩
    · intro j; rw [hnone, hnone, hkeys]
    · intro j v w hv hw
      refine sameDict_of_get (a3.rates _ (FRC.mem_of_lookup hv)) (e3.rates _ (FRC.mem_of_lookup hw)) (fun i => ?_)
      have hj : j ∈ l.map Prod.fst := List.mem_map.mpr ⟨_, FRC.mem_of_lookup hv, rfl⟩
      obtain ⟨u, hu, e, heo, hid⟩ := (a5 j).mp hj
      have y1 := a6 u hu e heo i
      have y2 := e6 u ((hhand u).mp hu) e heo i
      rw [← hcosts, ← hsince] at y2
      have := Entry.unique tw.flow.phi harr y1 y2
      unfold val at this
      rw [hid, hv, hw] at this
      exact this
  -- twins after reading
  have htw' : DFlow.Twin n.data b'.flow c'.flow := e2.symm
  have hlook : ∀ p ∈ m, ∃ p' ∈ l, p'.1 = p.1 ∧ SameDict p'.2 p.2 := by
    intro p hpm
    have hw := DFlow.lookup_of_mem e3.keys hpm
    obtain ⟨p', hp', hpe⟩ := List.mem_map.mp ((hkeys p.1).mpr (List.mem_map.mpr ⟨p, hpm, rfl⟩))
    have hv := DFlow.lookup_of_mem a3.keys hp'
    rw [hpe] at hv
    exact ⟨p', hp', hpe, htab.vals _ _ _ hv hw⟩
  have hclearb : ∀ p ∈ l, ∀ cur x, (b'.flow.inflow p.1).getValuesAtTime b'.flow.phi = .ok (cur, x) → cur.dictEq p.2 = false → Clear n.data b'.flow p.1 p.2 := by
    have := hclear l T b' p1
    rw [p3.static.net] at this; exact this
  have hclear' : ∀ p ∈ m, ∀ cur x, (c'.flow.inflow p.1).getValuesAtTime c'.flow.phi = .ok (cur, x) → cur.dictEq p.2 = false → Clear n.data c'.flow p.1 p.2 := by
    intro p hpm cur x hcur hne
    obtain ⟨p', y1, y2, y3⟩ := hlook p hpm
    obtain ⟨A, C, B, D, _, _, tl, _⟩ := htw'.loc
    obtain ⟨v, w, x1, x2, z1, z2, z3, _⟩ := (tl p.1).inflow.read
    simp only [DFlow.loc] at z1 z2
    rw [htw'.phi, hcur] at z2
    injection z2 with z2; injection z2 with z2 _; subst z2
    have := hclearb p' y1 v x1 (by rw [y2]; exact z1) (by rw [z3.dictEq y3]; exact hne)
    rw [y2] at this
    exact DFlow.clear_twin htw' y3 this
  obtain ⟨b1, s1, s2, s3, s4, s5, _⟩ := step_spec hn p3 p1 hclearb
  obtain ⟨c1, u1, u2, u3, u4, u5, _⟩ := step_spec hn q3 q1 hclear'
  refine ⟨b1, c1, _, _, _, _, _, _, _, _, s1, u1, s2, u2, ?_, ?_⟩
  · -- twins again
    unfold step at s1 u1
    rw [p1, ok_bind] at s1
    rw [q1, ok_bind] at u1
    simp only [p3.static.net] at s1
    simp only [q3.static.net] at u1
    obtain ⟨⟨g, ch⟩, x1, s1⟩ := bind_eq_ok.mp s1
    obtain ⟨⟨g', ch'⟩, y1, u1⟩ := bind_eq_ok.mp u1
    simp only at s1 u1
    obtain ⟨hs, x2, s1⟩ := bind_eq_ok.mp s1
    obtain ⟨hs', y2, u1⟩ := bind_eq_ok.mp u1
    injection s1 with s1; subst s1
    injection u1 with u1; subst u1
    obtain ⟨t', dh, z1, z2, z3⟩ := DFlow.extend_twin (netOk hn) htw' p3.flow.safe htab p3.time x1
    rw [y1] at z1; injection z1 with z1; injection z1 with z1 z1'; subst z1; subst z1'
    have hmem : ∀ {es hs : List Nat}, mapPy (fun e => do
        let r ← rd n.graph.edges e
        pure (n.graph.nodeTo r)) es = .ok hs → ∀ v, v ∈ hs ↔ ∃ e ∈ es, ∃ r, n.graph.edges[e]? = some r ∧ n.graph.nodeTo r = v := by
      intro es
      induction es with
      | nil => intro hs h v; injection h with h; subst h; simp
      | cons e es ih =>
        intro hs h v
        unfold mapPy at h
        obtain ⟨w, k1, h⟩ := bind_eq_ok.mp h
        obtain ⟨rest, k2, h⟩ := bind_eq_ok.mp h
        injection h with h; subst h
        obtain ⟨r, k3, k4⟩ := bind_eq_ok.mp k1
        injection k4 with k4; subst k4
        rw [List.mem_cons, ih k2 v]
        simp only [List.mem_cons, exists_eq_or_imp]
        have : v = n.graph.nodeTo r ↔ ∃ r, n.graph.edges[e]? = some r ∧ n.graph.nodeTo r = v := by
          constructor
          · intro h; exact ⟨r, rd_eq_ok.mp k3, h.symm⟩
          · rintro ⟨r', h1, h2⟩
            rw [rd_eq_ok.mp k3] at h1; injection h1 with h1; subst h1; exact h2.symm
        rw [this]
    have hcache : b'.cache = c'.cache := by
      funext q
      have h1 := a4 q
      have h2 := e4 q
      rw [← hkept] at h2
      have h12 : b'.cache q ≠ none ↔ c'.cache q ≠ none := by
        rw [h1, h2]; simp only [hhand, harr]
      cases hbq : b'.cache q with
      | none =>
        cases hcq : c'.cache q with
        | none => rfl
        | some y => exact absurd hbq (h12.mpr (by rw [hcq]; simp))
      | some x =>
        cases hcq : c'.cache q with
        | none => exact absurd hcq (h12.mp (by rw [hbq]; simp))
        | some y =>
          have z1 := a1.cache q x hbq
          have z2 := e1.cache q y hcq
          rw [hcosts, z2] at z1
          injection z1 with z1; rw [z1]
    refine ⟨a1.important, e1.important, hnext, ?_, hcache, ?_, ?_, z2, ?_, X1, a8, e8, ?_⟩
    · simp only; rw [a1.route, e1.route, hsince]
    · intro i v a ha
      simp only
      rw [a1.route]
      exact a1.active i v a ha
    · intro i v a ha
      simp only
      rw [e1.route]
      exact e1.active i v a ha
    · intro v
      simp only
      rw [hmem x2, hmem y2]
      simp only [z3]
    · intro x hx; exact hVb x ((a9 x).mp hx).1
  · intro m' U' c2 hprep
    rw [q1] at hprep; injection hprep with hprep; injection hprep with y1 y2; injection y2 with y2 y3
    subst y1; subst y2; subst y3
    rw [q3.static.net]; exact hclear'

/-- Any number of rounds of twins. -/
theorem rounds_twin (hn : InputOk n) {imp : List (List Nat)} (hsh : Share n imp preds) {ord ord' : List Nat → List Nat} (hord : OrderOk ord) (hord' : OrderOk ord') (hp : PredictorsOk n preds)
    (hbl : ∀ s s', DFlow.Twin n.data s s' → ∀ p t, (preds p).predict t s = (preds p).predict t s')
    {d : ℚ} (hd : 0 < d) {f0 : DFlow} (hf0 : DFlow.init = .ok f0) {W0 : Nat × Nat × ℚ → Bool} {b0 : Builder P} (h0 : Inv n preds d f0 [] (fun _ _ => none) 0 W0 b0)
    (tw : BTwin n imp preds b0 b0) : ∀ k, ClearRounds ord preds b0 k → ClearRounds ord' preds b0 k ∧
      ∃ b c cs cs' h h' K K' W W', rounds ord preds k b0 = .ok b ∧ rounds ord' preds k b0 = .ok c ∧ Inv n preds d f0 cs h K W b ∧ Inv n preds d f0 cs' h' K' W' c ∧ BTwin n imp preds b c := by
  intro k
  induction k with
  | zero => intro _; exact ⟨fun m hm => by omega, b0, b0, _, _, _, _, _, _, _, _, rfl, rfl, h0, h0, tw⟩
  | succ k ih =>
    intro hcl
    obtain ⟨hcl', b, c, cs, cs', h, h', K, K', W, W', r1, r2, r3, r4, r5⟩ := ih (fun m hm => hcl m (by omega))
    obtain ⟨b1, c1, _, _, _, _, _, _, _, _, x1, x2, x3, x4, x5, x6⟩ := step_twin hn hsh hord hord' hp hbl hd hf0 r3 r4 r5 (fun l T b' hb' => hcl k (by omega) b l T b' r1 hb')
    refine ⟨?_, b1, c1, _, _, _, _, _, _, _, _, by unfold rounds; rw [r1, ok_bind]; exact x1, by unfold rounds; rw [r2, ok_bind]; exact x2, x3, x4, x5⟩
    intro m hm bm l T b' hbm hprep
    rcases Nat.lt_or_ge m k with hmk | hmk
    · exact hcl' m hmk bm l T b' hbm hprep
    · have : m = k := by omega
      subst this
      rw [r2] at hbm; injection hbm with hbm; subst hbm
      exact x6 l T b' hprep

end Builder
end Verif
