import Verif.Proofs.BuilderTime

/-! The invariant of the loop of the flow builder. -/

namespace Verif
open Spec

namespace Builder
variable {P : Type} [DecidableEq P] {n : Network P} {preds : P → Predictor}

omit [DecidableEq P] in
theorem Routed.mono {s : DFlow} {v i : Nat} {t : ℚ} {A A' : List Nat → Prop} (h : ∀ a, A a → A' a) (hr : Routed n s v i t A) : Routed n s v i t A' := by
  refine ⟨hr.stop, fun h1 h2 => ?_⟩
  obtain ⟨a, b1, b2, b3, b4, b5⟩ := hr.split h1 h2
  exact ⟨a, b1, b2, b3, h a b4, b5⟩

/-- Commodity `i` leaves node `v` at time `t` on active edges of the routing period of `t`. -/
def RoutedAt (n : Network P) (preds : P → Predictor) (d : ℚ) (hist : Nat → P → Option (List PL)) (s : DFlow) (v i : Nat) (t : ℚ) (k : Nat) : Prop :=
  Routed n s v i t (ActiveFor n preds (k * d) (hist k) i v)

/-- What holds between the rounds of the loop, with `K` the number of reroutings so far. -/
structure Inv (n : Network P) (preds : P → Predictor) (d : ℚ) (f0 : DFlow) (cs : List FlowCall) (hist : Nat → P → Option (List PL)) (K : Nat)
    (W : Nat × Nat × ℚ → Bool) (b : Builder P) : Prop where
  static : Static n d b
  flow : FlowOk n b.flow
  supp : Supp n b.flow
  reads : ∀ v ∈ n.graph.nodes, (b.netInflow v).Reads b.flow.phi (networkRate n v)
  run : runFlow n.data f0 cs = .ok b.flow
  calls : CallsOk n.data f0 cs
  next : b.nextReroute = K * d
  le : b.flow.phi ≤ K * d
  route : ∀ k, K = k + 1 → b.route = k * d ∧ k * d ≤ b.flow.phi ∧ Caches n preds b (hist k)
  pred : ∀ k p ps, hist k p = some ps → Predicted n preds d f0 cs k p ps
  heap : b.changes.Rep (wmap W)
  wbreak : ∀ x, W x = true → Break n.commodities x
  breaks : ∀ x, Break n.commodities x → W x = true ∨ x.2.2 ≤ b.flow.phi
  handle : ∀ v ∈ b.handle, v ∈ n.graph.nodes
  past : ∀ v ∈ n.graph.nodes, ∀ i t, 0 ≤ t → t < b.flow.phi → ∃ k : Nat, k * d ≤ t ∧ t < (k + 1) * d ∧ RoutedAt n preds d hist b.flow v i t k
  now : ∀ v ∈ n.graph.nodes, v ∉ b.handle → (∀ x, W x = true → x.2.1 = v → b.flow.phi < x.2.2) → b.flow.phi < K * d →
    ∀ k, K = k + 1 → ∀ i, RoutedAt n preds d hist b.flow v i b.flow.phi k

omit [DecidableEq P] in
theorem Predicted.mono {d : ℚ} {f0 : DFlow} {cs cs' : List FlowCall} (h : cs <+: cs') {k : Nat} {p : P} {ps : List PL}
    (hp : Predicted n preds d f0 cs k p ps) : Predicted n preds d f0 cs' k p ps := by
  obtain ⟨pre, f, h1, h2⟩ := hp
  exact ⟨pre, f, h1.trans h, h2⟩

omit [DecidableEq P] in
theorem break_node (hn : InputOk n) {x : Nat × Nat × ℚ} (h : Break n.commodities x) : x.2.1 ∈ n.graph.nodes := by
  obtain ⟨c, f, h1, h2, _⟩ := h
  exact (hn.source c (List.mem_of_getElem? h1) _ h2).1

/-- The state after the new inflows have been determined. -/
structure Ready (n : Network P) (preds : P → Predictor) (d : ℚ) (f0 : DFlow) (cs : List FlowCall) (hist : Nat → P → Option (List PL)) (k : Nat)
    (W : Nat × Nat × ℚ → Bool) (H : List Nat) (s : DFlow) (l : List (Nat × Rates)) (T : ℚ) (b : Builder P) : Prop where
  static : Static n d b
  flow : FlowOk n b.flow
  supp : Supp n b.flow
  same : SameRates s b.flow
  reads : ∀ v ∈ n.graph.nodes, (b.netInflow v).Reads b.flow.phi (networkRate n v)
  run : runFlow n.data f0 cs = .ok b.flow
  calls : CallsOk n.data f0 cs
  next : b.nextReroute = (k + 1) * d
  route : b.route = k * d
  low : k * d ≤ b.flow.phi
  high : b.flow.phi < (k + 1) * d
  caches : Caches n preds b (hist k)
  pred : ∀ k p ps, hist k p = some ps → Predicted n preds d f0 cs k p ps
  heap : b.changes.Rep (wmap W)
  wbreak : ∀ x, W x = true → Break n.commodities x
  breaks : ∀ x, Break n.commodities x → W x = true ∨ x.2.2 ≤ b.flow.phi
  time : b.flow.phi ≤ T
  top : T ≤ (k + 1) * d
  first : ∀ x, W x = true → T ≤ x.2.2
  nodes : ∀ v ∈ H, v ∈ n.graph.nodes
  table : TableOk l
  keys : ∀ j, j ∈ l.map Prod.fst ↔ ∃ v ∈ H, ∃ e ∈ n.graph.outgoing v, (n.graph.edge e).id = j
  out : ∀ v ∈ H, NodeOut n preds s (k * d) (hist k) l v
  rest : ∀ v ∈ n.graph.nodes, v ∉ H → ∀ i, RoutedAt n preds d hist s v i s.phi k
  past : ∀ v ∈ n.graph.nodes, ∀ i t, 0 ≤ t → t < s.phi → ∃ k : Nat, k * d ≤ t ∧ t < (k + 1) * d ∧ RoutedAt n preds d hist s v i t k

theorem prepare_spec (hn : InputOk n) {ord : List Nat → List Nat} (hord : OrderOk ord) (hp : PredictorsOk n preds) {d : ℚ} (hd : 0 < d) {f0 : DFlow}
    (hf0 : DFlow.init = .ok f0) {cs : List FlowCall} {hist : Nat → P → Option (List PL)} {K : Nat} {W : Nat × Nat × ℚ → Bool} {b : Builder P}
    (h : Inv n preds d f0 cs hist K W b) :
    ∃ l T b' cs' hist' k W' H, prepare ord preds b = .ok (l, T, b') ∧ cs <+: cs' ∧ Ready n preds d f0 cs' hist' k W' H b.flow l T b' ∧ b'.built = b.built := by
  have h0 := h.flow.phi_nonneg
  obtain ⟨h1, W1, H1, p1, p2, p3, p4⟩ := popChanges_spec (b.changes.len + 1) b W h.heap (by omega)
  obtain ⟨b1, hb1⟩ : ∃ b1 : Builder P, b1 = { b with changes := h1, handle := b.handle ++ H1 } := ⟨_, rfl⟩
  rw [← hb1] at p1
  -- the routing part
  have hre : ∃ b2 k pr, reroute b1 = .ok b2 ∧ b2.net = b.net ∧ b2.interval = b.interval ∧ b2.important = b.important ∧ b2.sinkIds = b.sinkIds ∧
      b2.built = b.built ∧ b2.flow = b.flow ∧ b2.netInflow = b.netInflow ∧ b2.changes = h1 ∧ b2.nextReroute = ((k : Nat) + 1) * d ∧ b2.route = k * d ∧
      k * d ≤ b.flow.phi ∧ b.flow.phi < (k + 1) * d ∧ Caches n preds b2 pr ∧ (∀ v ∈ b2.handle, v ∈ n.graph.nodes) ∧
      (∀ p ps, pr p = some ps → Predicted n preds d f0 cs k p ps) ∧ (∀ j < K, ∀ p ps, hist j p = some ps → (if j = k then pr else hist j) p = some ps) ∧
      (∀ v ∈ n.graph.nodes, v ∉ b2.handle → ∀ i, Routed n b.flow v i b.flow.phi (ActiveFor n preds (k * d) pr i v)) := by
    have hint : b1.interval = some d := by rw [hb1]; exact h.static.interval
    have hhandle : ∀ v ∈ b.handle ++ H1, v ∈ n.graph.nodes := by
      intro v hv
      rcases List.mem_append.mp hv with hv | hv
      · exact h.handle v hv
      · obtain ⟨x, hx, hxv, _⟩ := (p4 v).mp hv
        exact hxv ▸ break_node hn (h.wbreak x hx)
    unfold reroute
    rw [hint]
    simp only
    by_cases hge : b1.flow.phi ≥ b1.nextReroute
    · rw [if_pos hge]
      have hphi : b.flow.phi = K * d := by
        rw [hb1] at hge
        have := h.next
        simp only at hge
        rw [this] at hge
        exact le_antisymm h.le hge
      subst hb1
      refine ⟨_, K, fun _ => none, rfl, rfl, h.static.interval.symm, rfl, rfl, rfl, rfl, rfl, rfl, ?_, h.next, le_of_eq hphi.symm, ?_, ⟨fun p => Or.inl ⟨rfl, rfl⟩, fun _ _ _ hc => by cases hc⟩, ?_, ?_, ?_, ?_⟩
      · simp only; rw [h.next]; ring
      · rw [hphi]; nlinarith
      · intro v hv; rw [← h.static.net]; exact hv
      · intro _ _ hc; cases hc
      · intro j hj p ps hh; rw [if_neg (by omega)]; exact hh
      · intro v hv hno; exact absurd (by simp only; rw [h.static.net]; exact hv) hno
    · rw [if_neg hge]
      have hlt : b.flow.phi < K * d := by
        rw [hb1] at hge
        simp only [h.next] at hge
        exact not_le.mp hge
      cases K with
      | zero => exfalso; simp at hlt; linarith
      | succ k =>
        obtain ⟨r1, r2, r3⟩ := h.route k rfl
        have hcast : ((k + 1 : Nat) : ℚ) * d = (k + 1) * d := by push_cast; ring
        refine ⟨b1, k, hist k, rfl, by rw [hb1], by rw [hb1], by rw [hb1], by rw [hb1], by rw [hb1], by rw [hb1], by rw [hb1], by rw [hb1], ?_, ?_, r2, by rw [← hcast]; exact hlt, ?_, ?_, ?_, ?_, ?_⟩
        · rw [hb1]; simp only; rw [h.next, hcast]
        · rw [hb1]; exact r1
        · rw [hb1]; exact ⟨r3.cache, r3.active⟩
        · rw [hb1]; exact hhandle
        · intro p ps hh; exact h.pred k p ps hh
        · intro j hj p ps hh
          split
          · rename_i hjk; rw [← hjk]; exact hh
          · exact hh
        · intro v hv hno i
          rw [hb1] at hno
          simp only [List.mem_append, not_or] at hno
          refine h.now v hv hno.1 ?_ hlt k rfl i
          intro x hx hxv
          by_contra hc
          exact hno.2 ((p4 v).mpr ⟨x, hx, hxv, not_lt.mp hc⟩)
  obtain ⟨b2, k, pr, r1, r2, r3, r4, r5, r6, r7, r8, r9, r10, r11, r12, r13, r14, r15, r16, r17, r18⟩ := hre
  have hs2 : Static n d b2 := by
    refine ⟨r2.trans h.static.net, r3.trans h.static.interval, ?_, ?_⟩
    · rw [r4]; exact h.static.imp
    · rw [r5]; exact h.static.sinks
  obtain ⟨l, b3, pr', looks, q1, q2, q3, q4, q5, q6, q7, q8, q9, q10, q11, q12, q13⟩ := newInflow_spec hn hord (ord b2.handle) (d := []) hs2 r14 (by rw [r7]; exact h.flow) (by rw [r7]; exact h.supp)
    (by rw [r7, r8]; exact h.reads) (by
      intro looks f hrun p
      rw [r7] at hrun
      have hf := (looks_flowOk looks h.flow hrun).2.phi
      rw [r11]
      refine hp p f0 f (cs ++ looks.map FlowCall.look) (k * d) hf0 (callsOk_append _ _ h.calls h.run (callsOk_looks _ _)) ?_ ?_ ?_
      · rw [runFlow_append _ _ h.run]; exact hrun
      · positivity
      · rw [hf]; exact r12) (hord _).1 (fun v hv => r15 v (((hord _).2 v).mp hv)) ⟨by simp, by simp⟩
  rw [r7] at q5 q6 q7
  have hphi3 : b3.flow.phi = b.flow.phi := q5.phi
  obtain ⟨kk, m1, m2, m3⟩ := p2.minKey
  have hch3 : b3.changes = h1 := q2.changes.trans r9
  -- the bound on the time
  have hT : ∃ T, (min (ev b3.nextReroute) kk).toRat = .ok T ∧ b.flow.phi ≤ T ∧ T ≤ (k + 1) * d ∧ ∀ x, W1 x = true → T ≤ x.2.2 := by
    have hnx : b3.nextReroute = (k + 1) * d := q2.next.trans r10
    rcases m3 with ⟨x, hx⟩ | ⟨rfl, _, hno⟩
    · have hWx : W1 x = true := by by_contra hc; simp [wmap, hc] at hx
      have hk : kk = ev x.2.2 := by simp only [wmap, hWx, if_true, Option.some.injEq] at hx; exact hx.symm
      have hmn : min (ev b3.nextReroute) kk = ev (min b3.nextReroute x.2.2) := by
        rw [hk]
        rcases le_total b3.nextReroute x.2.2 with hle | hle
        · rw [min_eq_left hle, min_eq_left (ev_le.mpr hle)]
        · rw [min_eq_right hle, min_eq_right (ev_le.mpr hle)]
      refine ⟨_, by rw [hmn]; rfl, le_min (by rw [hnx]; exact le_of_lt r13) (le_of_lt ((p3 x).mp hWx).2), by rw [← hnx]; exact min_le_left _ _, ?_⟩
      intro y hy
      refine le_trans (min_le_right _ _) (ev_le.mp ?_)
      rw [← hk]; exact m2 y _ (by simp [wmap, hy])
    · refine ⟨b3.nextReroute, by rw [min_eq_left le_top]; rfl, by rw [hnx]; exact le_of_lt r13, le_of_eq hnx, ?_⟩
      intro y hy
      have := hno y
      simp [wmap, hy] at this
  obtain ⟨T, t1, t2, t3, t4⟩ := hT
  have hrun' : runFlow n.data f0 (cs ++ looks.map FlowCall.look) = .ok b3.flow := by rw [runFlow_append _ _ h.run]; exact q6
  have hpre : cs <+: cs ++ looks.map FlowCall.look := List.prefix_append _ _
  have hold : ∀ j < K, ∀ p ps, hist j p = some ps → (if j = k then pr' else hist j) p = some ps := by
    intro j hj p ps hh
    have := r17 j hj p ps hh
    by_cases hjk : j = k
    · rw [if_pos hjk] at this ⊢; exact q8 p ps this
    · rw [if_neg hjk] at this ⊢; exact this
  refine ⟨l, T, b3, cs ++ looks.map FlowCall.look, fun j => if j = k then pr' else hist j, k, W1, ord b2.handle, ?_, hpre, ?_, q2.built.trans r6⟩
  · unfold prepare
    rw [p1, ok_bind, r1, ok_bind, q1, ok_bind]
    simp only
    rw [hch3, m1, ok_bind, t1, ok_bind]; rfl
  · refine ⟨⟨q2.net.trans hs2.net, q2.interval.trans hs2.interval, by rw [q2.important]; exact hs2.imp, by rw [q2.sinkIds]; exact hs2.sinks⟩, q4, ?_, q5,
      ?_, hrun', callsOk_append _ _ h.calls h.run (callsOk_looks _ _), q2.next.trans r10, q2.route.trans r11, by rw [hphi3]; exact r12, by rw [hphi3]; exact r13,
      by rw [if_pos rfl]; exact q3, ?_, by rw [hch3]; exact p2, fun x hx => h.wbreak x ((p3 x).mp hx).1, ?_, by rw [hphi3]; exact t2, t3, t4,
      fun v hv => r15 v (((hord _).2 v).mp hv), q10, ?_, ?_, ?_, ?_⟩
    · intro e he i hno
      obtain ⟨z1, z2⟩ := h.supp e he i hno
      refine ⟨by rw [q5.inflow]; exact z1, fun x hx => ?_⟩
      rw [q5.funs]; exact z2 x hx
    · intro v hv; rw [hphi3]; exact q7 v hv
    · intro j p ps hh
      by_cases hjk : j = k
      · rw [if_pos hjk] at hh
        rw [hjk]
        rcases q9 p ps hh with hh | ⟨pre, f, x1, x2, x3⟩
        · exact Predicted.mono hpre (r16 p ps hh)
        · rw [r7] at x2
          rw [r11] at x3
          have hf := (looks_flowOk pre h.flow x2).2.phi
          refine ⟨cs ++ pre.map FlowCall.look, f, ?_, by rw [runFlow_append _ _ h.run]; exact x2, by rw [hf]; exact r12, by rw [hf]; exact r13, x3⟩
          exact (List.prefix_append_right_inj _).mpr (x1.map _)
      · rw [if_neg hjk] at hh
        exact Predicted.mono hpre (h.pred j p ps hh)
    · intro x hx
      rw [hphi3]
      rcases h.breaks x hx with hw | hle
      · by_cases hlt : b.flow.phi < x.2.2
        · exact Or.inl ((p3 x).mpr ⟨hw, hlt⟩)
        · exact Or.inr (not_lt.mp hlt)
      · exact Or.inr hle
    · intro j; rw [q11]; simp
    · intro v hv
      rw [if_pos rfl]
      have := q13 v hv
      rw [r7, r11] at this; exact this
    · intro v hv hno i
      unfold RoutedAt
      simp only [if_true]
      exact Routed.mono (fun a ha => ActiveFor.mono q8 ha) (r18 v hv (fun hc => hno (((hord _).2 v).mpr hc)) i)
    · intro v hv i t ht0 ht
      obtain ⟨j, j1, j2, j3⟩ := h.past v hv i t ht0 ht
      refine ⟨j, j1, j2, ?_⟩
      have hjK : j < K := by
        have : (j : ℚ) * d < K * d := by linarith [h.le]
        exact_mod_cast lt_of_mul_lt_mul_right this (le_of_lt hd)
      exact Routed.mono (fun a ha => ActiveFor.mono (hold j hjK) ha) j3

end Builder
end Verif
