import Verif.Proofs.BuilderRun

/-! One round of the loop of the flow builder keeps the invariant. -/

namespace Verif
open Spec

namespace Builder
variable {P : Type} [DecidableEq P] {n : Network P} {preds : P → Predictor}

omit [DecidableEq P] in
theorem Routed.congr {s s' : DFlow} {v i : Nat} {t t' : ℚ} {A : List Nat → Prop} (h1 : arriving n s' v i t' = arriving n s v i t)
    (h2 : ∀ e ∈ n.graph.outgoing v, inRate s' (n.graph.edge e).id i t' = inRate s (n.graph.edge e).id i t) (h : Routed n s v i t A) : Routed n s' v i t' A := by
  constructor
  · intro hc e he
    rw [h2 e he]
    exact h.stop (by rw [← h1]; exact hc) e he
  · intro hns hle
    rw [h1] at hle ⊢
    obtain ⟨a, a1, a2, a3, a4, a5⟩ := h.split hns hle
    exact ⟨a, a1, a2, a3, a4, fun e he => by rw [h2 e he]; exact a5 e he⟩

omit [DecidableEq P] in
theorem NodeOut.routed {s s' : DFlow} {v : Nat} {t T : ℚ} {pr : P → Option (List PL)} {l : List (Nat × Rates)} (i : Nat) (h1 : arriving n s' v i t = arriving n s v i s.phi)
    (h2 : ∀ e ∈ n.graph.outgoing v, inRate s' (n.graph.edge e).id i t = val l (n.graph.edge e).id i) (h : NodeOut n preds s T pr l v) :
    Routed n s' v i t (ActiveFor n preds T pr i v) := by
  obtain ⟨a, b⟩ := h i
  constructor
  · intro hc e he
    rw [h2 e he]
    exact a (by rw [← h1]; exact hc) e he
  · intro hns hle
    rw [h1] at hle ⊢
    obtain ⟨c, A, _, _, e1, e2, e3⟩ := b hns hle
    exact ⟨A, e1.ne, e1.nodup, e1.out, e2, fun e he => by rw [h2 e he]; exact e3 e he⟩

theorem val_of_mem {l : List (Nat × Rates)} (h : TableOk l) {p : Nat × Rates} (hp : p ∈ l) (i : Nat) : val l p.1 i = p.2.get i := by
  unfold val
  rw [FRC.lookup_of_mem h.keys hp]; rfl

omit [DecidableEq P] in
/-- The table gives commodities only to edges of use to them. -/
theorem table_zero (hn : InputOk n) {s : DFlow} {T : ℚ} {pr : P → Option (List PL)} {l : List (Nat × Rates)} {H : List Nat} (hH : ∀ v ∈ H, v ∈ n.graph.nodes)
    (ht : TableOk l) (hk : ∀ j, j ∈ l.map Prod.fst ↔ ∃ v ∈ H, ∃ e ∈ n.graph.outgoing v, (n.graph.edge e).id = j) (ho : ∀ v ∈ H, NodeOut n preds s T pr l v)
    {e i : Nat} (he : e ∈ n.graph.edges) (hno : ¬ ∃ c, n.commodities[i]? = some c ∧ Between n.graph c (n.graph.nodeTo e)) :
    ∀ p ∈ l, p.1 = (n.graph.edge e).id → p.2.get i = 0 := by
  intro p hp hpe
  obtain ⟨v, hv, e', he', hid⟩ := (hk p.1).mp (List.mem_map.mpr ⟨p, hp, rfl⟩)
  have hvn := hH v hv
  obtain ⟨x1, x2⟩ := (out_mem hn.graph hvn).mp he'
  have hee : e' = e := id_inj hn.graph x1 he (by rw [hid, hpe])
  subst hee
  rw [← val_of_mem ht hp, ← hid]
  obtain ⟨a, b⟩ := ho v hv i
  by_cases hstop : IsSink n i v ∨ arriving n s v i s.phi < eps
  · exact a hstop e' he'
  · rw [not_or] at hstop
    obtain ⟨c, A, c1, c2, c3, _, c5⟩ := b hstop.1 (not_lt.mp hstop.2)
    rw [c5 e' he']
    by_cases heA : e' ∈ A
    · exfalso
      obtain ⟨s0, hs0, hpth⟩ := c2.2
      exact hno ⟨c, c1, c3.reach e' heA, s0, hs0, hpth.tail ⟨e', x1, x2, rfl⟩⟩
    · rw [if_neg heA]

theorem step_spec (hn : InputOk n) {ord : List Nat → List Nat} {d : ℚ} {f0 : DFlow}
    {cs : List FlowCall} {hist : Nat → P → Option (List PL)} {k : Nat} {W : Nat × Nat × ℚ → Bool} {H : List Nat} {s : DFlow} {l : List (Nat × Rates)} {T : ℚ} {b0 b : Builder P}
    (h : Ready n preds d f0 cs hist k W H s l T b) (hprep : prepare ord preds b0 = .ok (l, T, b))
    (hclear : ∀ p ∈ l, ∀ cur c, (b.flow.inflow p.1).getValuesAtTime b.flow.phi = .ok (cur, c) → cur.dictEq p.2 = false → Clear n.data b.flow p.1 p.2) :
    ∃ b', step ord preds b0 = .ok b' ∧ Inv n preds d f0 (cs ++ [.extend l T]) hist (k + 1) W b' ∧ s.phi ≤ b'.flow.phi ∧ b'.flow.phi ≤ (k + 1) * d ∧ b'.built = b.built ∧
      (b'.flow.phi = T ∨ b'.handle ≠ []) ∧ T ≤ (k + 1) * d := by
  have hnet := netOk hn
  have hphi : b.flow.phi = s.phi := h.same.phi
  have h0 := h.flow.phi_nonneg
  have hcall : CallOk n.data b.flow l T := ⟨h.time, h.table.keys, h.table.rates, hclear⟩
  obtain ⟨Q, C, hx, hC, hQ⟩ := h.flow.exact
  obtain ⟨Q0, C0, hsafe⟩ := h.flow.safe
  obtain ⟨s', ch, Q', C', e1, e2, e3, e4, e5, e6, e7⟩ := DFlow.extend_exact hnet hx hcall
  obtain ⟨u1, u2, u3, u4, u5, u6⟩ := DFlow.extend_safe hnet hsafe h.time e1
  have hkey : ∀ p ∈ l, p.1 < n.graph.edges.length := by
    intro p hp
    obtain ⟨v, hv, e, he, hid⟩ := (h.keys p.1).mp (List.mem_map.mpr ⟨p, hp, rfl⟩)
    rw [← hid]
    exact (edge_id hn.graph ((out_mem hn.graph (h.nodes v hv)).mp he).1).1
  obtain ⟨w1, w2, w3⟩ := e7 (fun j => j < n.graph.edges.length) hkey hC hQ
  have hflow' : FlowOk n s' := ⟨⟨Q', C', e2, w1, w2⟩, u1, DFlow.extend_head hnet hsafe h.flow.head h.time e1⟩
  -- the nodes to handle next
  obtain ⟨hs, m1, m2, m3⟩ := mapPy_ok (fun e => do
    let r ← rd n.graph.edges e
    pure (n.graph.nodeTo r)) ch (by
      intro e he
      exact ⟨n.graph.nodeTo (n.graph.edges[e]'(w3 e he)), by rw [rd_lt _ _ (w3 e he), ok_bind]; rfl⟩)
  have hhs : ∀ e ∈ n.graph.edges, (n.graph.edge e).id ∈ ch → n.graph.nodeTo e ∈ hs := by
    intro e he hch
    obtain ⟨j, hj⟩ := List.mem_iff_getElem?.mp hch
    obtain ⟨x, x1, x2⟩ := m3 j _ hj
    rw [rd_eq_ok.mpr (edge_id hn.graph he).2, ok_bind] at x2
    injection x2 with x2
    subst x2
    exact List.mem_of_getElem? x1
  have hhs' : ∀ v ∈ hs, v ∈ n.graph.nodes := by
    intro v hv
    obtain ⟨j, hj⟩ := List.mem_iff_getElem?.mp hv
    have hlt : j < ch.length := by rw [← m2]; exact (List.getElem?_eq_some_iff.mp hj).1
    obtain ⟨x, x1, x2⟩ := m3 j _ (List.getElem?_eq_getElem hlt)
    rw [hj] at x1; injection x1 with x1; subst x1
    have hr := w3 _ (List.getElem_mem hlt)
    rw [rd_lt _ _ hr, ok_bind] at x2
    injection x2 with x2
    subst x2
    exact (hn.graph.ends _ (List.getElem_mem hr)).2
  have hstep : step ord preds b0 = .ok { b with flow := s', handle := hs } := by
    unfold step
    rw [hprep, ok_bind]
    simp only
    have en := h.static.net
    rw [en, e1, ok_bind]
    simp only
    rw [m1, ok_bind]
    simp only [py_pure]
  have hcast : ((k + 1 : Nat) : ℚ) * d = (k + 1) * d := by push_cast; ring
  -- rates in the new flow
  have hin_old : ∀ j i t, 0 ≤ t → t < s.phi → FRC.rate (s'.inflow j).funs i t = FRC.rate (s.inflow j).funs i t := by
    intro j i t ht0 ht
    rw [← h.same.inflow]
    by_cases hj : j ∈ l.map Prod.fst
    · obtain ⟨p, hp, rfl⟩ := List.mem_map.mp hj
      rw [(e3 p hp).2 i t ht0, if_pos (by rw [hphi]; exact ht)]
    · rw [e4 j hj]
  have hout_old : ∀ j i t, 0 ≤ t → t < s.phi → FRC.rate (s'.outflow j).funs i t = FRC.rate (s.outflow j).funs i t := by
    intro j i t ht0 ht
    rw [← h.same.funs]
    exact (e5 j).1.1 i t ht0 (by rw [hphi]; exact ht)
  have hs0 : 0 ≤ s.phi := by rw [← hphi]; exact h0
  -- rates of the old flow, read off the flow after looking
  have hinR : ∀ j i t, 0 ≤ t → inRate s j i t = FRC.rate (s.inflow j).funs i t := by
    intro j i t ht
    have := inRate_eq h.flow j i ht
    unfold inRate FRC.rateAt at this ⊢
    rw [h.same.inflow] at this; exact this
  have houtR : ∀ j i t, 0 ≤ t → outRate s j i t = FRC.rate (s.outflow j).funs i t := by
    intro j i t ht
    have := outRate_eq h.flow j i ht
    unfold outRate FRC.rateAt at this ⊢
    rw [h.same.funs] at this; exact this
  have harr_old : ∀ v i t, 0 ≤ t → t < s.phi → arriving n s' v i t = arriving n s v i t := by
    intro v i t ht0 ht
    unfold arriving
    congr 2
    apply List.map_congr_left
    intro e _
    rw [outRate_eq hflow' _ i ht0, houtR _ i t ht0, hout_old _ i t ht0 ht]
  -- arrivals from the old time on
  have harr_new : ∀ v ∈ n.graph.nodes, ∀ i t, s.phi ≤ t → (t < s'.phi ∨ t = s'.phi ∧ v ∉ hs ∧ ∀ x, W x = true → x.2.1 = v → s'.phi < x.2.2) →
      arriving n s' v i t = arriving n s v i s.phi := by
    intro v hv i t ht hor
    have ht0 : 0 ≤ t := le_trans hs0 ht
    unfold arriving
    congr 1
    · congr 1
      apply List.map_congr_left
      intro e he
      obtain ⟨i1, i2⟩ := (inc_mem hn.graph hv).mp he
      rw [outRate_eq hflow' _ i ht0, houtR _ i _ hs0, ← h.same.funs, ← hphi]
      refine outRate_const hn h.flow hflow' h.time e1 (by rw [hphi]; exact ht) ?_
      rcases hor with hlt | ⟨heq, hnot, _⟩
      · exact Or.inl hlt
      · exact Or.inr ⟨heq, fun hc => hnot (i2 ▸ hhs e i1 hc)⟩
    · refine networkRate_const hn hs0 ht ?_
      rintro z hz ⟨z1, z2⟩
      rcases h.breaks _ hz with hw | hle
      · have hTz := h.first _ hw
        simp only at hTz
        rcases hor with hlt | ⟨heq, _, hno⟩
        · linarith
        · have := hno _ hw rfl
          simp only at this
          linarith
      · simp only at hle; rw [hphi] at hle; linarith
  -- how commodities leave from the old time on
  have hnew : ∀ v ∈ n.graph.nodes, ∀ i t, s.phi ≤ t → (t < s'.phi ∨ t = s'.phi ∧ v ∉ hs ∧ ∀ x, W x = true → x.2.1 = v → s'.phi < x.2.2) →
      RoutedAt n preds d hist s' v i t k := by
    intro v hv i t ht hor
    have ht0 : 0 ≤ t := le_trans hs0 ht
    have ha := harr_new v hv i t ht hor
    by_cases hvH : v ∈ H
    · refine NodeOut.routed i ha ?_ (h.out v hvH)
      intro e he
      have hm : (n.graph.edge e).id ∈ l.map Prod.fst := (h.keys _).mpr ⟨v, hvH, e, he, rfl⟩
      obtain ⟨p, hp, hpe⟩ := List.mem_map.mp hm
      rw [inRate_eq hflow' _ i ht0, ← hpe, (e3 p hp).2 i t ht0, if_neg (by rw [hphi]; exact not_lt.mpr ht), val_of_mem h.table hp]
    · refine Routed.congr ha ?_ (h.rest v hv hvH i)
      intro e he
      have hm : (n.graph.edge e).id ∉ l.map Prod.fst := by
        intro hc
        obtain ⟨v', hv', e', he', hid⟩ := (h.keys _).mp hc
        obtain ⟨x1, x2⟩ := (out_mem hn.graph (h.nodes v' hv')).mp he'
        obtain ⟨y1, y2⟩ := (out_mem hn.graph hv).mp he
        have := id_inj hn.graph x1 y1 hid
        subst this
        exact hvH (by rw [← y2, x2]; exact hv')
      rw [inRate_eq hflow' _ i ht0, hinR _ i _ hs0, e4 _ hm, ← h.same.inflow]
      exact inRate_after h.flow (by rw [hphi]) ht
  refine ⟨_, hstep, ?_, by simp only; rw [← hphi]; exact u3, le_trans u2 h.top, rfl, ?_, h.top⟩
  swap
  · rcases u4 with h1 | h1
    · exact Or.inl h1
    · right
      intro hc
      apply h1
      simp only at hc
      rw [hc] at m2
      exact List.eq_nil_of_length_eq_zero m2.symm
  refine ⟨⟨h.static.net, h.static.interval, h.static.imp, h.static.sinks⟩, hflow', ?_, ?_, ?_, ?_, ?_, ?_, ?_, ?_, h.heap, h.wbreak, ?_, hhs', ?_, ?_⟩
  · intro e he i hno
    obtain ⟨z1, z2⟩ := h.supp e he i hno
    exact e6 _ i z1 z2 (table_zero hn h.nodes h.table h.keys h.out he hno)
  · intro v hv; exact (h.reads v hv).later u3
  · rw [runFlow_append _ _ h.run]
    simp only [runFlow, stepFlow, e1, ok_bind, py_pure]
  · refine callsOk_append _ _ h.calls h.run ⟨?_, fun _ _ => trivial⟩
    intro l' T' hc
    injection hc with c1 c2
    subst c1; subst c2; exact hcall
  · simp only; rw [h.next, hcast]
  · simp only; rw [hcast]; exact le_trans u2 h.top
  · intro j hj
    have : j = k := by omega
    subst this
    exact ⟨h.route, le_trans h.low u3, ⟨h.caches.cache, h.caches.active⟩⟩
  · intro j p ps hh
    exact Predicted.mono (List.prefix_append _ _) (h.pred j p ps hh)
  · intro x hx
    rcases h.breaks x hx with hw | hle
    · exact Or.inl hw
    · exact Or.inr (le_trans hle u3)
  · intro v hv i t ht0 ht
    by_cases hlt : t < s.phi
    · obtain ⟨j, j1, j2, j3⟩ := h.past v hv i t ht0 hlt
      refine ⟨j, j1, j2, Routed.congr (harr_old v i t ht0 hlt) ?_ j3⟩
      intro e _
      rw [inRate_eq hflow' _ i ht0, hinR _ i t ht0, hin_old _ i t ht0 hlt]
    · have hle := not_lt.mp hlt
      refine ⟨k, le_trans h.low (by rw [hphi]; exact hle), lt_of_lt_of_le ht (le_trans u2 h.top), hnew v hv i t hle (Or.inl ht)⟩
  · intro v hv hvh hvw _ j hj i
    have : j = k := by omega
    subst this
    exact hnew v hv i _ (by simp only; rw [← hphi]; exact u3) (Or.inr ⟨rfl, hvh, hvw⟩)

/-- The invariant holds at the start. -/
theorem inv_init (hn : InputOk n) (d : ℚ) : ∃ b f0 W, init n (some d) = .ok b ∧ DFlow.init = .ok f0 ∧ b.built = false ∧ b.flow = f0 ∧
    Inv n preds d f0 [] (fun _ _ => none) 0 W b := by
  obtain ⟨b, f0, h1, h2, h3, h4, h5, h6, h7, h8, h9, h10, h11, h12, h13, h14, h15, M, h16, h17⟩ := init_spec hn (some d)
  obtain ⟨f0', hf, hphi, hx, hsf⟩ := DFlow.init_ok (netOk hn)
  rw [h2] at hf; injection hf with hf; subst hf
  classical
  have hzero : ∀ j i, (f0.inflow j).Zero i ∧ (f0.outflow j).Zero i := by
    have h := h2
    unfold DFlow.init at h
    obtain ⟨c, e1, g, ha, hr, hq, _⟩ := FRC.empty_good
    rw [e1, ok_bind] at h
    obtain ⟨q, _, h⟩ := bind_eq_ok.mp h
    injection h with h; subst h
    intro j i
    exact ⟨fun x _ => hr i x, fun x _ => hr i x⟩
  refine ⟨b, f0, fun x => decide (Break n.commodities x), h1, h2, h6, h8, ?_⟩
  refine ⟨⟨h3, h4, ?_, h14⟩, ?_, ?_, ?_, ?_, trivial, ?_, ?_, ?_, ?_, ?_, ?_, ?_, ?_, ?_, ?_⟩
  · intro i c hc
    have hi : i < b.important.length := by rw [h11]; exact (List.getElem?_eq_some_iff.mp hc).1
    obtain ⟨c', e1, e2⟩ := h12 i _ (List.getElem?_eq_getElem hi)
    rw [hc] at e1; injection e1 with e1; subst e1
    exact ⟨_, List.getElem?_eq_getElem hi, e2⟩
  · rw [h8]
    exact ⟨⟨_, _, hx, fun _ hc => (by cases hc), fun _ hc => absurd rfl hc⟩, ⟨_, _, hsf⟩, DFlow.init_head h2⟩
  · rw [h8]; intro e _ i _; exact hzero _ i
  · rw [h8, hphi]; exact h13
  · rw [h8]; rfl
  · rw [h9, hphi]; simp
  · rw [h8, hphi]; simp
  · intro k hk; omega
  · intro _ _ _ hc; cases hc
  · refine h16.congr (fun x => ?_)
    by_cases hb : Break n.commodities x
    · simp [wmap, hb, (h17 x).1 hb]
    · simp [wmap, hb, (h17 x).2 hb]
  · intro x hxx; simpa using hxx
  · intro x hxx; left; simpa using hxx
  · rw [h7]; simp
  · intro v _ i t ht0 ht; rw [h8, hphi] at ht; linarith
  · intro v _ _ _ hlt; rw [h8, hphi] at hlt; simp at hlt

/-- The invariant holds after every round. -/
theorem inv_rounds (hn : InputOk n) {ord : List Nat → List Nat} (hord : OrderOk ord) (hp : PredictorsOk n preds) {d : ℚ} (hd : 0 < d) {b0 : Builder P} {f0 : DFlow}
    (hf0 : DFlow.init = .ok f0) {W0 : Nat × Nat × ℚ → Bool} (h0 : Inv n preds d f0 [] (fun _ _ => none) 0 W0 b0) :
    ∀ k, ClearRounds ord preds b0 k → ∃ b cs hist K W, rounds ord preds k b0 = .ok b ∧ Inv n preds d f0 cs hist K W b ∧ b.built = b0.built := by
  intro k
  induction k with
  | zero => intro _; exact ⟨b0, [], _, 0, W0, rfl, h0, rfl⟩
  | succ k ih =>
    intro hcl
    obtain ⟨b, cs, hist, K, W, r1, r2, r3⟩ := ih (fun m hm => hcl m (by omega))
    obtain ⟨l, T, b', cs', hist', k', W', H, p1, p2, p3, p4⟩ := prepare_spec hn hord hp hd hf0 r2
    obtain ⟨b'', s1, s2, s3, s4, s5, _⟩ := step_spec hn p3 p1 (by
      have := hcl k (by omega) b l T b' r1 p1
      rw [p3.static.net] at this; exact this)
    refine ⟨b'', _, _, _, _, ?_, s2, by rw [s5, p4, r3]⟩
    unfold rounds
    rw [r1, ok_bind]; exact s1

end Builder
end Verif
