import Verif.Proofs.BuilderActive

/-! `_determine_new_inflow`. -/

namespace Verif
open Spec

namespace Builder
variable {P : Type} [DecidableEq P] {n : Network P} {preds : P → Predictor}

/-- The flow between calls, with all events on edges of the network. -/
structure FlowOk (n : Network P) (s : DFlow) : Prop where
  exact : ∃ Q C, DFlow.Exact n.data s Q C ∧ (∀ p, C p = true → p.1 < n.graph.edges.length) ∧ ∀ j, Q j ≠ none → j < n.graph.edges.length
  safe : ∃ Q C, DFlow.Safe n.data s Q C
  head : DFlow.HeadOk s

/-- Only the heads of the event lists differ. -/
structure SameRates (s s' : DFlow) : Prop where
  phi : s'.phi = s.phi
  inflow : s'.inflow = s.inflow
  funs : ∀ j, (s'.outflow j).funs = (s.outflow j).funs

theorem SameRates.refl (s : DFlow) : SameRates s s := ⟨rfl, rfl, fun _ => rfl⟩
theorem SameRates.trans {s s' s'' : DFlow} (h : SameRates s s') (h' : SameRates s' s'') : SameRates s s'' :=
  ⟨h'.phi.trans h.phi, h'.inflow.trans h.inflow, fun j => (h'.funs j).trans (h.funs j)⟩

omit [DecidableEq P] in
theorem FlowOk.edge {s : DFlow} (h : FlowOk n s) (e : Nat) : ∃ Q Lin Vin Lout Vout r, DFlow.EdgeOk (n.data.capacity e) (n.data.travelTime e) s.phi
    (s.inflow e) (s.outflow e) (s.queues e) Q Lin Vin Lout Vout r := by
  obtain ⟨Q, C, hx, _⟩ := h.exact
  obtain ⟨a, b, c, d, r, hh⟩ := hx.edge e
  exact ⟨_, a, b, c, d, r, hh⟩

omit [DecidableEq P] in
theorem FlowOk.phi_nonneg {s : DFlow} (h : FlowOk n s) : 0 ≤ s.phi := by
  obtain ⟨_, _, _, _, _, _, hh⟩ := h.edge 0
  exact hh.phi

theorem good_rateAt {c : FRC} {L R : ℚ} {V : Rates} (h : c.Good L V R) (i : Nat) {x : ℚ} (hx : 0 ≤ x) : c.rateAt i x = .ok (FRC.rate c.funs i x) := by
  unfold FRC.rateAt FRC.rate
  cases hd : c.funs i with
  | none => rfl
  | some f =>
    have hg := (h.funs i).1 f hd
    exact RC.eval_eq hg.wf (hg.inDom hx)

omit [DecidableEq P] in
theorem outRate_eq {s : DFlow} (h : FlowOk n s) (e i : Nat) {t : ℚ} (ht : 0 ≤ t) : outRate s e i t = FRC.rate (s.outflow e).funs i t := by
  obtain ⟨_, _, _, _, _, _, hh⟩ := h.edge e
  unfold outRate; rw [good_rateAt hh.gout i ht]

omit [DecidableEq P] in
theorem inRate_eq {s : DFlow} (h : FlowOk n s) (e i : Nat) {t : ℚ} (ht : 0 ≤ t) : inRate s e i t = FRC.rate (s.inflow e).funs i t := by
  obtain ⟨_, _, _, _, _, _, hh⟩ := h.edge e
  unfold inRate; rw [good_rateAt hh.gin i ht]

omit [DecidableEq P] in
theorem SameRates.arriving {s s' : DFlow} (h : SameRates s s') (v i : Nat) (t : ℚ) : arriving n s' v i t = arriving n s v i t := by
  unfold Spec.arriving outRate FRC.rateAt
  simp only [h.funs]

omit [DecidableEq P] in
theorem look_spec {s : DFlow} (h : FlowOk n s) (e : Nat) : ∃ v s', s.lookOutflow e = .ok (v, s') ∧ FlowOk n s' ∧ SameRates s s' ∧ v.Ok ∧
    ∀ i, v.get i = FRC.rate (s.outflow e).funs i s.phi := by
  obtain ⟨v, s', h1, h2, h3, h4, h5, h6⟩ := DFlow.look_ok (net := n.data) h.head e
  obtain ⟨_, _, _, _, _, _, hh⟩ := h.edge e
  obtain ⟨w, c, r1, r2, r3, _, r5, _⟩ := (hh.gout.reads hh.phi (h.head e)).query
  have hl : s.lookOutflow e = .ok (w, { s with outflow := setAt s.outflow e c }) := by
    unfold DFlow.lookOutflow; rw [r1, ok_bind]; rfl
  rw [hl] at h1
  injection h1 with h1
  injection h1 with h1 h1'
  subst h1; subst h1'
  obtain ⟨Q, C, x1, x2⟩ := h.exact
  obtain ⟨Q', C', y1⟩ := h.safe
  refine ⟨w, _, hl, ⟨⟨Q, C, h6 _ _ x1, x2⟩, ⟨Q', C', h5 _ _ y1⟩, h2⟩, ⟨rfl, rfl, ?_⟩, r2, r3⟩
  intro j
  simp only
  by_cases hj : j = e
  · subst hj; rw [DFlow.setAt_self, r5]
  · rw [DFlow.setAt_ne _ _ hj]

omit [DecidableEq P] in
theorem outflows_spec : ∀ (es : List Nat) {s : DFlow}, FlowOk n s → ∃ vs s', outflows n.graph es s = .ok (vs, s') ∧ FlowOk n s' ∧ SameRates s s' ∧
    runFlow n.data s (es.map (fun e => FlowCall.look (n.graph.edge e).id)) = .ok s' ∧ (∀ v ∈ vs, v.Ok) ∧
    (∀ i, (vs.map (fun o => o.get i)).sum = (es.map (fun e => FRC.rate (s.outflow (n.graph.edge e).id).funs i s.phi)).sum) ∧
    ∀ i, i ∈ vs.flatten.map Prod.fst → ∃ e ∈ es, 0 < FRC.rate (s.outflow (n.graph.edge e).id).funs i s.phi := by
  intro es
  induction es with
  | nil => intro s h; exact ⟨[], s, rfl, h, SameRates.refl s, rfl, by simp, by simp, by simp⟩
  | cons e es ih =>
    intro s h
    obtain ⟨v, s1, a1, a2, a3, a4, a5⟩ := look_spec h (n.graph.edge e).id
    obtain ⟨vs, s2, b1, b2, b3, b4, b5, b6, b7⟩ := ih a2
    refine ⟨v :: vs, s2, ?_, b2, a3.trans b3, ?_, ?_, ?_, ?_⟩
    · unfold outflows; rw [a1, ok_bind]; simp only; rw [b1, ok_bind]; rfl
    · rw [List.map_cons, runFlow, stepFlow, a1, ok_bind]; simp only [py_pure, ok_bind]; rw [b4]
    · intro w hw
      rcases List.mem_cons.mp hw with rfl | hw
      · exact a4
      · exact b5 w hw
    · intro i
      rw [List.map_cons, List.sum_cons, List.map_cons, List.sum_cons, a5, b6]
      simp only [a3.funs, a3.phi]
    · intro i hi
      rw [List.flatten_cons, List.map_append, List.mem_append] at hi
      rcases hi with hi | hi
      · obtain ⟨p, hp, rfl⟩ := List.mem_map.mp hi
        refine ⟨e, by simp, ?_⟩
        rw [← a5, Rates.get_mem a4.nodup hp]
        exact a4.pos p hp
      · obtain ⟨e', he', hpos⟩ := b7 i hi
        rw [a3.funs, a3.phi] at hpos
        exact ⟨e', by simp [he'], hpos⟩

/-! ### The table of new inflows -/

/-- The rate of commodity `i` for edge id `k` in the table. -/
def val (d : List (Nat × Rates)) (k i : Nat) : ℚ := ((d.lookup k).getD []).get i

structure TableOk (d : List (Nat × Rates)) : Prop where
  keys : (d.map Prod.fst).Nodup
  rates : ∀ p ∈ d, RatesOk p.2

theorem lookup_upd (f : Rates → Rates) (k : Nat) : ∀ (d : List (Nat × Rates)) (j : Nat),
    (d.map (fun p => if p.1 = k then (p.1, f p.2) else p)).lookup j = if j = k then (d.lookup k).map f else d.lookup j := by
  intro d
  induction d with
  | nil => intro j; simp
  | cons p d ih =>
    intro j
    obtain ⟨a, r⟩ := p
    rw [List.map_cons]
    by_cases hk : a = k
    · subst hk
      simp only [if_true, List.lookup_cons]
      by_cases hj : j = a
      · subst hj; simp
      · have hb : (j == a) = false := by simpa using hj
        rw [hb]; simp only [if_neg hj]
        rw [ih, if_neg hj]
    · simp only [if_neg hk, List.lookup_cons]
      by_cases hj : j = a
      · subst hj
        simp [hk]
      · have hb : (j == a) = false := by simpa using hj
        rw [hb]; simp only
        rw [ih]
        by_cases hjk : j = k
        · rw [if_pos hjk, if_pos hjk]
          have hb2 : (k == a) = false := by simpa using fun e : k = a => hk e.symm
          rw [hb2]
        · rw [if_neg hjk, if_neg hjk]

theorem keys_upd (f : Rates → Rates) (k : Nat) (d : List (Nat × Rates)) :
    (d.map (fun p => if p.1 = k then (p.1, f p.2) else p)).map Prod.fst = d.map Prod.fst := by
  rw [List.map_map]
  apply List.map_congr_left
  intro p _
  simp only [Function.comp]
  split <;> rfl

theorem table_upd {f : Rates → Rates} (hf : ∀ r, RatesOk r → RatesOk (f r)) (k : Nat) {d : List (Nat × Rates)} (h : TableOk d) :
    TableOk (d.map (fun p => if p.1 = k then (p.1, f p.2) else p)) := by
  refine ⟨by rw [keys_upd]; exact h.keys, ?_⟩
  intro p hp
  obtain ⟨q, hq, rfl⟩ := List.mem_map.mp hp
  split
  · exact hf _ (h.rates q hq)
  · exact h.rates q hq

theorem lookup_isSome {d : List (Nat × Rates)} {k : Nat} : (d.lookup k).isSome = true ↔ k ∈ d.map Prod.fst := by
  induction d with
  | nil => simp
  | cons p d ih =>
    obtain ⟨a, r⟩ := p
    rw [List.lookup_cons, List.map_cons, List.mem_cons]
    by_cases hk : k = a
    · subst hk; simp
    · have hb : (k == a) = false := by simpa using hk
      rw [hb]; simp only
      rw [ih]; simp [hk]

/-- Setting one entry of a dict of rates. -/
theorem setRate_ok {r : Rates} (h : RatesOk r) {i : Nat} {x : ℚ} (hx : 0 < x) :
    RatesOk (r.filter (fun q => q.1 ≠ i) ++ [(i, x)]) ∧ ∀ j, Rates.get (r.filter (fun q => q.1 ≠ i) ++ [(i, x)]) j = if j = i then x else r.get j := by
  constructor
  · refine ⟨?_, ?_⟩
    · rw [List.map_append, List.nodup_append]
      refine ⟨h.nodup.sublist (List.filter_sublist.map _), by simp, ?_⟩
      intro a ha b hb hab
      obtain ⟨p, hp, rfl⟩ := List.mem_map.mp ha
      simp at hb
      have := (List.mem_filter.mp hp).2
      simp at this
      exact this (by rw [hab, hb])
    · intro p hp
      rcases List.mem_append.mp hp with hp | hp
      · exact h.pos p (List.mem_filter.mp hp).1
      · simp at hp; subst hp; exact hx
  · intro j
    unfold Rates.get
    have hl : ∀ (r : Rates), (r.filter (fun q => q.1 ≠ i) ++ [(i, x)] : Rates).lookup j = if j = i then some x else r.lookup j := by
      intro r
      induction r with
      | nil =>
        by_cases hj : j = i
        · subst hj; simp
        · have hb : (j == i) = false := by simpa using hj
          simp [List.lookup_cons, hj, hb]
      | cons p r ih =>
        obtain ⟨a, y⟩ := p
        by_cases ha : a = i
        · subst ha
          rw [List.filter_cons_of_neg (by simp), ih]
          by_cases hj : j = a
          · simp [hj]
          · have hb : (j == a) = false := by simpa using hj
            rw [if_neg hj, if_neg hj, List.lookup_cons, hb]
        · rw [List.filter_cons_of_pos (by simpa using ha), List.cons_append, List.lookup_cons]
          by_cases hj : j = a
          · subst hj; simp [ha]
          · have hb : (j == a) = false := by simpa using hj
            rw [hb]; simp only
            rw [ih, List.lookup_cons, hb]
    rw [hl]
    by_cases hj : j = i <;> simp [hj]

theorem spread_spec {g : Graph} {i : Nat} {x : ℚ} (hx : 0 < x) : ∀ (es : List Nat) {d : List (Nat × Rates)}, TableOk d →
    (∀ e ∈ es, (g.edge e).id ∈ d.map Prod.fst) → ∃ d', spread g i x es d = .ok d' ∧ TableOk d' ∧ d'.map Prod.fst = d.map Prod.fst ∧
      ∀ k j, val d' k j = if j = i ∧ ∃ e ∈ es, (g.edge e).id = k then x else val d k j := by
  intro es
  induction es with
  | nil => intro d h _; exact ⟨d, rfl, h, rfl, by simp⟩
  | cons e es ih =>
    intro d h hk
    have hin := hk e (by simp)
    unfold spread
    rw [if_pos (lookup_isSome.mpr hin)]
    have hf : ∀ r, RatesOk r → RatesOk ((fun r : Rates => r.filter (fun q => q.1 ≠ i) ++ [(i, x)]) r) := fun r hr => (setRate_ok hr hx).1
    have ht := table_upd hf (g.edge e).id h
    have hkeys := keys_upd (fun r : Rates => r.filter (fun q => q.1 ≠ i) ++ [(i, x)]) (g.edge e).id d
    have hlook := lookup_upd (fun r : Rates => r.filter (fun q => q.1 ≠ i) ++ [(i, x)]) (g.edge e).id d
    obtain ⟨d', a1, a2, a3, a4⟩ := ih ht (fun e' he' => by rw [hkeys]; exact hk e' (by simp [he']))
    refine ⟨d', a1, a2, by rw [a3, hkeys], ?_⟩
    intro k j
    rw [a4]
    have hv : val (d.map (fun p => if p.1 = (g.edge e).id then (p.1, p.2.filter (fun q => q.1 ≠ i) ++ [(i, x)]) else p)) k j =
        if j = i ∧ (g.edge e).id = k then x else val d k j := by
      unfold val
      rw [hlook]
      by_cases hke : k = (g.edge e).id
      · subst hke
        obtain ⟨r, hr⟩ := Option.isSome_iff_exists.mp (lookup_isSome.mpr hin)
        rw [if_pos rfl, hr, Option.map_some, Option.getD_some, (setRate_ok (h.rates _ (FRC.mem_of_lookup hr)) hx).2 j]
        by_cases hj : j = i <;> simp [hj]
      · rw [if_neg hke, if_neg (by rintro ⟨_, h2⟩; exact hke h2.symm)]
    rw [hv]
    by_cases hj : j = i
    · by_cases h1 : ∃ e' ∈ es, (g.edge e').id = k
      · rw [if_pos ⟨hj, h1⟩, if_pos]
        obtain ⟨e', he', h1⟩ := h1
        exact ⟨hj, e', by simp [he'], h1⟩
      · rw [if_neg (fun hc => h1 hc.2)]
        by_cases h2 : (g.edge e).id = k
        · rw [if_pos ⟨hj, h2⟩, if_pos ⟨hj, e, by simp, h2⟩]
        · rw [if_neg (fun hc => h2 hc.2), if_neg]
          rintro ⟨_, e', he', h3⟩
          rcases List.mem_cons.mp he' with rfl | he'
          · exact h2 h3
          · exact h1 ⟨e', he', h3⟩
    · rw [if_neg (fun hc => hj hc.1), if_neg (fun hc => hj hc.1), if_neg (fun hc => hj hc.1)]

theorem reset_spec {g : Graph} : ∀ (es : List Nat) {d : List (Nat × Rates)}, TableOk d →
    TableOk (reset g es d) ∧ (∀ k, k ∈ (reset g es d).map Prod.fst ↔ k ∈ d.map Prod.fst ∨ ∃ e ∈ es, (g.edge e).id = k) ∧
      ∀ k j, val (reset g es d) k j = if ∃ e ∈ es, (g.edge e).id = k then 0 else val d k j := by
  intro es
  induction es with
  | nil => intro d h; exact ⟨h, by simp [reset], by simp [reset]⟩
  | cons e es ih =>
    intro d h
    unfold reset
    have key : ∃ d1, d1 = (if (d.lookup (g.edge e).id).isSome then d.map (fun p => if p.1 = (g.edge e).id then (p.1, []) else p) else d ++ [((g.edge e).id, [])]) ∧
        TableOk d1 ∧ (∀ k, k ∈ d1.map Prod.fst ↔ k ∈ d.map Prod.fst ∨ (g.edge e).id = k) ∧ ∀ k j, val d1 k j = if (g.edge e).id = k then 0 else val d k j := by
      refine ⟨_, rfl, ?_⟩
      have hnil : RatesOk [] := ⟨by simp, by simp⟩
      by_cases hin : (d.lookup (g.edge e).id).isSome = true
      · rw [if_pos hin]
        refine ⟨table_upd (f := fun _ => []) (fun _ _ => hnil) _ h, ?_, ?_⟩
        · intro k
          rw [keys_upd (fun _ => []) (g.edge e).id d]
          refine ⟨Or.inl, fun hk => hk.elim id ?_⟩
          rintro rfl; exact lookup_isSome.mp hin
        · intro k j
          unfold val
          rw [lookup_upd (fun _ => []) (g.edge e).id d]
          by_cases hk : k = (g.edge e).id
          · rw [if_pos hk, if_pos hk.symm]
            obtain ⟨r, hr⟩ := Option.isSome_iff_exists.mp hin
            rw [hr]; rfl
          · rw [if_neg hk, if_neg (fun hc => hk hc.symm)]
      · rw [if_neg hin]
        have hnin : (g.edge e).id ∉ d.map Prod.fst := fun hc => hin (lookup_isSome.mpr hc)
        refine ⟨⟨?_, ?_⟩, ?_, ?_⟩
        · rw [List.map_append, List.nodup_append]
          refine ⟨h.keys, by simp, ?_⟩
          intro a ha b hb hab
          simp at hb
          exact hnin (by rw [← hb, ← hab]; exact ha)
        · intro p hp
          rcases List.mem_append.mp hp with hp | hp
          · exact h.rates p hp
          · simp at hp; subst hp; exact hnil
        · intro k; rw [List.map_append, List.mem_append]; simp [eq_comm]
        · intro k j
          unfold val
          have : (d ++ [((g.edge e).id, ([] : Rates))]).lookup k = (d.lookup k).or (if k = (g.edge e).id then some [] else none) := by
            rw [List.lookup_append]
            congr 1
            by_cases hk : k = (g.edge e).id
            · simp [hk]
            · have hb : (k == (g.edge e).id) = false := by simpa using hk
              simp [List.lookup_cons, hk, hb]
          rw [this]
          by_cases hk : k = (g.edge e).id
          · subst hk
            rw [if_pos rfl, if_pos rfl]
            have : d.lookup (g.edge e).id = none := by
              cases hh : d.lookup (g.edge e).id with
              | none => rfl
              | some r => rw [hh] at hin; exact absurd rfl hin
            rw [this]; rfl
          · rw [if_neg hk, if_neg (fun hc => hk hc.symm), Option.or_none]
    obtain ⟨d1, e1, t1, k1, v1⟩ := key
    rw [← e1]
    obtain ⟨a1, a2, a3⟩ := ih t1
    refine ⟨a1, ?_, ?_⟩
    · intro k
      rw [a2, k1]
      simp only [List.mem_cons, exists_eq_or_imp]
      tauto
    · intro k j
      rw [a3, v1]
      by_cases h1 : ∃ e' ∈ es, (g.edge e').id = k
      · rw [if_pos h1, if_pos]
        obtain ⟨e', he', h1⟩ := h1
        exact ⟨e', by simp [he'], h1⟩
      · rw [if_neg h1]
        by_cases h2 : (g.edge e).id = k
        · rw [if_pos h2, if_pos ⟨e, by simp, h2⟩]
        · rw [if_neg h2, if_neg]
          rintro ⟨e', he', h3⟩
          rcases List.mem_cons.mp he' with rfl | he'
          · exact h2 h3
          · exact h1 ⟨e', he', h3⟩

end Builder
end Verif
