import Verif.Model.ManyBuilders
import Verif.Proofs.TwinActive
import Verif.Props.PredictorsTime

/-! Losing cached costs does not change what a builder does. -/

namespace Verif
open Spec

namespace Builder
variable {P : Type} [DecidableEq P] {n : Network P} {preds : P → Predictor}

/-- What is known of predictions: `A` holds for the flows met, and predictions of such flows last. -/
structure Lasting (n : Network P) (preds : P → Predictor) (A : DFlow → Prop) : Prop where
  look : ∀ s e v s', s.lookOutflow e = .ok (v, s') → A s → A s'
  last : ∀ p s s' t, Reached n.data s → Continues n.data s s' → t ≤ s.phi → A s → A s' → (preds p).predict t s' = (preds p).predict t s

/-- The stored costs are those that would be computed now. -/
structure Coherent (n : Network P) (preds : P → Predictor) (A : DFlow → Prop) (b : Builder P) : Prop where
  net : b.net = n
  reached : Reached n.data b.flow
  time : b.route ≤ b.flow.phi
  good : A b.flow
  cache : ∀ p x, b.cache p = some x → costsNow n preds b.route b.flow p = .ok x

/-- Some entries are missing. -/
def Fewer (C C' : P → Option (List PL)) : Prop := ∀ p x, C p = some x → C' p = some x

variable {A : DFlow → Prop} {b b' : Builder P} {C : P → Option (List PL)}

theorem getCosts_fewer (h : Coherent n preds A b) (hC : Fewer C b.cache) {p : P} {x : List PL} (he : getCosts preds b p = .ok (x, b')) :
    ∃ C1 C', b' = { b with cache := C1 } ∧ Coherent n preds A b' ∧ Fewer C' C1 ∧ getCosts preds { b with cache := C } p = .ok (x, { b' with cache := C' }) := by
  unfold getCosts at he ⊢
  have hcomp : ∀ y, costsNow n preds b.route b.flow p = .ok y → (do
      let ps ← (preds p).predict b.route b.flow
      let costs ← mapPy (costOfEdge b.net b.route ps) (List.range b.net.graph.edges.length)
      pure (costs, { b with cache := fun q => if q = p then some costs else C q }) : Py (List PL × Builder P)) = .ok (y, { b with cache := fun q => if q = p then some y else C q }) := by
    intro y hy
    unfold costsNow at hy
    obtain ⟨ps, e1, hy⟩ := bind_eq_ok.mp hy
    rw [e1, ok_bind, h.net, hy, ok_bind]
    rfl
  cases hc : b.cache p with
  | some y =>
    rw [hc] at he
    injection he with he; injection he with h1 h2; subst h1; subst h2
    cases hd : C p with
    | some z =>
      have := hC p z hd
      rw [hc] at this; injection this with this; subst this
      exact ⟨b.cache, C, rfl, h, hC, by simp only [hd]⟩
    | none =>
      refine ⟨b.cache, fun q => if q = p then some y else C q, rfl, h, ?_, by simp only [hd]; exact hcomp y (h.cache p y hc)⟩
      intro q z hq
      simp only at hq
      split at hq
      · rename_i hqp; subst hqp; injection hq with hq; subst hq; exact hc
      · exact hC q z hq
  | none =>
    have hd : C p = none := by
      cases hd : C p with
      | none => rfl
      | some z => have := hC p z hd; rw [hc] at this; cases this
    rw [hc] at he
    simp only [hd] at he ⊢
    obtain ⟨ps, e1, he⟩ := bind_eq_ok.mp he
    obtain ⟨cs, e2, he⟩ := bind_eq_ok.mp he
    injection he with he; injection he with h1 h2; subst h1; subst h2
    have hy : costsNow n preds b.route b.flow p = .ok cs := by
      unfold costsNow; rw [e1, ok_bind, ← h.net]; exact e2
    refine ⟨_, _, rfl, ⟨h.net, h.reached, h.time, h.good, ?_⟩, ?_, hcomp cs hy⟩
    · intro q x hq
      simp only at hq
      split at hq
      · rename_i hqp; subst hqp; injection hq with hq; subst hq; exact hy
      · exact h.cache q x hq
    · intro q x hq
      simp only at hq ⊢
      split
      · rename_i hqp; rw [if_pos hqp] at hq; exact hq
      · rename_i hqp; rw [if_neg hqp] at hq; exact hC q x hq

theorem constLoop_cache (ord : List Nat → List Nat) (c : Commodity P) (costs : List ℚ) (dist : Nat → Option ℚ) : ∀ (vs : List Nat) (d : Nat → Nat → Option (List Nat)),
    constLoop ord { b with cache := C } c costs dist vs d = constLoop ord b c costs dist vs d := by
  intro vs
  induction vs with
  | nil => intro d; rfl
  | cons v vs ih =>
    intro d
    unfold constLoop
    simp only [ih]

theorem getActive_fewer {ord : List Nat → List Nat} (h : Coherent n preds A b) (hC : Fewer C b.cache) {i s : Nat} {a : List Nat} (he : getActive ord preds b i s = .ok (a, b')) :
    ∃ A1 C1 C', b' = { b with active := A1, cache := C1 } ∧ Coherent n preds A b' ∧ Fewer C' C1 ∧ getActive ord preds { b with cache := C } i s = .ok (a, { b' with cache := C' }) := by
  unfold getActive at he ⊢
  cases hact : b.active i s with
  | some x =>
    rw [hact] at he
    injection he with he; injection he with h1 h2; subst h1; subst h2
    exact ⟨b.active, b.cache, C, rfl, h, hC, rfl⟩
  | none =>
    rw [hact] at he
    simp only at he ⊢
    obtain ⟨c, e1, he⟩ := bind_eq_ok.mp he
    obtain ⟨nodes, e2, he⟩ := bind_eq_ok.mp he
    rw [e1, ok_bind, e2, ok_bind]
    by_cases hk : (preds c.predictor).constant = true
    · rw [if_pos hk] at he ⊢
      obtain ⟨⟨costs, b1⟩, e3, he⟩ := bind_eq_ok.mp he
      obtain ⟨C1, C', rfl, g2, g3, g4⟩ := getCosts_fewer h hC e3
      simp only at he g4
      obtain ⟨consts, e4, he⟩ := bind_eq_ok.mp he
      obtain ⟨dist, e5, he⟩ := bind_eq_ok.mp he
      obtain ⟨d, e6, he⟩ := bind_eq_ok.mp he
      rw [g4, ok_bind]
      simp only
      rw [e4, ok_bind, e5, ok_bind]
      have e6' : constLoop ord { b with cache := C' } c consts dist (ord nodes) b.active = .ok d := by
        rw [constLoop_cache] at e6 ⊢; exact e6
      rw [e6', ok_bind]
      cases hd : d i s with
      | none => rw [hd] at he; cases he
      | some x =>
        rw [hd] at he
        injection he with he; injection he with h1 h2; subst h1; subst h2
        exact ⟨d, C1, C', rfl, ⟨g2.net, g2.reached, g2.time, g2.good, g2.cache⟩, g3, rfl⟩
    · rw [if_neg hk] at he ⊢
      obtain ⟨⟨costs, b1⟩, e3, he⟩ := bind_eq_ok.mp he
      obtain ⟨C1, C', rfl, g2, g3, g4⟩ := getCosts_fewer h hC e3
      simp only at he g4
      obtain ⟨res, e4, he⟩ := bind_eq_ok.mp he
      obtain ⟨x, e5, he⟩ := bind_eq_ok.mp he
      injection he with he; injection he with h1 h2; subst h1; subst h2
      rw [g4, ok_bind]
      simp only
      rw [e4, ok_bind, e5, ok_bind]
      exact ⟨_, C1, C', rfl, ⟨g2.net, g2.reached, g2.time, g2.good, g2.cache⟩, g3, rfl⟩

theorem distribute_fewer {ord : List Nat → List Nat} {v : Nat} {outs : List Rates} {net : Rates} : ∀ (is : List Nat) {b b' : Builder P} {C : P → Option (List PL)} {d d' : List (Nat × Rates)},
    Coherent n preds A b → Fewer C b.cache → distribute ord preds v outs net is b d = .ok (d', b') →
    ∃ A1 C1 C', b' = { b with active := A1, cache := C1 } ∧ Coherent n preds A b' ∧ Fewer C' C1 ∧ distribute ord preds v outs net is { b with cache := C } d = .ok (d', { b' with cache := C' }) := by
  intro is
  induction is with
  | nil =>
    intro b b' C d d' h hC he
    injection he with he; injection he with h1 h2; subst h1; subst h2
    exact ⟨b.active, b.cache, C, rfl, h, hC, rfl⟩
  | cons i is ih =>
    intro b b' C d d' h hC he
    unfold distribute at he ⊢
    simp only at he ⊢
    by_cases hx : (outs.map (fun o => o.get i)).sum + net.get i < eps
    · rw [if_pos hx] at he ⊢
      exact ih h hC he
    · rw [if_neg hx] at he ⊢
      obtain ⟨⟨a, b1⟩, e1, he⟩ := bind_eq_ok.mp he
      obtain ⟨x, e2, he⟩ := bind_eq_ok.mp he
      obtain ⟨d1, e3, he⟩ := bind_eq_ok.mp he
      obtain ⟨A1, C1, C', rfl, g2, g3, g4⟩ := getActive_fewer h hC e1
      simp only at e2 e3 he g4
      obtain ⟨A2, C2, C'', k1, k2, k3, k4⟩ := ih g2 g3 he
      rw [g4, ok_bind]
      simp only
      rw [e2, ok_bind, e3, ok_bind]
      exact ⟨A2, C2, C'', k1, k2, k3, k4⟩

/-- Reading outflow rates continues the flow. -/
theorem outflows_continues {D : EdgeData} {g : Graph} : ∀ (es : List Nat) {s s' : DFlow} {vs : List Rates}, outflows g es s = .ok (vs, s') → Continues D s s' := by
  intro es
  induction es with
  | nil => intro s s' vs h; injection h with h; injection h with _ h2; subst h2; exact ⟨[], trivial, rfl⟩
  | cons e es ih =>
    intro s s' vs h
    unfold outflows at h
    obtain ⟨⟨v, s1⟩, e1, h⟩ := bind_eq_ok.mp h
    obtain ⟨⟨rest, s2⟩, e2, h⟩ := bind_eq_ok.mp h
    injection h with h; injection h with _ h2; subst h2
    obtain ⟨cs, c1, c2⟩ := ih e2
    have hs : stepFlow D s (.look (g.edge e).id) = .ok s1 := by unfold stepFlow; simp only; rw [e1]; rfl
    refine ⟨.look (g.edge e).id :: cs, ⟨(fun l T hc => by cases hc), fun s'' h'' => ?_⟩, ?_⟩
    · rw [hs] at h''; injection h'' with h''; subst h''; exact c1
    · unfold runFlow; rw [hs]; exact c2

omit [DecidableEq P] in
theorem outflows_good (hl : Lasting n preds A) {g : Graph} : ∀ (es : List Nat) {s s' : DFlow} {vs : List Rates}, outflows g es s = .ok (vs, s') → A s → A s' := by
  intro es
  induction es with
  | nil => intro s s' vs h ha; injection h with h; injection h with _ h2; subst h2; exact ha
  | cons e es ih =>
    intro s s' vs h ha
    unfold outflows at h
    obtain ⟨⟨v, s1⟩, e1, h⟩ := bind_eq_ok.mp h
    obtain ⟨⟨rest, s2⟩, e2, h⟩ := bind_eq_ok.mp h
    injection h with h; injection h with _ h2; subst h2
    exact ih e2 (hl.look _ _ _ _ e1 ha)

omit [DecidableEq P] in
/-- Continuing the flow keeps the costs. -/
theorem Coherent.continue (hl : Lasting n preds A) (h : Coherent n preds A b) {s : DFlow} (hc : Continues n.data b.flow s) (ha : A s) {N : Nat → FRC} {H : List Nat} :
    Coherent n preds A { b with flow := s, netInflow := N, handle := H } := by
  obtain ⟨h1, h2, _⟩ := Props.continues_same h.reached hc
  refine ⟨h.net, h1, le_trans h.time h2, ha, fun p x hx => ?_⟩
  have := h.cache p x hx
  unfold costsNow at this ⊢
  simp only
  rw [hl.last p _ _ _ h.reached hc h.time h.good ha]
  exact this

theorem newInflow_fewer (hl : Lasting n preds A) {ord : List Nat → List Nat} : ∀ (vs : List Nat) {b b' : Builder P} {C : P → Option (List PL)} {d d' : List (Nat × Rates)},
    Coherent n preds A b → Fewer C b.cache → newInflow ord preds vs b d = .ok (d', b') →
    ∃ C', Coherent n preds A b' ∧ Fewer C' b'.cache ∧ newInflow ord preds vs { b with cache := C } d = .ok (d', { b' with cache := C' }) := by
  intro vs
  induction vs with
  | nil =>
    intro b b' C d d' h hC he
    injection he with he; injection he with h1 h2; subst h1; subst h2
    exact ⟨C, h, hC, rfl⟩
  | cons v vs ih =>
    intro b b' C d d' h hC he
    unfold newInflow at he ⊢
    simp only at he ⊢
    obtain ⟨⟨outs, s1⟩, e1, he⟩ := bind_eq_ok.mp he
    simp only at he
    obtain ⟨⟨net, c1⟩, e2, he⟩ := bind_eq_ok.mp he
    simp only at he
    obtain ⟨⟨d1, b2⟩, e3, he⟩ := bind_eq_ok.mp he
    simp only at he
    have h1 : Coherent n preds A { b with flow := s1, netInflow := setAt b.netInflow v c1 } :=
      Coherent.continue hl h (H := b.handle) (outflows_continues _ e1) (outflows_good hl _ e1 h.good)
    obtain ⟨A1, C1, C', k1, k2, k3, k4⟩ := distribute_fewer _ h1 hC e3
    have hC' : Fewer C' b2.cache := by rw [k1]; exact k3
    obtain ⟨C'', m1, m2, m3⟩ := ih k2 hC' he
    refine ⟨C'', m1, m2, ?_⟩
    rw [e1, ok_bind]
    simp only
    rw [e2, ok_bind]
    simp only
    rw [k4, ok_bind]
    exact m3

theorem popChanges_fewer : ∀ (fuel : Nat) {b b' : Builder P} {C : P → Option (List PL)}, popChanges fuel b = .ok b' →
    (∃ h l, b' = { b with changes := h, handle := l }) ∧ popChanges fuel { b with cache := C } = .ok { b' with cache := C } := by
  intro fuel
  induction fuel with
  | zero => intro b b' C h; cases h
  | succ fuel ih =>
    intro b b' C he
    unfold popChanges at he ⊢
    simp only at he ⊢
    obtain ⟨k, e1, he⟩ := bind_eq_ok.mp he
    rw [e1, ok_bind]
    by_cases hk : k ≤ ev b.flow.phi
    · rw [if_pos hk] at he ⊢
      obtain ⟨⟨h, x⟩, e2, he⟩ := bind_eq_ok.mp he
      obtain ⟨⟨h', l', g1⟩, g2⟩ := ih (C := C) he
      rw [e2, ok_bind]
      exact ⟨⟨h', l', g1⟩, g2⟩
    · rw [if_neg hk] at he ⊢
      injection he with he; subst he
      exact ⟨⟨_, _, rfl⟩, rfl⟩

theorem reroute_fewer (h : Coherent n preds A b) (hC : Fewer C b.cache) (he : reroute b = .ok b') :
    ∃ C', Coherent n preds A b' ∧ Fewer C' b'.cache ∧ reroute { b with cache := C } = .ok { b' with cache := C' } := by
  unfold reroute at he ⊢
  simp only at he ⊢
  split at he
  · cases he
  · rename_i d hd
    simp only [hd]
    by_cases hk : b.flow.phi ≥ b.nextReroute
    · rw [if_pos hk] at he
      rw [if_pos hk]
      injection he with he; subst he
      exact ⟨fun _ => none, ⟨h.net, h.reached, hk, h.good, (fun p x hx => by cases hx)⟩, (fun p x hx => by cases hx), by rw [← hd]⟩
    · rw [if_neg hk] at he
      rw [if_neg hk]
      injection he with he; subst he
      exact ⟨C, h, hC, by rw [← hd]⟩

/-- A round with some of the costs missing. -/
theorem prepare_fewer (hl : Lasting n preds A) {ord : List Nat → List Nat} (h : Coherent n preds A b) (hC : Fewer C b.cache) {l : List (Nat × Rates)} {T : ℚ}
    (he : prepare ord preds b = .ok (l, T, b')) :
    ∃ C', Coherent n preds A b' ∧ Fewer C' b'.cache ∧ prepare ord preds { b with cache := C } = .ok (l, T, { b' with cache := C' }) := by
  unfold prepare at he ⊢
  obtain ⟨b1, e1, he⟩ := bind_eq_ok.mp he
  obtain ⟨b2, e2, he⟩ := bind_eq_ok.mp he
  obtain ⟨⟨l', b3⟩, e3, he⟩ := bind_eq_ok.mp he
  simp only at he
  obtain ⟨k, e4, he⟩ := bind_eq_ok.mp he
  obtain ⟨T', e5, he⟩ := bind_eq_ok.mp he
  injection he with he; injection he with x1 x2; injection x2 with x2 x3
  subst x1; subst x2; subst x3
  obtain ⟨⟨hh, ll, g1⟩, g2⟩ := popChanges_fewer (C := C) _ e1
  have h1 : Coherent n preds A b1 := by subst g1; exact ⟨h.net, h.reached, h.time, h.good, h.cache⟩
  have hC1 : Fewer C b1.cache := by subst g1; exact hC
  obtain ⟨C2, k1, k2, k3⟩ := reroute_fewer h1 hC1 e2
  obtain ⟨C3, m1, m2, m3⟩ := newInflow_fewer hl _ k1 k2 e3
  refine ⟨C3, m1, m2, ?_⟩
  simp only
  rw [g2, ok_bind, k3, ok_bind]
  simp only
  rw [m3, ok_bind]
  simp only
  rw [e4, ok_bind, e5, ok_bind]
  rfl

theorem step_fewer (hn : InputOk n) {ord : List Nat → List Nat} (hord : OrderOk ord) (hp : PredictorsOk n preds) {d : ℚ} (hd : 0 < d) {f0 : DFlow}
    (hf0 : DFlow.init = .ok f0) {cs : List FlowCall} {hist : Nat → P → Option (List PL)} {K : Nat} {W : Nat × Nat × ℚ → Bool} (hl : Lasting n preds A)
    (hi : Inv n preds d f0 cs hist K W b) (h : Coherent n preds A b) (hC : Fewer C b.cache)
    (hclear : ∀ l T b', b.prepare ord preds = .ok (l, T, b') → ∀ p ∈ l, ∀ cur x, (b'.flow.inflow p.1).getValuesAtTime b'.flow.phi = .ok (cur, x) → cur.dictEq p.2 = false →
      Clear b'.net.data b'.flow p.1 p.2) (ha : ∀ b', step ord preds b = .ok b' → A b'.flow) :
    ∃ b1 C' cs1 h1 K1 W1, step ord preds b = .ok b1 ∧ Inv n preds d f0 cs1 h1 K1 W1 b1 ∧ Coherent n preds A b1 ∧ Fewer C' b1.cache ∧
      step ord preds { b with cache := C } = .ok { b1 with cache := C' } := by
  obtain ⟨l, T, b', cs1, hist1, k1, W1, H1, p1, p2, p3, p4⟩ := prepare_spec hn hord hp hd hf0 hi
  have hcl : ∀ p ∈ l, ∀ cur c, (b'.flow.inflow p.1).getValuesAtTime b'.flow.phi = .ok (cur, c) → cur.dictEq p.2 = false → Clear n.data b'.flow p.1 p.2 := by
    have := hclear l T b' p1
    rw [p3.static.net] at this; exact this
  obtain ⟨b1, s1, s2, _⟩ := step_spec hn p3 p1 hcl
  obtain ⟨C', c1, c2, c3⟩ := prepare_fewer hl h hC p1
  have ha1 := ha b1 s1
  have s1' := s1
  unfold step at s1'
  rw [p1, ok_bind] at s1'
  simp only at s1'
  obtain ⟨⟨f, changed⟩, e1, s1'⟩ := bind_eq_ok.mp s1'
  simp only at s1'
  obtain ⟨handle, e2, s1'⟩ := bind_eq_ok.mp s1'
  injection s1' with s1'
  subst s1'
  have hcont : Continues n.data b'.flow f := by
    have hs : stepFlow n.data b'.flow (.extend l T) = .ok f := by
      unfold stepFlow; simp only; rw [← p3.static.net, e1]; rfl
    refine ⟨[.extend l T], ⟨?_, fun _ _ => trivial⟩, ?_⟩
    · intro l' T' hc
      injection hc with hc1 hc2; subst hc1; subst hc2
      exact ⟨p3.time, p3.table.keys, p3.table.rates, hcl⟩
    · unfold runFlow; rw [hs]; rfl
  refine ⟨_, C', _, _, _, _, s1, s2, Coherent.continue hl c1 (N := b'.netInflow) hcont ha1, c2, ?_⟩
  unfold step
  rw [c3, ok_bind]
  simp only
  rw [e1, ok_bind]
  simp only
  rw [e2, ok_bind]
  rfl

end Builder

namespace Job
open Builder
variable {P : Type} [DecidableEq P] {n : Network P} {i : Nat}

/-- The jobs with number `i` differ only in cached costs that are missing from the first. -/
structure Behind (j a : Job P) : Prop where
  gen : j.gen = a.gen
  preds : j.preds = a.preds
  ord : j.ord = a.ord
  builder : ∃ C, j.builder = { a.builder with cache := C } ∧ Fewer C a.builder.cache

omit [DecidableEq P] in
theorem Behind.forget {j a : Job P} (h : Behind j a) : Behind j.forget a := by
  obtain ⟨C, h1, h2⟩ := h.builder
  refine ⟨h.gen, h.preds, h.ord, fun _ => none, ?_, (fun p x hx => by cases hx)⟩
  unfold Job.forget
  simp only [h1]

omit [DecidableEq P] in
theorem Behind.refl (j : Job P) : Behind j j := ⟨rfl, rfl, rfl, j.builder.cache, rfl, fun _ _ h => h⟩

/-- What job `i` yields in turn with others is what it yields alone, and it is left behind. -/
def Agrees (i : Nat) (w : List Nat) (J J' : Nat → Job P) : Prop :=
  ((w.zip (run w J).1).filter (fun p => p.1 = i)).map Prod.snd = (run (w.filter (· = i)) J').1 ∧
    Behind ((run w J).2 i) ((run (w.filter (· = i)) J').2 i)

theorem next_other {J : Nat → Job P} {x : Nat} (hx : x ≠ i) {a : Job P} (h : Behind (J i) a) : Behind ((next J x).1 i) a := by
  unfold next
  simp only
  rw [if_neg (Ne.symm hx)]
  split
  · exact h.forget
  · exact h

theorem agrees_other {J J' : Nat → Job P} {x : Nat} {w : List Nat} (hx : x ≠ i) (h : Agrees i w (next J x).1 J') : Agrees i (x :: w) J J' := by
  obtain ⟨h1, h2⟩ := h
  have hf : (x :: w).filter (· = i) = w.filter (· = i) := by simp [hx]
  unfold Agrees
  rw [hf]
  refine ⟨?_, h2⟩
  rw [← h1]
  simp [run, hx]

theorem agrees_own {J J' : Nat → Job P} {w : List Nat} (ho : (next J i).2 = (next J' i).2) (h : Agrees i w (next J i).1 (next J' i).1) : Agrees i (i :: w) J J' := by
  obtain ⟨h1, h2⟩ := h
  have hf : (i :: w).filter (· = i) = i :: w.filter (· = i) := by simp
  unfold Agrees
  rw [hf]
  refine ⟨?_, h2⟩
  simp only [run, List.zip_cons_cons, List.filter_cons, decide_true, if_true, List.map_cons]
  rw [h1, ho]

/-- What the first job yields alone: the flows after the rounds from `m` on. -/
def Yields (b0 : Builder P) (a : Job P) (m : Nat) (out : List (Except (Option Err) DFlow)) : Prop :=
  ∀ t < out.length, ∃ b, rounds a.ord a.preds (m + t) b0 = .ok b ∧ out[t]? = some (.ok b.flow)

theorem run_length : ∀ (w : List Nat) (J : Nat → Job P), (run w J).1.length = w.length := by
  intro w
  induction w with
  | nil => intro J; rfl
  | cons x w ih => intro J; simp [run, ih]

theorem running_agrees {d : ℚ} {f0 : DFlow} {A : DFlow → Prop} {ord : List Nat → List Nat} {preds : P → Predictor} {b0 : Builder P} {k : Nat} (hn : InputOk n) (hord : OrderOk ord)
    (hp : PredictorsOk n preds) (hd : 0 < d) (hf0 : DFlow.init = .ok f0) (hl : Lasting n preds A) (hcl : ClearRounds ord preds b0 k)
    (hA : ∀ m ≤ k, ∀ b, rounds ord preds m b0 = .ok b → A b.flow) :
    ∀ (w : List Nat) (J J' : Nat → Job P) (m : Nat) cs hist K W, (J' i).gen = .running → (J' i).preds = preds → (J' i).ord = ord → rounds ord preds m b0 = .ok (J' i).builder →
    Inv n preds d f0 cs hist K W (J' i).builder → Coherent n preds A (J' i).builder → m + w.count i ≤ k → Behind (J i) (J' i) →
    Agrees i w J J' ∧ Yields b0 (J' i) (m + 1) (run (w.filter (· = i)) J').1 := by
  intro w
  induction w with
  | nil => intro J J' m cs hist K W _ _ _ _ _ _ _ hb; exact ⟨⟨rfl, hb⟩, fun t ht => by simp [run] at ht⟩
  | cons x w ih =>
    intro J J' m cs hist K W hg hpr ho hm hi hco hk hb
    by_cases hx : x = i
    · subst hx
      rw [List.count_cons_self] at hk
      obtain ⟨C, hb1, hb2⟩ := hb.builder
      obtain ⟨b1, C', cs1, hist1, K1, W1, s1, s2, s3, s4, s5⟩ := step_fewer hn hord hp hd hf0 hl hi hco hb2 (hcl m (by omega) _ · · · hm)
        (fun b' hb' => hA (m + 1) (by omega) b' (by unfold rounds; rw [hm, ok_bind]; exact hb'))
      have hm1 : rounds ord preds (m + 1) b0 = .ok b1 := by unfold rounds; rw [hm, ok_bind]; exact s1
      have e1 : Builder.next (J' x).ord (J' x).preds (J' x).gen (J' x).builder = (.running, b1, .ok b1.flow) := by
        rw [hg, hpr, ho]; unfold Builder.next; simp only [s1]
      have e2 : Builder.next (J x).ord (J x).preds (J x).gen (J x).builder = (.running, { b1 with cache := C' }, .ok b1.flow) := by
        rw [hb.gen, hb.preds, hb.ord, hg, hpr, ho, hb1]; unfold Builder.next; simp only [s5]
      have n1 : (next J' x).2 = .ok b1.flow := by unfold next; simp only [e1]
      have n2 : (next J x).2 = .ok b1.flow := by unfold next; simp only [e2]
      have j1 : (next J' x).1 x = { J' x with gen := .running, builder := b1 } := by unfold next; simp only [e1, if_true]
      have j2 : (next J x).1 x = { J x with gen := .running, builder := { b1 with cache := C' } } := by unfold next; simp only [e2, if_true]
      obtain ⟨g1, g2⟩ := ih (next J x).1 (next J' x).1 (m + 1) cs1 hist1 K1 W1 (by rw [j1]) (by rw [j1]; exact hpr) (by rw [j1]; exact ho) (by rw [j1]; exact hm1) (by rw [j1]; exact s2)
        (by rw [j1]; exact s3) (by omega) (by rw [j1, j2]; exact ⟨rfl, hb.preds, hb.ord, C', rfl, s4⟩)
      refine ⟨agrees_own (n2.trans n1.symm) g1, ?_⟩
      have hf : (x :: w).filter (· = x) = x :: w.filter (· = x) := by simp
      rw [hf]
      intro t ht
      match t with
      | 0 => exact ⟨b1, by rw [ho, hpr]; exact hm1, by simp [run, n1]⟩
      | t + 1 =>
        simp only [run, List.length_cons] at ht
        obtain ⟨b, y1, y2⟩ := g2 t (by omega)
        rw [j1] at y1
        refine ⟨b, ?_, by simpa [run] using y2⟩
        have : m + 1 + (t + 1) = m + 1 + 1 + t := by omega
        rw [this]; exact y1
    · have hc : (x :: w).count i = w.count i := by rw [List.count_cons]; simp [hx]
      rw [hc] at hk
      obtain ⟨g1, g2⟩ := ih (next J x).1 J' m cs hist K W hg hpr ho hm hi hco hk (next_other hx hb)
      refine ⟨agrees_other hx g1, ?_⟩
      have hf : (x :: w).filter (· = i) = w.filter (· = i) := by simp [hx]
      rw [hf]; exact g2

theorem fresh_agrees {d : ℚ} {f0 : DFlow} {A : DFlow → Prop} {ord : List Nat → List Nat} {preds : P → Predictor} {bi : Builder P} {k : Nat} (hn : InputOk n) (hord : OrderOk ord)
    (hp : PredictorsOk n preds) (hd : 0 < d) (hf0 : DFlow.init = .ok f0) (hl : Lasting n preds A) (hcl : ClearRounds ord preds { bi with built := true } k)
    (hA : ∀ m ≤ k, ∀ b, rounds ord preds m { bi with built := true } = .ok b → A b.flow) {cs : List FlowCall} {hist : Nat → P → Option (List PL)} {K : Nat} {W : Nat × Nat × ℚ → Bool}
    (hi : Inv n preds d f0 cs hist K W { bi with built := true }) (hco : Coherent n preds A { bi with built := true }) (hbu : bi.built = false) :
    ∀ (w : List Nat) (J J' : Nat → Job P), (J' i).gen = .fresh → (J' i).preds = preds → (J' i).ord = ord → (J' i).builder = bi → w.count i ≤ k + 1 → Behind (J i) (J' i) →
    Agrees i w J J' ∧ Yields { bi with built := true } (J' i) 0 (run (w.filter (· = i)) J').1 := by
  intro w
  induction w with
  | nil => intro J J' _ _ _ _ _ hb; exact ⟨⟨rfl, hb⟩, fun t ht => by simp [run] at ht⟩
  | cons x w ih =>
    intro J J' hg hpr ho hm hk hb
    by_cases hx : x = i
    · subst hx
      rw [List.count_cons_self] at hk
      obtain ⟨C, hb1, hb2⟩ := hb.builder
      rw [hm] at hb1 hb2
      have e1 : Builder.next (J' x).ord (J' x).preds (J' x).gen (J' x).builder = (.running, { bi with built := true }, .ok bi.flow) := by
        rw [hg, hm]; unfold Builder.next; simp only [hbu]; rfl
      have e2 : Builder.next (J x).ord (J x).preds (J x).gen (J x).builder = (.running, { bi with built := true, cache := C }, .ok bi.flow) := by
        rw [hb.gen, hg, hb1]; unfold Builder.next; simp only [hbu]; rfl
      have n1 : (next J' x).2 = .ok bi.flow := by unfold next; simp only [e1]
      have n2 : (next J x).2 = .ok bi.flow := by unfold next; simp only [e2]
      have j1 : (next J' x).1 x = { J' x with gen := .running, builder := { bi with built := true } } := by unfold next; simp only [e1, if_true]
      have j2 : (next J x).1 x = { J x with gen := .running, builder := { bi with built := true, cache := C } } := by unfold next; simp only [e2, if_true]
      obtain ⟨g1, g2⟩ := running_agrees hn hord hp hd hf0 hl hcl hA w (next J x).1 (next J' x).1 0 cs hist K W (by rw [j1]) (by rw [j1]; exact hpr) (by rw [j1]; exact ho)
        (by rw [j1]; rfl) (by rw [j1]; exact hi) (by rw [j1]; exact hco) (by omega) (by rw [j1, j2]; exact ⟨rfl, hb.preds, hb.ord, C, rfl, hb2⟩)
      refine ⟨agrees_own (n2.trans n1.symm) g1, ?_⟩
      have hf : (x :: w).filter (· = x) = x :: w.filter (· = x) := by simp
      rw [hf]
      intro t ht
      match t with
      | 0 => exact ⟨{ bi with built := true }, rfl, by simp [run, n1]⟩
      | t + 1 =>
        simp only [run, List.length_cons] at ht
        obtain ⟨b, y1, y2⟩ := g2 t (by omega)
        rw [j1] at y1
        refine ⟨b, ?_, by simpa [run] using y2⟩
        have : 0 + (t + 1) = 0 + 1 + t := by omega
        rw [this]; exact y1
    · have hc : (x :: w).count i = w.count i := by rw [List.count_cons]; simp [hx]
      rw [hc] at hk
      obtain ⟨g1, g2⟩ := ih (next J x).1 J' hg hpr ho hm hk (next_other hx hb)
      refine ⟨agrees_other hx g1, ?_⟩
      have hf : (x :: w).filter (· = i) = w.filter (· = i) := by simp [hx]
      rw [hf]; exact g2

end Job
end Verif
