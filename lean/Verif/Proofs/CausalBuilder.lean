import Verif.Spec.Causal
import Verif.Proofs.TwinBuilder
import Verif.Proofs.CausalFlow

/-! What is built until some time follows from the demands until then: rounds. -/

namespace Verif
open Spec

theorem minKey_causal {h h' : Heap EVal (Nat × Nat × ℚ)} {W W' : Nat × Nat × ℚ → Bool} (hr : h.Rep (Builder.wmap W)) (hr' : h'.Rep (Builder.wmap W')) {T : ℚ}
    (hag : ∀ x, x.2.2 < T → W x = W' x) {k k' : EVal} (hk : h.minKey = .ok k) (hk' : h'.minKey = .ok k') : k = k' ∨ (ev T ≤ k ∧ ev T ≤ k') := by
  obtain ⟨k1, a1, a2, a3⟩ := hr.minKey
  rw [hk] at a1; injection a1 with a1; subst a1
  obtain ⟨k2, b1, b2, b3⟩ := hr'.minKey
  rw [hk'] at b1; injection b1 with b1; subst b1
  have low : ∀ {V V' : Nat × Nat × ℚ → Bool} {a b : EVal}, (∀ x, x.2.2 < T → V x = V' x) → (∀ x k, Builder.wmap V' x = some k → b ≤ k) →
      ((∃ x, Builder.wmap V x = some a) ∨ a = ⊤) → a < ev T → b ≤ a := by
    intro V V' a b hV hb ha hlt
    rcases ha with ⟨x, hx⟩ | rfl
    · have hVx : V x = true := by by_contra hc; simp [Builder.wmap, hc] at hx
      have hax : a = ev x.2.2 := by simp only [Builder.wmap, hVx, if_true] at hx; injection hx with hx; exact hx.symm
      have hxT : x.2.2 < T := by
        by_contra hc
        rw [hax] at hlt
        exact absurd (ev_le.mpr (not_lt.mp hc)) (not_le.mpr hlt)
      refine hb x a ?_
      rw [← hx]
      simp only [Builder.wmap, hV x hxT]
    · exact absurd le_top (not_le.mpr hlt)
  by_cases h1 : k < ev T
  · have g1 := low hag b2 (a3.imp_right And.left) h1
    have g2 := low (fun x hx => (hag x hx).symm) a2 (b3.imp_right And.left) (lt_of_le_of_lt g1 h1)
    exact Or.inl (le_antisymm g2 g1)
  · by_cases h2 : k' < ev T
    · have g2 := low (fun x hx => (hag x hx).symm) a2 (b3.imp_right And.left) h2
      exact absurd (lt_of_le_of_lt g2 h2) h1
    · exact Or.inr ⟨not_lt.mp h1, not_lt.mp h2⟩

theorem DFlow.twin_agree {net : EdgeData} {s t : DFlow} (h : DFlow.Twin net s t) (x : ℚ) : DFlow.Agree s t x := by
  obtain ⟨P, C, Q, D, _, _, tw, _⟩ := h.loc
  have h1 : ∀ e, (s.inflow e).funs = (t.inflow e).funs := fun e => (tw e).inflow.funs
  have h2 : ∀ e, (s.inflow e).acc = (t.inflow e).acc := fun e => (tw e).inflow.acc
  have h3 : ∀ e, (s.outflow e).funs = (t.outflow e).funs := fun e => (tw e).outflow.funs
  have h4 : ∀ e, (s.outflow e).acc = (t.outflow e).acc := fun e => (tw e).outflow.acc
  have h5 : ∀ e, s.queues e = t.queues e := fun e => (tw e).queue
  exact ⟨fun e => ⟨fun _ _ _ _ => by rw [h1], fun _ _ => by rw [h2]⟩, fun e => ⟨fun _ _ _ _ => by rw [h3], fun _ _ => by rw [h4]⟩, fun e _ _ => by rw [h5]⟩

namespace Builder
variable {P : Type} {n : Network P} {preds : P → Predictor} {ds : List (Commodity P)} {T0 : ℚ}

theorem same_at (hs : List.Forall₂ (SameCommodity T0) n.commodities ds) (i : Nat) :
    (n.commodities[i]? = none ∧ ds[i]? = none) ∨ ∃ c c', n.commodities[i]? = some c ∧ ds[i]? = some c' ∧ SameCommodity T0 c c' := by
  generalize n.commodities = cs at hs
  induction hs generalizing i with
  | nil => left; simp
  | cons h _ ih =>
    cases i with
    | zero => right; exact ⟨_, _, rfl, rfl, h⟩
    | succ i => simpa using ih i

theorem same_lookup {l l' : List (Nat × RC)} (h : List.Forall₂ (fun s s' => s.1 = s'.1 ∧ SameSteps T0 s.2 s'.2) l l') (v : Nat) :
    (l.lookup v = none ∧ l'.lookup v = none) ∨ ∃ f f', l.lookup v = some f ∧ l'.lookup v = some f' ∧ SameSteps T0 f f' := by
  induction h with
  | nil => left; exact ⟨rfl, rfl⟩
  | @cons a b l l' hab _ ih =>
    obtain ⟨a1, a2⟩ := a
    obtain ⟨b1, b2⟩ := b
    simp only at hab
    obtain ⟨rfl, hab⟩ := hab
    simp only [List.lookup_cons]
    cases hv : v == a1 with
    | true => right; exact ⟨_, _, rfl, rfl, hab⟩
    | false => exact ih

theorem same_rate (hs : List.Forall₂ (SameCommodity T0) n.commodities ds) (v i : Nat) {t : ℚ} (ht : t < T0) :
    networkRate n v i t = networkRate { n with commodities := ds } v i t := by
  unfold networkRate
  rcases same_at hs i with ⟨h1, h2⟩ | ⟨c, c', h1, h2, h3⟩
  · simp only [h1, h2]
  · simp only [h1, h2]
    rcases same_lookup h3.sources v with ⟨g1, g2⟩ | ⟨f, f', g1, g2, g3⟩
    · rw [g1, g2]
    · rw [g1, g2]; exact g3.values t ht

theorem same_arriving (hs : List.Forall₂ (SameCommodity T0) n.commodities ds) (f : DFlow) (v i : Nat) {t : ℚ} (ht : t < T0) :
    arriving n f v i t = arriving { n with commodities := ds } f v i t := by
  unfold arriving
  rw [same_rate hs v i ht]

theorem same_sink (hs : List.Forall₂ (SameCommodity T0) n.commodities ds) (i v : Nat) : IsSink n i v ↔ IsSink { n with commodities := ds } i v := by
  unfold IsSink
  rcases same_at hs i with ⟨h1, h2⟩ | ⟨c, c', h1, h2, h3⟩
  · simp only [h1, h2]
  · simp only [h1, h2]
    constructor
    · rintro ⟨x, hx, hv⟩; injection hx with hx; subst hx; exact ⟨c', rfl, h3.sink.symm.trans hv⟩
    · rintro ⟨x, hx, hv⟩; injection hx with hx; subst hx; exact ⟨c, rfl, h3.sink.trans hv⟩

theorem same_user (hs : List.Forall₂ (SameCommodity T0) n.commodities ds) (i : Nat) (q : P) :
    (∃ c, n.commodities[i]? = some c ∧ c.predictor = q) ↔ ∃ c, ds[i]? = some c ∧ c.predictor = q := by
  rcases same_at hs i with ⟨h1, h2⟩ | ⟨c, c', h1, h2, h3⟩
  · simp only [h1, h2]
  · simp only [h1, h2]
    constructor
    · rintro ⟨x, hx, hv⟩; injection hx with hx; subst hx; exact ⟨c', rfl, h3.predictor.symm.trans hv⟩
    · rintro ⟨x, hx, hv⟩; injection hx with hx; subst hx; exact ⟨c, rfl, h3.predictor.trans hv⟩

theorem same_break (hs : List.Forall₂ (SameCommodity T0) n.commodities ds) (x : Nat × Nat × ℚ) (hx : x.2.2 < T0) : Break n.commodities x ↔ Break ds x := by
  unfold Break
  rcases same_at hs x.1 with ⟨h1, h2⟩ | ⟨c, c', h1, h2, h3⟩
  · simp only [h1, h2]
  · simp only [h1, h2]
    have key : ∀ {l l' : List (Nat × RC)}, List.Forall₂ (fun s s' => s.1 = s'.1 ∧ SameSteps T0 s.2 s'.2) l l' →
        ((∃ f, (x.2.1, f) ∈ l ∧ x.2.2 ∈ f.times) ↔ ∃ f, (x.2.1, f) ∈ l' ∧ x.2.2 ∈ f.times) := by
      intro l l' h
      induction h with
      | nil => simp
      | @cons a b l l' hab _ ih =>
        obtain ⟨a1, a2⟩ := a
        obtain ⟨b1, b2⟩ := b
        simp only at hab
        obtain ⟨rfl, hab⟩ := hab
        constructor
        · rintro ⟨f, hf, hxf⟩
          rcases List.mem_cons.mp hf with hf | hf
          · injection hf with hf1 hf2; subst hf2
            exact ⟨b2, by rw [hf1]; simp, (hab.steps _ hx).mp hxf⟩
          · obtain ⟨g, hg, hxg⟩ := ih.mp ⟨f, hf, hxf⟩
            exact ⟨g, List.mem_cons_of_mem _ hg, hxg⟩
        · rintro ⟨f, hf, hxf⟩
          rcases List.mem_cons.mp hf with hf | hf
          · injection hf with hf1 hf2; subst hf2
            exact ⟨a2, by rw [hf1]; simp, (hab.steps _ hx).mpr hxf⟩
          · obtain ⟨g, hg, hxg⟩ := ih.mpr ⟨f, hf, hxf⟩
            exact ⟨g, List.mem_cons_of_mem _ hg, hxg⟩
    constructor
    · rintro ⟨d, f, hd, hf⟩; injection hd with hd; subst hd
      obtain ⟨g, hg⟩ := (key h3.sources).mp ⟨f, hf⟩
      exact ⟨c', g, rfl, hg⟩
    · rintro ⟨d, f, hd, hf⟩; injection hd with hd; subst hd
      obtain ⟨g, hg⟩ := (key h3.sources).mpr ⟨f, hf⟩
      exact ⟨c, g, rfl, hg⟩

theorem same_act (hs : List.Forall₂ (SameCommodity T0) n.commodities ds) (imp : List (List Nat)) (t : ℚ) (i v : Nat) (costs : List PL) :
    actOf n imp preds t i v costs = actOf { n with commodities := ds } imp preds t i v costs := by
  unfold actOf
  rcases same_at hs i with ⟨h1, h2⟩ | ⟨c, c', h1, h2, h3⟩
  · unfold rd; simp only [h1, h2]
  · rw [rd_eq_ok.mpr h1, ok_bind]
    rw [rd_eq_ok.mpr h2, ok_bind]
    rw [h3.sink, h3.predictor]

theorem same_fixed (hs : List.Forall₂ (SameCommodity T0) n.commodities ds) {imp : List (List Nat)} {t : ℚ} {R : P → Py (List PL)} {i v : Nat} {S : List Nat}
    (h : Fixed { n with commodities := ds } imp preds t R i v S) : Fixed n imp preds t R i v S := by
  obtain ⟨c', costs, h1, h2, h3⟩ := h
  rcases same_at hs i with ⟨_, g2⟩ | ⟨c, c'', g1, g2, g3⟩
  · simp only at h1; rw [g2] at h1; cases h1
  · simp only at h1; rw [g2] at h1; injection h1 with h1; subst h1
    exact ⟨c, costs, g1, by rw [g3.predictor]; exact h2, by rw [same_act hs]; exact h3⟩

theorem same_entry (hs : List.Forall₂ (SameCommodity T0) n.commodities ds) {imp : List (List Nat)} {t : ℚ} {R : P → Py (List PL)} {f : DFlow} (hf : f.phi < T0) {v k i : Nat} {x : ℚ}
    (h : Entry { n with commodities := ds } imp preds t R f v k i x) : Entry n imp preds t R f v k i x := by
  unfold Entry at h ⊢
  rw [same_sink hs, same_arriving hs f v i hf]
  refine ⟨h.1, fun h1 h2 => ?_⟩
  obtain ⟨S, g1, g2⟩ := h.2 h1 h2
  exact ⟨S, same_fixed hs g1, g2⟩

theorem same_share (hs : List.Forall₂ (SameCommodity T0) n.commodities ds) {imp : List (List Nat)} (h : Share n imp preds) : Share { n with commodities := ds } imp preds := by
  intro i j c c' hi hj hp hk hsk
  rcases same_at hs i with ⟨_, g2⟩ | ⟨a, a', g1, g2, g3⟩
  · simp only at hi; rw [g2] at hi; cases hi
  rcases same_at hs j with ⟨_, k2⟩ | ⟨b, b', k1, k2, k3⟩
  · simp only at hj; rw [k2] at hj; cases hj
  simp only at hi hj
  rw [g2] at hi; injection hi with hi; subst hi
  rw [k2] at hj; injection hj with hj; subst hj
  exact h i j a b g1 k1 (by rw [g3.predictor, k3.predictor, hp]) (by rw [g3.predictor]; exact hk) (by rw [g3.sink, k3.sink, hsk])

theorem same_important (g : Graph) {c c' : Commodity P} (h : SameCommodity T0 c c') : importantOf g c = importantOf g c' := by
  unfold importantOf
  rw [h.sink]
  have : mapPy (fun s : Nat × RC => g.reachableNodes s.1) c.sources = mapPy (fun s => g.reachableNodes s.1) c'.sources := by
    have := h.sources
    generalize c.sources = l at this
    generalize c'.sources = l' at this
    induction this with
    | nil => rfl
    | cons hab _ ih => unfold mapPy; rw [hab.1, ih]
  rw [this]

variable [DecidableEq P]

omit [DecidableEq P] in
theorem heads_mem {n : Network P} : ∀ {es hs : List Nat}, mapPy (fun e => do
    let r ← rd n.graph.edges e
    pure (n.graph.nodeTo r)) es = .ok hs → ∀ v, v ∈ hs ↔ ∃ e ∈ es, ∃ r, n.graph.edges[e]? = some r ∧ n.graph.nodeTo r = v := by
  intro es
  induction es with
  | nil => intro hs h v; injection h with h; subst h; simp
  | cons e es ih =>
    intro hs h v
    unfold mapPy at h
    obtain ⟨w, k1, h⟩ := bind_eq_ok.mp h
    obtain ⟨rest, k2, h⟩ := bind_eq_ok.mp h
    injection h with h; subst h
    obtain ⟨r, k3, k4⟩ := bind_eq_ok.mp k1
    injection k4 with k4; subst k4
    rw [List.mem_cons, ih k2 v]
    simp only [List.mem_cons, exists_eq_or_imp]
    have : v = n.graph.nodeTo r ↔ ∃ r, n.graph.edges[e]? = some r ∧ n.graph.nodeTo r = v := by
      constructor
      · intro h; exact ⟨r, rd_eq_ok.mp k3, h.symm⟩
      · rintro ⟨r', h1, h2⟩
        rw [rd_eq_ok.mp k3] at h1; injection h1 with h1; subst h1; exact h2.symm
    rw [this]

/-- Builders that cannot be told apart before time `T0`, though what they will read from then on may differ. -/
structure CTwin (n : Network P) (ds : List (Commodity P)) (T0 : ℚ) (imp : List (List Nat)) (preds : P → Predictor) (b c : Builder P) : Prop where
  imp1 : b.important = imp
  imp2 : c.important = imp
  next : b.nextReroute = c.nextReroute
  route : b.route = c.route
  cache : b.cache = c.cache
  act1 : ActDet n imp preds b
  act2 : ActDet { n with commodities := ds } imp preds c
  flow : DFlow.Twin n.data b.flow c.flow
  handle : ∀ v, v ∈ b.handle ↔ v ∈ c.handle
  heap : ∃ W W', b.changes.Rep (wmap W) ∧ c.changes.Rep (wmap W') ∧ (∀ x, W x = true → Break n.commodities x) ∧ (∀ x, W' x = true → Break ds x) ∧
    ∀ x, x.2.2 < T0 → W x = W' x

/-- One round of two such builders: they stay alike, or both get to `T0` with the same past. -/
theorem step_causal (hs : List.Forall₂ (SameCommodity T0) n.commodities ds) (hn : InputOk n) (hn' : InputOk { n with commodities := ds }) {imp : List (List Nat)} (hsh : Share n imp preds)
    {ord ord' : List Nat → List Nat} (hord : OrderOk ord) (hord' : OrderOk ord') (hp : PredictorsOk n preds) (hp' : PredictorsOk { n with commodities := ds } preds)
    (hbl : ∀ s s', DFlow.Twin n.data s s' → ∀ p t, (preds p).predict t s = (preds p).predict t s')
    {d : ℚ} (hd : 0 < d) {f0 : DFlow} (hf0 : DFlow.init = .ok f0) {cs cs' : List FlowCall} {hist hist' : Nat → P → Option (List PL)} {K K' : Nat} {W W' : Nat × Nat × ℚ → Bool}
    {b c : Builder P} (hb : Inv n preds d f0 cs hist K W b) (hc : Inv { n with commodities := ds } preds d f0 cs' hist' K' W' c) (tw : CTwin n ds T0 imp preds b c)
    (hT0 : b.flow.phi < T0)
    (hclear : ∀ l T b', b.prepare ord preds = .ok (l, T, b') → ∀ p ∈ l, ∀ cur x, (b'.flow.inflow p.1).getValuesAtTime b'.flow.phi = .ok (cur, x) → cur.dictEq p.2 = false →
      Clear b'.net.data b'.flow p.1 p.2)
    (hclear' : ∀ l T c', c.prepare ord' preds = .ok (l, T, c') → ∀ p ∈ l, ∀ cur x, (c'.flow.inflow p.1).getValuesAtTime c'.flow.phi = .ok (cur, x) → cur.dictEq p.2 = false →
      Clear c'.net.data c'.flow p.1 p.2) {b1 c1 : Builder P} (hb1 : b.step ord preds = .ok b1) (hc1 : c.step ord' preds = .ok c1) :
    CTwin n ds T0 imp preds b1 c1 ∨ (T0 ≤ b1.flow.phi ∧ T0 ≤ c1.flow.phi ∧ DFlow.Agree b1.flow c1.flow T0) := by
  classical
  have hT0' : c.flow.phi < T0 := tw.flow.phi ▸ hT0
  obtain ⟨l, T, b', cs1, hist1, k1, W1, H1, p1, p2, p3, p4⟩ := prepare_spec hn hord hp hd hf0 hb
  obtain ⟨m, U, c', cs2, hist2, k2, W2, H2, q1, q2, q3, q4⟩ := prepare_spec hn' hord' hp' hd hf0 hc
  obtain ⟨V, V', hV1, hV2, hVb, hVb', hVV⟩ := tw.heap
  obtain ⟨a1, a2, a3, a4, a5, a6, a7, ⟨X1, a8, a9⟩, kb, a10, a11⟩ := prepare_det hn hsh hord hb hV1 hVb tw.imp1 tw.act1 tw.flow (fun s hs p t => hbl s _ hs p t) p1
  obtain ⟨e1, e2, e3, e4, e5, e6, e7, ⟨X2, e8, e9⟩, kc, e10, e11⟩ := prepare_det hn' (same_share hs hsh) hord' hc hV2 hVb' tw.imp2 tw.act2 a2.symm (fun s hs p t => hbl s _ hs p t) q1
  -- the same data
  have hdue : Due b ↔ Due c := by unfold Due; rw [tw.flow.phi, tw.next]
  have hkept : kept b = kept c := by unfold kept; simp only [hdue, tw.cache]
  have hsince : since b = since c := by unfold since; simp only [hdue, tw.next, tw.route]
  have hcosts : costsOf n preds (since b) c.flow (kept b) = costsOf { n with commodities := ds } preds (since c) b'.flow (kept c) := by
    funext q
    rw [hkept, hsince]
    unfold costsOf
    split
    · rfl
    · unfold costsNow; rw [hbl _ _ a2]; rfl
  have hhand : ∀ v, Handled n V b v ↔ Handled { n with commodities := ds } V' c v := by
    intro v; unfold Handled; rw [hdue, tw.handle v, tw.flow.phi]
    have : (∃ x, V x = true ∧ x.2.1 = v ∧ x.2.2 ≤ c.flow.phi) ↔ ∃ x, V' x = true ∧ x.2.1 = v ∧ x.2.2 ≤ c.flow.phi := by
      constructor
      · rintro ⟨x, h1, h2, h3⟩; exact ⟨x, by rw [← hVV x (lt_of_le_of_lt h3 hT0')]; exact h1, h2, h3⟩
      · rintro ⟨x, h1, h2, h3⟩; exact ⟨x, by rw [hVV x (lt_of_le_of_lt h3 hT0')]; exact h1, h2, h3⟩
    rw [this]
  have harr : ∀ v i, arriving n b.flow v i b.flow.phi = arriving n c.flow v i c.flow.phi := arriving_twin tw.flow
  have hX : ∀ x, x.2.2 < T0 → X1 x = X2 x := by
    intro x hx
    have : X1 x = true ↔ X2 x = true := by rw [a9, e9, tw.flow.phi, hVV x hx]
    exact Bool.eq_iff_iff.mpr this
  have hnext : b'.nextReroute = c'.nextReroute := by rw [a7, e7, tw.next]; simp only [hdue]
  have hbound : T = U ∨ (T0 ≤ T ∧ T0 ≤ U) := by
    have hfin : ∀ {x : EVal} {y : ℚ}, x.toRat = .ok y → x = ev y := by
      intro x y h
      cases x with
      | none => cases h
      | some x =>
        cases x with
        | top => cases h
        | coe x => injection h with h; rw [← h]; rfl
    have g1 := hfin a11
    have g2 := hfin e11
    rw [hnext] at g1
    rcases minKey_causal a8 e8 hX a10 e10 with hk | ⟨hk1, hk2⟩
    · left; rw [hk, g2] at g1; exact (ev_inj g1).symm
    · rcases lt_or_ge c'.nextReroute T0 with hlt | hge
      · left
        have z := ev_le.mpr hlt.le
        rw [min_eq_left (le_trans z hk1)] at g1
        rw [min_eq_left (le_trans z hk2), g1] at g2
        exact ev_inj g2
      · right
        have z := ev_le.mpr hge
        exact ⟨ev_le.mp (g1 ▸ le_min z hk1), ev_le.mp (g2 ▸ le_min z hk2)⟩
  have hkeys : ∀ j, j ∈ l.map Prod.fst ↔ j ∈ m.map Prod.fst := by
    intro j; rw [a5, e5]; simp only [hhand]
  have hnone : ∀ (t : List (Nat × Rates)) (j : Nat), t.lookup j = none ↔ j ∉ t.map Prod.fst := by
    intro t j
    rw [← lookup_isSome]
    cases t.lookup j <;> simp
  have htab : DFlow.SameTable l m := by
    refine ⟨a3.keys, e3.keys, ?_, ?_⟩
    · intro j; rw [hnone, hnone, hkeys]
    · intro j v w hv hw
      refine sameDict_of_get (a3.rates _ (FRC.mem_of_lookup hv)) (e3.rates _ (FRC.mem_of_lookup hw)) (fun i => ?_)
      have hj : j ∈ l.map Prod.fst := List.mem_map.mpr ⟨_, FRC.mem_of_lookup hv, rfl⟩
      obtain ⟨u, hu, e, heo, hid⟩ := (a5 j).mp hj
      have y1 := a6 u hu e heo i
      have y2 := same_entry hs hT0' (e6 u ((hhand u).mp hu) e heo i)
      rw [← hcosts, ← hsince] at y2
      have := Entry.unique tw.flow.phi harr y1 y2
      unfold val at this
      simp only at this
      rw [hid, hv, hw] at this
      exact this
  -- twins after reading
  have htw' : DFlow.Twin n.data b'.flow c'.flow := e2.symm
  have hclearb : ∀ p ∈ l, ∀ cur x, (b'.flow.inflow p.1).getValuesAtTime b'.flow.phi = .ok (cur, x) → cur.dictEq p.2 = false → Clear n.data b'.flow p.1 p.2 := by
    have := hclear l T b' p1
    rw [p3.static.net] at this; exact this
  have hclearc : ∀ p ∈ m, ∀ cur x, (c'.flow.inflow p.1).getValuesAtTime c'.flow.phi = .ok (cur, x) → cur.dictEq p.2 = false → Clear n.data c'.flow p.1 p.2 := by
    have := hclear' m U c' q1
    rw [q3.static.net] at this; exact this
  unfold step at hb1 hc1
  rw [p1, ok_bind] at hb1
  rw [q1, ok_bind] at hc1
  simp only [p3.static.net] at hb1
  simp only [q3.static.net] at hc1
  obtain ⟨⟨g, ch⟩, x1, hb1⟩ := bind_eq_ok.mp hb1
  obtain ⟨⟨g', ch'⟩, y1, hc1⟩ := bind_eq_ok.mp hc1
  simp only at hb1 hc1
  obtain ⟨hs1, x2, hb1⟩ := bind_eq_ok.mp hb1
  obtain ⟨hs2, y2, hc1⟩ := bind_eq_ok.mp hc1
  injection hb1 with hb1; subst hb1
  injection hc1 with hc1; subst hc1
  obtain ⟨t', dh, z1, z2, z3⟩ := DFlow.extend_twin (netOk hn) htw' p3.flow.safe htab p3.time x1
  have hcache : b'.cache = c'.cache := by
    funext q
    have h1 := a4 q
    have h2 := e4 q
    rw [← hkept] at h2
    have h12 : b'.cache q ≠ none ↔ c'.cache q ≠ none := by
      rw [h1, h2]; simp only [hhand, harr, same_sink hs, same_arriving hs _ _ _ hT0', same_user hs]
    cases hbq : b'.cache q with
    | none =>
      cases hcq : c'.cache q with
      | none => rfl
      | some y => exact absurd hbq (h12.mpr (by rw [hcq]; simp))
    | some x =>
      cases hcq : c'.cache q with
      | none => exact absurd hcq (h12.mp (by rw [hbq]; simp))
      | some y =>
        have z1 := a1.cache q x hbq
        have z2 := e1.cache q y hcq
        rw [hcosts, z2] at z1
        injection z1 with z1; rw [z1]
  have hgoal : DFlow.Twin n.data g g' → (∀ e, e ∈ ch ↔ e ∈ ch') → CTwin n ds T0 imp preds { b' with net := n, flow := g, handle := hs1 } { c' with net := { n with commodities := ds }, flow := g', handle := hs2 } := by
    intro z2 z3
    refine ⟨a1.important, e1.important, hnext, ?_, hcache, ?_, ?_, z2, ?_, X1, X2, a8, e8, ?_, ?_, hX⟩
    · simp only; rw [a1.route, e1.route, hsince]
    · intro i v a ha
      simp only
      rw [a1.route]
      exact a1.active i v a ha
    · intro i v a ha
      simp only
      rw [e1.route]
      exact e1.active i v a ha
    · intro v
      simp only
      rw [heads_mem x2, heads_mem (n := n) y2]
      simp only [z3]
    · intro x hx; exact hVb x ((a9 x).mp hx).1
    · intro x hx; exact hVb' x ((e9 x).mp hx).1
  rcases hbound with hTU | ⟨hT, hU⟩
  · subst hTU
    have y1' : c'.flow.extend n.data m T = .ok (g', ch') := y1
    rw [z1] at y1'; injection y1' with y1'; injection y1' with w1 w2; subst w1; subst w2
    exact Or.inl (hgoal z2 z3)
  · obtain ⟨Q, C, hx, _⟩ := q3.flow.exact
    have hcphi : c'.flow.phi = c.flow.phi := q3.same.phi
    have hcall : CallOk n.data c'.flow m U := ⟨q3.time, q3.table.keys, q3.table.rates, hclearc⟩
    rcases DFlow.extend_bounds (netOk hn) hx (by rw [hcphi]; exact hT0'.le) hU hT hcall y1 z1 with ⟨w1, w2⟩ | ⟨w1, w2, M, w3, w4⟩
    · subst w1; subst w2
      exact Or.inl (hgoal z2 z3)
    · right
      refine ⟨by simp only; rw [z2.phi]; exact w2, w1, ?_⟩
      exact (DFlow.twin_agree z2 T0).trans (w4.symm.trans w3)

theorem callsOk_rest {D : EdgeData} : ∀ (l m : List FlowCall) {s s' : DFlow}, CallsOk D s (l ++ m) → runFlow D s l = .ok s' → CallsOk D s' m := by
  intro l
  induction l with
  | nil => intro m s s' h hr; injection hr with hr; subst hr; exact h
  | cons c l ih =>
    intro m s s' h hr
    unfold runFlow at hr
    obtain ⟨s1, e1, hr⟩ := bind_eq_ok.mp hr
    exact ih m (h.2 s1 e1) hr

/-- More rounds do not change what was recorded. -/
theorem rounds_past (hn : InputOk n) {ord : List Nat → List Nat} (hord : OrderOk ord) (hp : PredictorsOk n preds) {d : ℚ} (hd : 0 < d) {f0 : DFlow} (hf0 : DFlow.init = .ok f0)
    {b0 : Builder P} {W0 : Nat × Nat × ℚ → Bool} (h0 : Inv n preds d f0 [] (fun _ _ => none) 0 W0 b0) {k : Nat} (hcl : ClearRounds ord preds b0 k) : ∀ (r j : Nat), j + r = k → ∀ {a b : Builder P}, rounds ord preds j b0 = .ok a → rounds ord preds k b0 = .ok b →
    a.flow.phi ≤ b.flow.phi ∧ DFlow.Agree a.flow b.flow a.flow.phi := by
  intro r
  induction r with
  | zero => intro j hj a b ha hb; rw [Nat.add_zero] at hj; subst hj; rw [ha] at hb; injection hb with hb; subst hb; exact ⟨le_rfl, .refl _ _⟩
  | succ r ih =>
    intro j hj a b ha hb
    obtain ⟨a', cs, hist, K, W, r1, r2, _⟩ := inv_rounds hn hord hp hd hf0 h0 j (fun m hm => hcl m (by omega))
    rw [ha] at r1; injection r1 with r1; subst r1
    obtain ⟨l, T, b', cs', hist', k', W', H, p1, ⟨suf, p2⟩, p3, p4⟩ := prepare_spec hn hord hp hd hf0 r2
    obtain ⟨b'', s1, s2, s3, _⟩ := step_spec hn p3 p1 (by
      have := hcl j (by omega) a l T b' ha p1
      rw [p3.static.net] at this; exact this)
    have hnext : rounds ord preds (j + 1) b0 = .ok b'' := by unfold rounds; rw [ha, ok_bind]; exact s1
    obtain ⟨t1, t2⟩ := ih (j + 1) (by omega) hnext hb
    obtain ⟨s0, e0, _, g1, g2⟩ := DFlow.init_ok (netOk hn)
    rw [hf0] at e0; injection e0 with e0; subst e0
    have hcall := s2.calls
    have hrun := s2.run
    rw [← p2, List.append_assoc] at hcall hrun
    obtain ⟨sa, y1, _, ya, yb, yc, _⟩ := DFlow.run_past (netOk hn) cs ⟨_, _, g2⟩ (DFlow.init_head hf0) ⟨_, _, g1⟩ r2.calls
    rw [r2.run] at y1; injection y1 with y1; subst y1
    rw [runFlow_append _ _ r2.run] at hrun
    obtain ⟨sb, z1, z2, _, _, _, z6⟩ := DFlow.run_past (netOk hn) _ ya yb yc (callsOk_rest _ _ hcall r2.run)
    rw [hrun] at z1; injection z1 with z1; subst z1
    exact ⟨le_trans z2 t1, z6.trans (t2.mono z2)⟩

/-- Any number of rounds of two builders: they are alike, or both got to `T0` with the same past. -/
theorem rounds_causal (hs : List.Forall₂ (SameCommodity T0) n.commodities ds) (hn : InputOk n) (hn' : InputOk { n with commodities := ds }) {imp : List (List Nat)} (hsh : Share n imp preds)
    {ord ord' : List Nat → List Nat} (hord : OrderOk ord) (hord' : OrderOk ord') (hp : PredictorsOk n preds) (hp' : PredictorsOk { n with commodities := ds } preds)
    (hbl : ∀ s s', DFlow.Twin n.data s s' → ∀ p t, (preds p).predict t s = (preds p).predict t s')
    {d : ℚ} (hd : 0 < d) {f0 : DFlow} (hf0 : DFlow.init = .ok f0) {W W' : Nat × Nat × ℚ → Bool}
    {b0 c0 : Builder P} (hb : Inv n preds d f0 [] (fun _ _ => none) 0 W b0) (hc : Inv { n with commodities := ds } preds d f0 [] (fun _ _ => none) 0 W' c0) (tw : CTwin n ds T0 imp preds b0 c0) :
    ∀ k, ClearRounds ord preds b0 k → ClearRounds ord' preds c0 k → ∀ {b c : Builder P}, rounds ord preds k b0 = .ok b → rounds ord' preds k c0 = .ok c →
      CTwin n ds T0 imp preds b c ∨ (T0 ≤ b.flow.phi ∧ T0 ≤ c.flow.phi ∧ DFlow.Agree b.flow c.flow T0) := by
  intro k
  induction k with
  | zero => intro _ _ b c h1 h2; injection h1 with h1; injection h2 with h2; subst h1; subst h2; exact Or.inl tw
  | succ k ih =>
    intro hcl hcl' b c h1 h2
    have hcl1 : ClearRounds ord preds b0 k := fun m hm => hcl m (by omega)
    have hcl2 : ClearRounds ord' preds c0 k := fun m hm => hcl' m (by omega)
    have h1' := h1
    have h2' := h2
    unfold rounds at h1 h2
    obtain ⟨x, x1, x2⟩ := bind_eq_ok.mp h1
    obtain ⟨y, y1, y2⟩ := bind_eq_ok.mp h2
    obtain ⟨x', cs, hist, K, V, r1, r2, _⟩ := inv_rounds hn hord hp hd hf0 hb k hcl1
    rw [x1] at r1; injection r1 with r1; subst r1
    obtain ⟨y', cs', hist', K', V', q1, q2, _⟩ := inv_rounds hn' hord' hp' hd hf0 hc k hcl2
    rw [y1] at q1; injection q1 with q1; subst q1
    obtain ⟨a1, a2⟩ := rounds_past hn hord hp hd hf0 hb hcl 1 k rfl x1 h1'
    obtain ⟨e1, e2⟩ := rounds_past hn' hord' hp' hd hf0 hc hcl' 1 k rfl y1 h2'
    have hlate : T0 ≤ x.flow.phi → T0 ≤ y.flow.phi → DFlow.Agree x.flow y.flow T0 → T0 ≤ b.flow.phi ∧ T0 ≤ c.flow.phi ∧ DFlow.Agree b.flow c.flow T0 := by
      intro g1 g2 g3
      exact ⟨le_trans g1 a1, le_trans g2 e1, (a2.mono g1).symm.trans (g3.trans (e2.mono g2))⟩
    rcases ih hcl1 hcl2 x1 y1 with h | ⟨g1, g2, g3⟩
    · rcases lt_or_ge x.flow.phi T0 with hlt | hge
      · exact step_causal hs hn hn' hsh hord hord' hp hp' hbl hd hf0 r2 q2 h hlt (fun l T b' hb' => hcl k (by omega) x l T b' x1 hb') (fun l T c' hc' => hcl' k (by omega) y l T c' y1 hc') x2 y2
      · exact Or.inr (hlate hge (h.flow.phi ▸ hge) (DFlow.twin_agree h.flow T0))
    · exact Or.inr (hlate g1 g2 g3)

end Builder
end Verif
