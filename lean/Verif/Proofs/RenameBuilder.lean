import Verif.Proofs.RenameFlow
import Verif.Proofs.CausalBuilder

/-! The order in which the commodities are listed does not matter: rounds. -/

namespace Verif
open Spec

namespace DFlow

theorem clear_ren (σ : Equiv.Perm ℕ) {net : EdgeData} {s : DFlow} {e : Nat} {v : Rates} (hc : Clear net s e v) : Clear net (s.ren σ) e (v.ren σ) := by
  intro q lin lout z h1 h2 h3 h4
  have h2' : ((s.inflow e).queue.map (FRItem.ren σ)).getLast? = some lin := h2
  have h3' : ((s.outflow e).queue.map (FRItem.ren σ)).getLast? = some lout := h3
  rw [List.getLast?_map] at h2' h3'
  obtain ⟨a, ha, rfl⟩ := Option.map_eq_some_iff.mp h2'
  obtain ⟨b, hb, rfl⟩ := Option.map_eq_some_iff.mp h3'
  obtain ⟨c1, c2, c3, c4, c5, c6, c7, c8, c9, c10⟩ := hc q a b z h1 ha hb h4
  have hall : ∀ {p : Nat → Prop}, (∀ i, p (σ i)) → ∀ j, p j := fun h j => by rw [← σ.apply_symm_apply j]; exact h _
  have e1 : ∀ u : Rates, ∀ i, (u.ren σ).get (σ i) = u.get i := Rates.get_ren σ
  refine ⟨c1, by rw [Rates.total_ren]; exact c2, hall (fun i => ?_), c4, by rw [Rates.total_ren]; exact c5, hall (fun i => ?_), c7, by rw [Rates.total_ren]; exact c8,
    by rw [Rates.total_ren]; exact c9, fun hq hv h0 => ?_⟩
  · simp only [FRItem.ren, e1]; exact c3 i
  · simp only [FRItem.ren, e1, Rates.total_ren]; exact c6 i
  · rw [Rates.total_ren] at hv h0
    obtain ⟨g1, g2⟩ := c10 hq hv h0
    refine ⟨by rw [Rates.total_ren]; exact g1, hall (fun i => ?_)⟩
    rw [e1, Rates.total_ren]; exact g2 i

end DFlow

theorem minKey_renamed {σ : Equiv.Perm ℕ} {h h' : Heap EVal (Nat × Nat × ℚ)} {W W' : Nat × Nat × ℚ → Bool} (hr : h.Rep (Builder.wmap W)) (hr' : h'.Rep (Builder.wmap W'))
    (hW : ∀ x, W' (σ x.1, x.2) = W x) : h.minKey = h'.minKey := by
  obtain ⟨k, a1, a2, a3⟩ := hr.minKey
  obtain ⟨k', b1, b2, b3⟩ := hr'.minKey
  have hto : ∀ x, Builder.wmap W' (σ x.1, x.2) = Builder.wmap W x := fun x => by unfold Builder.wmap; rw [hW]
  have hback : ∀ x, Builder.wmap W (σ.symm x.1, x.2) = Builder.wmap W' x := fun x => by rw [← hto]; simp
  rw [a1, b1]
  congr 1
  apply le_antisymm
  · rcases b3 with ⟨x, hx⟩ | ⟨rfl, _⟩
    · exact a2 _ k' (by rw [hback]; exact hx)
    · exact le_top
  · rcases a3 with ⟨x, hx⟩ | ⟨rfl, _⟩
    · exact b2 _ k (by rw [hto]; exact hx)
    · exact le_top

namespace Builder
variable {P : Type} {n : Network P} {preds : P → Predictor} {ds : List (Commodity P)} {σ : Equiv.Perm ℕ}

theorem ren_mem (hs : ∀ i : Nat, ds[σ i]? = n.commodities[i]?) (c : Commodity P) : c ∈ ds ↔ c ∈ n.commodities := by
  rw [List.mem_iff_getElem?, List.mem_iff_getElem?]
  constructor
  · rintro ⟨j, hj⟩
    exact ⟨σ.symm j, by rw [← hs, Equiv.apply_symm_apply]; exact hj⟩
  · rintro ⟨i, hi⟩
    exact ⟨σ i, by rw [hs]; exact hi⟩

theorem input_members (m : ∀ c, c ∈ ds ↔ c ∈ n.commodities) (h : InputOk n) : InputOk { n with commodities := ds } := by
  refine ⟨h.graph, h.capLen, h.ttLen, h.cap, h.tt, fun c hc => h.sink c ((m c).mp hc), fun c hc => h.keys c ((m c).mp hc), fun c hc => h.source c ((m c).mp hc), ?_,
    fun c hc s hs c' hc' => h.apart c ((m c).mp hc) s hs c' ((m c').mp hc')⟩
  intro c hc s hs
  obtain ⟨c', h1, h2⟩ := h.start c ((m c).mp hc) s hs
  exact ⟨c', (m c').mpr h1, h2⟩

theorem ren_input (hs : ∀ i : Nat, ds[σ i]? = n.commodities[i]?) (h : InputOk n) : InputOk { n with commodities := ds } := input_members (ren_mem hs) h

theorem ren_preds (h : PredictorsOk n preds) : PredictorsOk { n with commodities := ds } preds := by
  intro p f0 f calls t h1 h2 h3 h4 h5
  obtain ⟨ps, g1, g2⟩ := h p f0 f calls t h1 h2 h3 h4 h5
  exact ⟨ps, g1, g2.len, g2.valid, g2.nonneg, g2.fifo⟩

theorem ren_rate (hs : ∀ i : Nat, ds[σ i]? = n.commodities[i]?) (v i : Nat) (t : ℚ) : networkRate { n with commodities := ds } v (σ i) t = networkRate n v i t := by
  unfold networkRate; simp only [hs]

theorem ren_arriving (hs : ∀ i : Nat, ds[σ i]? = n.commodities[i]?) (f : DFlow) (v i : Nat) (t : ℚ) :
    arriving { n with commodities := ds } f v (σ i) t = arriving n (f.ren σ.symm) v i t := by
  unfold arriving
  rw [ren_rate hs]
  rfl

theorem ren_sink (hs : ∀ i : Nat, ds[σ i]? = n.commodities[i]?) (i v : Nat) : IsSink { n with commodities := ds } (σ i) v ↔ IsSink n i v := by
  unfold IsSink; simp only [hs]

theorem ren_break (hs : ∀ i : Nat, ds[σ i]? = n.commodities[i]?) (x : Nat × Nat × ℚ) : Break ds (σ x.1, x.2) ↔ Break n.commodities x := by
  unfold Break; simp only [hs]

theorem ren_act (hs : ∀ i : Nat, ds[σ i]? = n.commodities[i]?) {imp imp' : List (List Nat)} (hi : ∀ i : Nat, imp'[σ i]? = imp[i]?) (t : ℚ) (i v : Nat) (costs : List PL) :
    actOf { n with commodities := ds } imp' preds t (σ i) v costs = actOf n imp preds t i v costs := by
  unfold actOf
  have h1 : rd ds (σ i) = rd n.commodities i := by unfold rd; rw [hs]
  have h2 : rd imp' (σ i) = rd imp i := by unfold rd; rw [hi]
  simp only [h1, h2]

theorem ren_fixed (hs : ∀ i : Nat, ds[σ i]? = n.commodities[i]?) {imp imp' : List (List Nat)} (hi : ∀ i : Nat, imp'[σ i]? = imp[i]?) {t : ℚ} {R : P → Py (List PL)} {i v : Nat} {S : List Nat}
    (h : Fixed { n with commodities := ds } imp' preds t R (σ i) v S) : Fixed n imp preds t R i v S := by
  obtain ⟨c, costs, h1, h2, h3⟩ := h
  exact ⟨c, costs, by rw [← hs]; exact h1, h2, by rw [← ren_act hs hi]; exact h3⟩

theorem ren_entry (hs : ∀ i : Nat, ds[σ i]? = n.commodities[i]?) {imp imp' : List (List Nat)} (hi : ∀ i : Nat, imp'[σ i]? = imp[i]?) {t : ℚ} {R : P → Py (List PL)} {f : DFlow} {v k i : Nat} {x : ℚ}
    (h : Entry { n with commodities := ds } imp' preds t R f v k (σ i) x) : Entry n imp preds t R (f.ren σ.symm) v k i x := by
  unfold Entry at h ⊢
  rw [ren_sink hs, ren_arriving hs] at h
  refine ⟨h.1, fun h1 h2 => ?_⟩
  obtain ⟨S, g1, g2⟩ := h.2 h1 h2
  exact ⟨S, ren_fixed hs hi g1, g2⟩

theorem ren_share (hs : ∀ i : Nat, ds[σ i]? = n.commodities[i]?) {imp imp' : List (List Nat)} (hi : ∀ i : Nat, imp'[σ i]? = imp[i]?) (h : Share n imp preds) : Share { n with commodities := ds } imp' preds := by
  intro i j c c' h1 h2 hp hk hsk
  have := h (σ.symm i) (σ.symm j) c c' (by rw [← hs, Equiv.apply_symm_apply]; exact h1) (by rw [← hs, Equiv.apply_symm_apply]; exact h2) hp hk hsk
  rw [← hi, ← hi, Equiv.apply_symm_apply, Equiv.apply_symm_apply] at this
  exact this

variable [DecidableEq P]

/-- Builders that cannot be told apart but for the numbers of the commodities. -/
structure RTwin (n : Network P) (ds : List (Commodity P)) (σ : Equiv.Perm ℕ) (imp imp' : List (List Nat)) (preds : P → Predictor) (b c : Builder P) : Prop where
  imp1 : b.important = imp
  imp2 : c.important = imp'
  next : b.nextReroute = c.nextReroute
  route : b.route = c.route
  cache : b.cache = c.cache
  act1 : ActDet n imp preds b
  act2 : ActDet { n with commodities := ds } imp' preds c
  flow : DFlow.Twin n.data b.flow (c.flow.ren σ.symm)
  handle : ∀ v, v ∈ b.handle ↔ v ∈ c.handle
  heap : ∃ W W', b.changes.Rep (wmap W) ∧ c.changes.Rep (wmap W') ∧ (∀ x, W x = true → Break n.commodities x) ∧ (∀ x, W' x = true → Break ds x) ∧
    ∀ x, W' (σ x.1, x.2) = W x

/-- One round of two such builders. -/
theorem step_rename (hs : ∀ i : Nat, ds[σ i]? = n.commodities[i]?) (hn : InputOk n) {imp imp' : List (List Nat)} (himp : ∀ i : Nat, imp'[σ i]? = imp[i]?) (hsh : Share n imp preds)
    {ord ord' : List Nat → List Nat} (hord : OrderOk ord) (hord' : OrderOk ord') (hp : PredictorsOk n preds)
    (hbl : ∀ s s', DFlow.Twin n.data s s' → ∀ p t, (preds p).predict t s = (preds p).predict t s')
    (han : ∀ (τ : Equiv.Perm ℕ) s p t, (preds p).predict t (DFlow.ren τ s) = (preds p).predict t s)
    {d : ℚ} (hd : 0 < d) {f0 : DFlow} (hf0 : DFlow.init = .ok f0) {cs cs' : List FlowCall} {hist hist' : Nat → P → Option (List PL)} {K K' : Nat} {W W' : Nat × Nat × ℚ → Bool}
    {b c : Builder P} (hb : Inv n preds d f0 cs hist K W b) (hc : Inv { n with commodities := ds } preds d f0 cs' hist' K' W' c) (tw : RTwin n ds σ imp imp' preds b c)
    (hclear : ∀ l T b', b.prepare ord preds = .ok (l, T, b') → ∀ p ∈ l, ∀ cur x, (b'.flow.inflow p.1).getValuesAtTime b'.flow.phi = .ok (cur, x) → cur.dictEq p.2 = false →
      Clear b'.net.data b'.flow p.1 p.2) :
    ∃ b1 c1 cs1 cs2 h1 h2 K1 K2 W1 W2, b.step ord preds = .ok b1 ∧ c.step ord' preds = .ok c1 ∧ Inv n preds d f0 cs1 h1 K1 W1 b1 ∧
      Inv { n with commodities := ds } preds d f0 cs2 h2 K2 W2 c1 ∧ RTwin n ds σ imp imp' preds b1 c1 ∧
      ∀ l T c', c.prepare ord' preds = .ok (l, T, c') → ∀ p ∈ l, ∀ cur x, (c'.flow.inflow p.1).getValuesAtTime c'.flow.phi = .ok (cur, x) → cur.dictEq p.2 = false →
        Clear c'.net.data c'.flow p.1 p.2 := by
  classical
  have hn' : InputOk { n with commodities := ds } := ren_input hs hn
  have hp' : PredictorsOk { n with commodities := ds } preds := ren_preds hp
  have hback : ∀ {s t : DFlow}, DFlow.Twin n.data s (t.ren σ.symm) → DFlow.Twin n.data (s.ren σ) t := by
    intro s t h
    have := h.ren σ
    rwa [show (t.ren σ.symm).ren σ = t from DFlow.ren_symm (σ := σ.symm) t] at this
  have hforth : ∀ {s t : DFlow}, DFlow.Twin n.data (s.ren σ) t → DFlow.Twin n.data s (t.ren σ.symm) := by
    intro s t h
    have := h.ren σ.symm
    rwa [DFlow.ren_symm] at this
  obtain ⟨l, T, b', cs1, hist1, k1, W1, H1, p1, p2, p3, p4⟩ := prepare_spec hn hord hp hd hf0 hb
  obtain ⟨m, U, c', cs2, hist2, k2, W2, H2, q1, q2, q3, q4⟩ := prepare_spec hn' hord' hp' hd hf0 hc
  obtain ⟨V, V', hV1, hV2, hVb, hVb', hVV⟩ := tw.heap
  obtain ⟨a1, a2, a3, a4, a5, a6, a7, ⟨X1, a8, a9⟩, kb, a10, a11⟩ := prepare_det hn hsh hord hb hV1 hVb tw.imp1 tw.act1 tw.flow (fun s hs p t => hbl s _ hs p t) p1
  obtain ⟨e1, e2, e3, e4, e5, e6, e7, ⟨X2, e8, e9⟩, kc, e10, e11⟩ := prepare_det hn' (ren_share hs himp hsh) hord' hc hV2 hVb' tw.imp2 tw.act2 (hback a2).symm (fun s hs p t => hbl s _ hs p t) q1
  -- the same data
  have hphi : b.flow.phi = c.flow.phi := tw.flow.phi
  have hdue : Due b ↔ Due c := by unfold Due; rw [hphi, tw.next]
  have hkept : kept b = kept c := by unfold kept; simp only [hdue, tw.cache]
  have hsince : since b = since c := by unfold since; simp only [hdue, tw.next, tw.route]
  have hcosts : costsOf n preds (since b) (c.flow.ren σ.symm) (kept b) = costsOf { n with commodities := ds } preds (since c) (b'.flow.ren σ) (kept c) := by
    funext q
    rw [hkept, hsince]
    unfold costsOf
    split
    · rfl
    · unfold costsNow
      rw [han, han]
      have := hbl _ _ (hback a2) q (since c)
      rw [han] at this
      rw [this]; rfl
  have hhand : ∀ v, Handled n V b v ↔ Handled { n with commodities := ds } V' c v := by
    intro v; unfold Handled; rw [hdue, tw.handle v, hphi]
    have : (∃ x, V x = true ∧ x.2.1 = v ∧ x.2.2 ≤ c.flow.phi) ↔ ∃ x, V' x = true ∧ x.2.1 = v ∧ x.2.2 ≤ c.flow.phi := by
      constructor
      · rintro ⟨x, h1, h2, h3⟩; exact ⟨(σ x.1, x.2), by rw [hVV]; exact h1, h2, h3⟩
      · rintro ⟨x, h1, h2, h3⟩; exact ⟨(σ.symm x.1, x.2), by rw [← hVV]; simp only [Equiv.apply_symm_apply]; exact h1, h2, h3⟩
    rw [this]
  have harr : ∀ v i, arriving n b.flow v i b.flow.phi = arriving n (c.flow.ren σ.symm) v i (c.flow.ren σ.symm).phi := arriving_twin tw.flow
  have hX : ∀ x, X2 (σ x.1, x.2) = X1 x := by
    intro x
    have : X2 (σ x.1, x.2) = true ↔ X1 x = true := by rw [a9, e9, hphi, hVV x]
    exact Bool.eq_iff_iff.mpr this
  have hnext : b'.nextReroute = c'.nextReroute := by rw [a7, e7, tw.next]; simp only [hdue]
  have hT : T = U := by
    rw [minKey_renamed a8 e8 hX, e10] at a10
    injection a10 with a10; subst a10
    rw [hnext, e11] at a11
    injection a11 with a11; exact a11.symm
  subst hT
  have hkeys : ∀ j, j ∈ l.map Prod.fst ↔ j ∈ m.map Prod.fst := by
    intro j; rw [a5, e5]; simp only [hhand]
  have hnone : ∀ (t : List (Nat × Rates)) (j : Nat), t.lookup j = none ↔ j ∉ t.map Prod.fst := by
    intro t j
    rw [← lookup_isSome]
    cases t.lookup j <;> simp
  have hrok : ∀ {v : Rates}, RatesOk v → RatesOk (v.ren σ) := fun h => ⟨Rates.ren_nodup σ h.nodup, (Rates.ren_pos σ).mpr h.pos⟩
  have hval : ∀ j v w, l.lookup j = some v → m.lookup j = some w → SameDict (v.ren σ) w := by
    intro j v w hv hw
    refine sameDict_of_get (hrok (a3.rates _ (FRC.mem_of_lookup hv))) (e3.rates _ (FRC.mem_of_lookup hw)) (fun i' => ?_)
    obtain ⟨i, rfl⟩ : ∃ i, σ i = i' := ⟨σ.symm i', σ.apply_symm_apply i'⟩
    rw [Rates.get_ren]
    have hj : j ∈ l.map Prod.fst := List.mem_map.mpr ⟨_, FRC.mem_of_lookup hv, rfl⟩
    obtain ⟨u, hu, e, heo, hid⟩ := (a5 j).mp hj
    have y1 := a6 u hu e heo i
    have y2 := ren_entry hs himp (e6 u ((hhand u).mp hu) e heo (σ i))
    rw [← hcosts, ← hsince] at y2
    have := Entry.unique tw.flow.phi harr y1 y2
    unfold val at this
    simp only at this
    rw [hid, hv, hw] at this
    exact this
  have hmap : ∀ j, (l.map (fun p => (p.1, p.2.ren σ))).lookup j = (l.lookup j).map (Rates.ren σ) := by
    intro j
    clear hval hnone hkeys a3 a5 a6 p1 p3 p4 hclear
    induction l with
    | nil => rfl
    | cons p l ih =>
      obtain ⟨k, v⟩ := p
      rw [List.map_cons, List.lookup_cons, List.lookup_cons, ih]
      cases j == k <;> rfl
  have hmapk : (l.map (fun p => (p.1, p.2.ren σ))).map Prod.fst = l.map Prod.fst := by rw [List.map_map]; rfl
  have htab : DFlow.SameTable m (l.map (fun p => (p.1, p.2.ren σ))) := by
    refine ⟨e3.keys, by rw [hmapk]; exact a3.keys, ?_, ?_⟩
    · intro j; rw [hnone, hnone, hmapk, hkeys]
    · intro j w v' hw hv'
      rw [hmap] at hv'
      obtain ⟨v, hv, rfl⟩ := Option.map_eq_some_iff.mp hv'
      exact (hval j v w hv hw).symm
  -- twins after reading
  have htw' : DFlow.Twin n.data (b'.flow.ren σ) c'.flow := e2.symm
  have hlook : ∀ p ∈ m, ∃ p' ∈ l, p'.1 = p.1 ∧ SameDict (p'.2.ren σ) p.2 := by
    intro p hpm
    have hw := DFlow.lookup_of_mem e3.keys hpm
    obtain ⟨p', hp', hpe⟩ := List.mem_map.mp ((hkeys p.1).mpr (List.mem_map.mpr ⟨p, hpm, rfl⟩))
    have hv := DFlow.lookup_of_mem a3.keys hp'
    rw [hpe] at hv
    exact ⟨p', hp', hpe, hval _ _ _ hv hw⟩
  have hclearb : ∀ p ∈ l, ∀ cur x, (b'.flow.inflow p.1).getValuesAtTime b'.flow.phi = .ok (cur, x) → cur.dictEq p.2 = false → Clear n.data b'.flow p.1 p.2 := by
    have := hclear l T b' p1
    rw [p3.static.net] at this; exact this
  have hclear' : ∀ p ∈ m, ∀ cur x, (c'.flow.inflow p.1).getValuesAtTime c'.flow.phi = .ok (cur, x) → cur.dictEq p.2 = false → Clear n.data c'.flow p.1 p.2 := by
    intro p hpm cur x hcur hne
    obtain ⟨p', y1, y2, y3⟩ := hlook p hpm
    obtain ⟨A, C, B, D, _, _, tl, _⟩ := htw'.loc
    obtain ⟨v, w, x1, x2, z1, z2, z3, _⟩ := (tl p.1).inflow.read
    simp only [DFlow.loc] at z1 z2
    rw [htw'.phi, hcur] at z2
    injection z2 with z2; injection z2 with z2 _; subst z2
    have z1' : ((b'.flow.inflow p.1).ren σ).getValuesAtTime b'.flow.phi = .ok (v, x1) := z1
    rw [FRC.getValues_ren] at z1'
    obtain ⟨⟨v0, x0⟩, z4, z5⟩ := map_ok_py.mp z1'
    injection z5 with z5 _
    simp only at z5
    subst z5
    have := hclearb p' y1 v0 x0 (by rw [y2]; exact z4) (by rw [← Rates.dictEq_ren σ, z3.dictEq y3]; exact hne)
    rw [y2] at this
    exact DFlow.clear_twin htw' y3 (DFlow.clear_ren σ this)
  obtain ⟨b1, s1, s2, s3, s4, s5, _⟩ := step_spec hn p3 p1 hclearb
  obtain ⟨c1, u1, u2, u3, u4, u5, _⟩ := step_spec hn' q3 q1 hclear'
  refine ⟨b1, c1, _, _, _, _, _, _, _, _, s1, u1, s2, u2, ?_, ?_⟩
  · unfold step at s1 u1
    rw [p1, ok_bind] at s1
    rw [q1, ok_bind] at u1
    simp only [p3.static.net] at s1
    simp only [q3.static.net] at u1
    obtain ⟨⟨g, ch⟩, x1, s1⟩ := bind_eq_ok.mp s1
    obtain ⟨⟨g', ch'⟩, y1, u1⟩ := bind_eq_ok.mp u1
    simp only at s1 u1
    obtain ⟨hs1, x2, s1⟩ := bind_eq_ok.mp s1
    obtain ⟨hs2, y2, u1⟩ := bind_eq_ok.mp u1
    injection s1 with s1; subst s1
    injection u1 with u1; subst u1
    obtain ⟨t', dh, z1, z2, z3⟩ := DFlow.extend_twin (netOk hn) htw'.symm q3.flow.safe htab q3.time y1
    have z1' : (b'.flow.ren σ).extend n.data (l.map (fun p => (p.1, p.2.ren σ))) T = .ok (t', dh) := z1
    rw [DFlow.extend_ren, x1] at z1'
    injection z1' with z1'; injection z1' with z4 z5
    simp only at z4 z5
    subst z4; subst z5
    have hcache : b'.cache = c'.cache := by
      funext q
      have h1 := a4 q
      have h2 := e4 q
      rw [← hkept] at h2
      have h12 : b'.cache q ≠ none ↔ c'.cache q ≠ none := by
        rw [h1, h2]
        refine or_congr Iff.rfl (exists_congr (fun v => and_congr (hhand v) ?_))
        constructor
        · rintro ⟨i, y1, y2, y3⟩
          refine ⟨σ i, by rw [ren_sink hs]; exact y1, ?_, by simp only [hs]; exact y3⟩
          rw [ren_arriving hs]; rw [harr] at y2; exact y2
        · rintro ⟨i', y1, y2, y3⟩
          obtain ⟨i, rfl⟩ : ∃ i, σ i = i' := ⟨σ.symm i', σ.apply_symm_apply i'⟩
          rw [ren_sink hs] at y1
          rw [ren_arriving hs] at y2
          simp only [hs] at y3
          exact ⟨i, y1, by rw [harr]; exact y2, y3⟩
      cases hbq : b'.cache q with
      | none =>
        cases hcq : c'.cache q with
        | none => rfl
        | some y => exact absurd hbq (h12.mpr (by rw [hcq]; simp))
      | some x =>
        cases hcq : c'.cache q with
        | none => exact absurd hcq (h12.mp (by rw [hbq]; simp))
        | some y =>
          have z1 := a1.cache q x hbq
          have z2 := e1.cache q y hcq
          rw [hcosts, z2] at z1
          injection z1 with z1; rw [z1]
    refine ⟨a1.important, e1.important, hnext, ?_, hcache, ?_, ?_, hforth z2.symm, ?_, X1, X2, a8, e8, ?_, ?_, hX⟩
    · simp only; rw [a1.route, e1.route, hsince]
    · intro i v a ha
      simp only
      rw [a1.route]
      exact a1.active i v a ha
    · intro i v a ha
      simp only
      rw [e1.route]
      exact e1.active i v a ha
    · intro v
      simp only
      rw [heads_mem x2, heads_mem (n := n) y2]
      simp only [z3]
    · intro x hx; exact hVb x ((a9 x).mp hx).1
    · intro x hx; exact hVb' x ((e9 x).mp hx).1
  · intro m' U' c2 hprep
    rw [q1] at hprep; injection hprep with hprep; injection hprep with y1 y2; injection y2 with y2 y3
    subst y1; subst y2; subst y3
    rw [q3.static.net]; exact hclear'

/-- Any number of rounds. -/
theorem rounds_rename (hs : ∀ i : Nat, ds[σ i]? = n.commodities[i]?) (hn : InputOk n) {imp imp' : List (List Nat)} (himp : ∀ i : Nat, imp'[σ i]? = imp[i]?) (hsh : Share n imp preds)
    {ord ord' : List Nat → List Nat} (hord : OrderOk ord) (hord' : OrderOk ord') (hp : PredictorsOk n preds)
    (hbl : ∀ s s', DFlow.Twin n.data s s' → ∀ p t, (preds p).predict t s = (preds p).predict t s')
    (han : ∀ (τ : Equiv.Perm ℕ) s p t, (preds p).predict t (DFlow.ren τ s) = (preds p).predict t s)
    {d : ℚ} (hd : 0 < d) {f0 : DFlow} (hf0 : DFlow.init = .ok f0) {W0 W0' : Nat × Nat × ℚ → Bool}
    {b0 c0 : Builder P} (h0 : Inv n preds d f0 [] (fun _ _ => none) 0 W0 b0) (h0' : Inv { n with commodities := ds } preds d f0 [] (fun _ _ => none) 0 W0' c0) (tw : RTwin n ds σ imp imp' preds b0 c0) :
    ∀ k, ClearRounds ord preds b0 k → ClearRounds ord' preds c0 k ∧ ∃ b c cs cs' h h' K K' W W', rounds ord preds k b0 = .ok b ∧ rounds ord' preds k c0 = .ok c ∧
      Inv n preds d f0 cs h K W b ∧ Inv { n with commodities := ds } preds d f0 cs' h' K' W' c ∧ RTwin n ds σ imp imp' preds b c := by
  intro k
  induction k with
  | zero => intro _; exact ⟨fun m hm => by omega, b0, c0, _, _, _, _, _, _, _, _, rfl, rfl, h0, h0', tw⟩
  | succ k ih =>
    intro hcl
    obtain ⟨hcl', b, c, cs, cs', h, h', K, K', W, W', r1, r2, r3, r4, r5⟩ := ih (fun m hm => hcl m (by omega))
    obtain ⟨b1, c1, _, _, _, _, _, _, _, _, x1, x2, x3, x4, x5, x6⟩ := step_rename hs hn himp hsh hord hord' hp hbl han hd hf0 r3 r4 r5 (fun l T b' hb' => hcl k (by omega) b l T b' r1 hb')
    refine ⟨?_, b1, c1, _, _, _, _, _, _, _, _, by unfold rounds; rw [r1, ok_bind]; exact x1, by unfold rounds; rw [r2, ok_bind]; exact x2, x3, x4, x5⟩
    intro m hm bm l T b' hbm hprep
    rcases Nat.lt_or_ge m k with hmk | hmk
    · exact hcl' m hmk bm l T b' hbm hprep
    · have : m = k := by omega
      subst this
      rw [r2] at hbm; injection hbm with hbm; subst hbm
      exact x6 l T b' hprep

end Builder
end Verif
