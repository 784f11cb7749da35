import Verif.Proofs.BuilderBase
import Verif.Spec.Redomained

namespace Verif
namespace Redom
open Spec Builder

variable {P : Type}

/-! ### The constructor -/

theorem eval_same {f g : RC} (h1 : g.times = f.times) (h2 : g.values = f.values) {x : ℚ} (hf : f.inDom x) (hg : g.inDom x) : g.eval x = f.eval x := by
  obtain ⟨ft, fv, fl, fh⟩ := f
  obtain ⟨gt, gv, gl, gh⟩ := g
  simp only at h1 h2
  subst h1; subst h2
  unfold RC.eval RC.evalWithLrank
  rw [pyAssert_true hf, pyAssert_true hg]

/-- Entries of the dicts of functions at one node. -/
def Pair (p p' : Nat × RC) : Prop := p'.1 = p.1 ∧ StepsOn p.2 p'.2

theorem advanceAll_same {l l' : List RC} (h : List.Forall₂ StepsOn l l') (x : ℚ) : ∀ ps, RC.advanceAll x l' ps = RC.advanceAll x l ps := by
  induction h with
  | nil => intro ps; rfl
  | cons h _ ih =>
    intro ps
    cases ps with
    | nil => rfl
    | cons p ps => unfold RC.advanceAll; rw [h.times, ih]

theorem sumAt_same {l l' : List RC} (h : List.Forall₂ StepsOn l l') : ∀ ps, RC.sumAt l' ps = RC.sumAt l ps := by
  induction h with
  | nil => intro ps; rfl
  | cons h _ ih =>
    intro ps
    cases ps with
    | nil => rfl
    | cons p ps => unfold RC.sumAt; rw [h.values, ih]

theorem sumLoop_same {l l' : List RC} (h : List.Forall₂ StepsOn l l') : ∀ xs ps, RC.sumLoop l' xs ps = RC.sumLoop l xs ps := by
  intro xs
  induction xs with
  | nil => intro ps; rfl
  | cons x xs ih => intro ps; unfold RC.sumLoop; simp only [advanceAll_same h, sumAt_same h, ih]

theorem times_same {l l' : List RC} (h : List.Forall₂ StepsOn l l') : l'.map RC.times = l.map RC.times := by
  induction h with
  | nil => rfl
  | cons h _ ih => rw [List.map_cons, List.map_cons, h.times, ih]

theorem sum_same {l l' : List RC} (h : List.Forall₂ StepsOn l l') (lo : WithBot ℚ) (hi : WithTop ℚ) : RC.sum l' lo hi = RC.sum l lo hi := by
  have hz : l'.map (fun _ => 0) = l.map (fun _ => (0 : Nat)) := by
    rw [List.map_const', List.map_const', h.length_eq]
  unfold RC.sum
  rw [← h.length_eq, times_same h, hz]
  simp only [sumLoop_same h]

theorem mergeTimes_same {l l' : List (Nat × RC)} (h : List.Forall₂ Pair l l') : ∀ ts, FRC.mergeTimes l' ts = FRC.mergeTimes l ts := by
  induction h with
  | nil => intro ts; rfl
  | cons h _ ih => intro ts; unfold FRC.mergeTimes; rw [h.2.times, ih]

theorem positiveAt_same {l l' : List (Nat × RC)} (h : List.Forall₂ Pair l l') {t : ℚ} (ht : 0 ≤ t) (hd : ∀ p ∈ l, p.2.inDom t) :
    FRC.positiveAt t l' = FRC.positiveAt t l := by
  induction h with
  | nil => rfl
  | @cons p p' l l' h _ ih =>
    obtain ⟨i, f⟩ := p
    obtain ⟨i', f'⟩ := p'
    obtain ⟨h1, h2⟩ := h
    simp only at h1 h2
    subst h1
    unfold FRC.positiveAt
    rw [ih (fun q hq => hd q (List.mem_cons_of_mem _ hq)), eval_same h2.times h2.values (hd _ (List.mem_cons_self)) (by
      unfold RC.inDom; rw [h2.hi]; exact ⟨le_trans h2.lo (WithBot.coe_le_coe.mpr ht), le_top⟩)]

theorem itemsAt_same {l l' : List (Nat × RC)} (h : List.Forall₂ Pair l l') : ∀ ts : List ℚ, (∀ t ∈ ts, 0 ≤ t) → (∀ t ∈ ts, ∀ p ∈ l, p.2.inDom t) →
    FRC.itemsAt l' ts = FRC.itemsAt l ts := by
  intro ts
  induction ts with
  | nil => intro _ _; rfl
  | cons t ts ih =>
    intro h0 hd
    unfold FRC.itemsAt
    rw [positiveAt_same h (h0 t (by simp)) (hd t (by simp)), ih (fun u hu => h0 u (List.mem_cons_of_mem _ hu)) (fun u hu => hd u (List.mem_cons_of_mem _ hu))]

/-- Collections of the same steps differ in their functions only. -/
theorem ofDict_same {l l' : List (Nat × RC)} (h : List.Forall₂ Pair l l') (hok : FRC.DictOk l) {c : FRC} (hc : FRC.ofDict l = .ok c) :
    FRC.ofDict l' = .ok { c with funs := fun i => l'.lookup i } := by
  have hs : List.Forall₂ StepsOn (l.map Prod.snd) (l'.map Prod.snd) := by
    clear hc hok
    induction h with
    | nil => exact .nil
    | cons h _ ih => exact .cons h.2 ih
  obtain ⟨_, m2⟩ := FRC.mergeTimes_spec l [] [] (fun p hp => (hok.wf p hp).le) (by simp) (by simp) (by simpa using hok.apart)
  have hpos : ∀ t ∈ FRC.mergeTimes l [], 0 ≤ t := fun t ht => by
    obtain ⟨p, hp, h⟩ := ((m2 t).mp ht).resolve_left (by simp)
    exact hok.pos p hp t h
  unfold FRC.ofDict at hc ⊢
  obtain ⟨i, i1, hc⟩ := bind_eq_ok.mp hc
  obtain ⟨s, s1, hc⟩ := bind_eq_ok.mp hc
  obtain ⟨a, a1, hc⟩ := bind_eq_ok.mp hc
  obtain ⟨it, it1, hc⟩ := bind_eq_ok.mp hc
  injection hc with hc
  rw [i1, ok_bind, sum_same hs, s1, ok_bind, a1, ok_bind, mergeTimes_same h, itemsAt_same h _ hpos (fun t ht p hp => by
    unfold RC.inDom; rw [hok.hi p hp]; exact ⟨le_trans (hok.lo p hp) (WithBot.coe_le_coe.mpr (hpos t ht)), le_top⟩), it1, ok_bind, ← hc]
  rfl

theorem lookup_same {v : Nat} {l l' : List (Nat × RC)} (h : List.Forall₂ Pair l l') :
    (l.lookup v = none ∧ l'.lookup v = none) ∨ ∃ f f', l.lookup v = some f ∧ l'.lookup v = some f' ∧ StepsOn f f' := by
  induction h with
  | nil => exact .inl ⟨rfl, rfl⟩
  | @cons p p' l l' h _ ih =>
    obtain ⟨i, f⟩ := p
    obtain ⟨i', f'⟩ := p'
    obtain ⟨h1, h2⟩ := h
    simp only at h1 h2
    subst h1
    simp only [List.lookup_cons]
    by_cases hv : v = i'
    · have : (v == i') = true := by simpa using hv
      rw [this]; exact .inr ⟨f, f', rfl, rfl, h2⟩
    · have : (v == i') = false := by simpa using hv
      rw [this]; exact ih

theorem sourcesAt_same {cs cs' : List (Commodity P)} (h : List.Forall₂ CommoditySteps cs cs') (v : Nat) : ∀ k, List.Forall₂ Pair (sourcesAt v k cs) (sourcesAt v k cs') := by
  induction h with
  | nil => intro k; exact .nil
  | cons h _ ih =>
    intro k
    unfold sourcesAt
    rcases lookup_same (v := v) h.sources with ⟨e1, e2⟩ | ⟨f, f', e1, e2, hs⟩
    · rw [e1, e2]; exact ih _
    · rw [e1, e2]; exact .cons ⟨rfl, hs⟩ (ih _)

theorem sinkIdsAt_same {cs cs' : List (Commodity P)} (h : List.Forall₂ CommoditySteps cs cs') (v : Nat) : ∀ k, sinkIdsAt v k cs' = sinkIdsAt v k cs := by
  induction h with
  | nil => intro k; rfl
  | cons h _ ih => intro k; unfold sinkIdsAt; rw [h.sink, ih]

theorem changes_same (k : Nat) {l l' : List (Nat × RC)} (h : List.Forall₂ Pair l l') :
    (l'.map (fun s => s.2.times.map (fun t => ((k, s.1, t), ev t)))).flatten = (l.map (fun s => s.2.times.map (fun t => ((k, s.1, t), ev t)))).flatten := by
  induction h with
  | nil => rfl
  | cons h _ ih => simp only [List.map_cons, List.flatten_cons, ih, h.1, h.2.times]

theorem changeList_same {cs cs' : List (Commodity P)} (h : List.Forall₂ CommoditySteps cs cs') : ∀ k, changeList k cs' = changeList k cs := by
  induction h with
  | nil => intro k; rfl
  | cons h _ ih => intro k; unfold changeList; rw [ih, changes_same k h.sources]

theorem reach_same (g : Graph) {l l' : List (Nat × RC)} (h : List.Forall₂ Pair l l') : mapPy (fun s : Nat × RC => g.reachableNodes s.1) l' = mapPy (fun s => g.reachableNodes s.1) l := by
  induction h with
  | nil => rfl
  | cons h _ ih => unfold mapPy; rw [h.1, ih]

theorem important_same (g : Graph) {cs cs' : List (Commodity P)} (h : List.Forall₂ CommoditySteps cs cs') : mapPy (importantOf g) cs' = mapPy (importantOf g) cs := by
  induction h with
  | nil => rfl
  | cons h _ ih =>
    unfold mapPy
    rw [ih]
    congr 1
    unfold importantOf
    rw [h.sink, reach_same g h.sources]

theorem assert_same {cs cs' : List (Commodity P)} (h : List.Forall₂ CommoditySteps cs cs') : ∀ L : List (List Nat),
    (∀ p ∈ cs.zip L, ∀ s ∈ p.1.sources, s.1 ∈ p.2) → ∀ p ∈ cs'.zip L, ∀ s ∈ p.1.sources, s.1 ∈ p.2 := by
  induction h with
  | nil => intro L _ p hp; simp at hp
  | @cons c c' cs cs' h _ ih =>
    intro L ha p hp
    cases L with
    | nil => simp at hp
    | cons x L =>
      rw [List.zip_cons_cons, List.mem_cons] at hp
      rcases hp with rfl | hp
      · intro s' hs'
        have hx := ha (c, x) (by simp)
        have hsrc := h.sources
        simp only at hs' hx ⊢
        clear ih ha
        revert hx hs'
        generalize c.sources = l at hsrc
        generalize c'.sources = l' at hsrc
        intro hs' hx
        induction hsrc with
        | nil => cases hs'
        | cons q _ ih2 =>
          rcases List.mem_cons.mp hs' with rfl | hs'
          · rw [q.1]; exact hx _ (List.mem_cons_self)
          · exact ih2 hs' (fun u hu => hx u (List.mem_cons_of_mem _ hu))
      · exact ih L (fun q hq => ha q (by rw [List.zip_cons_cons]; exact List.mem_cons_of_mem _ hq)) p hp

/-- The same builder, with other functions in the collections of network inflow and other commodities. -/
def swap (cs' : List (Commodity P)) (F : Nat → Nat → Option RC) (b : Builder P) : Builder P :=
  { b with net := { b.net with commodities := cs' }, netInflow := fun v => { b.netInflow v with funs := F v } }

theorem netInflows_same {n : Network P} (hn : InputOk n) {cs' : List (Commodity P)} (h : List.Forall₂ CommoditySteps n.commodities cs') : ∀ (vs : List Nat) (d d' r : Nat → FRC),
    (∀ v, ∃ F, d' v = { d v with funs := F }) → netInflows n.commodities vs d = .ok r → ∃ r', netInflows cs' vs d' = .ok r' ∧ ∀ v, ∃ F, r' v = { r v with funs := F } := by
  intro vs
  induction vs with
  | nil => intro d d' r hd hr; unfold netInflows at hr; injection hr with hr; subst hr; exact ⟨d', rfl, hd⟩
  | cons v vs ih =>
    intro d d' r hd hr
    unfold netInflows at hr ⊢
    obtain ⟨c, c1, hr⟩ := bind_eq_ok.mp hr
    rw [ofDict_same (sourcesAt_same h v 0) (dictOk_at hn v) c1, ok_bind]
    refine ih _ _ _ (fun u => ?_) hr
    by_cases hu : u = v
    · subst hu; rw [DFlow.setAt_self, DFlow.setAt_self]; exact ⟨_, rfl⟩
    · rw [DFlow.setAt_ne _ _ hu, DFlow.setAt_ne _ _ hu]; exact hd u

theorem init_same {n : Network P} (hn : InputOk n) {cs' : List (Commodity P)} (h : List.Forall₂ CommoditySteps n.commodities cs') {d : Option ℚ} {b : Builder P}
    (hb : Builder.init n d = .ok b) : ∃ F, Builder.init { n with commodities := cs' } d = .ok (swap cs' F b) := by
  unfold Builder.init at hb ⊢
  obtain ⟨f0, f1, hb⟩ := bind_eq_ok.mp hb
  obtain ⟨L, l1, hb⟩ := bind_eq_ok.mp hb
  obtain ⟨c0, c1, hb⟩ := bind_eq_ok.mp hb
  obtain ⟨r, r1, hb⟩ := bind_eq_ok.mp hb
  obtain ⟨u, u1, hb⟩ := bind_eq_ok.mp hb
  obtain ⟨ch, ch1, hb⟩ := bind_eq_ok.mp hb
  injection hb with hb
  obtain ⟨r', r2, r3⟩ := netInflows_same hn h _ _ (fun _ => c0) _ (fun v => ⟨c0.funs, rfl⟩) r1
  have ha : ∀ p ∈ n.commodities.zip L, ∀ s ∈ p.1.sources, s.1 ∈ p.2 := pyAssert_eq_ok.mp u1
  refine ⟨fun v => (r' v).funs, ?_⟩
  rw [f1, ok_bind, important_same _ h, l1, ok_bind, c1, ok_bind, r2, ok_bind, pyAssert_true (assert_same h L ha), ok_bind, changeList_same h, ch1, ok_bind, ← hb]
  unfold swap
  simp only
  have e1 : r' = fun v => { r v with funs := (r' v).funs } := by
    funext v
    obtain ⟨F, hF⟩ := r3 v
    rw [hF]
  have e2 : (fun v => sinkIdsAt v 0 cs') = fun v => sinkIdsAt v 0 n.commodities := by funext v; exact sinkIdsAt_same h v 0
  rw [e2]
  congr 1
  rw [← e1]

theorem init_net {n : Network P} {d : Option ℚ} {b : Builder P} (hb : Builder.init n d = .ok b) : b.net = n := by
  unfold Builder.init at hb
  obtain ⟨_, _, hb⟩ := bind_eq_ok.mp hb
  obtain ⟨_, _, hb⟩ := bind_eq_ok.mp hb
  obtain ⟨_, _, hb⟩ := bind_eq_ok.mp hb
  obtain ⟨_, _, hb⟩ := bind_eq_ok.mp hb
  obtain ⟨_, _, hb⟩ := bind_eq_ok.mp hb
  obtain ⟨_, _, hb⟩ := bind_eq_ok.mp hb
  injection hb with hb
  rw [← hb]

/-! ### The rounds -/

section Rounds
variable [DecidableEq P] {cs cs' : List (Commodity P)} {F : Nat → Nat → Option RC} {ord : List Nat → List Nat} {preds : P → Predictor} {α β : Type}

omit [DecidableEq P] in
theorem swap_def (b : Builder P) : swap cs' F b = ⟨{ b.net with commodities := cs' }, b.interval, b.active, b.built, b.handle, b.flow, b.nextReroute, b.route, b.important,
    fun v => { b.netInflow v with funs := F v }, b.sinkIds, b.changes, b.cache⟩ := rfl

/-- The same exception, or related results. -/
def Sim2 {α α' : Type} (R : α → α' → Prop) : Py α → Py α' → Prop
  | .ok x, .ok y => R x y
  | .error e, .error e' => e = e'
  | _, _ => False

theorem Sim2.bind {α α' β β' : Type} {R : α → α' → Prop} {S : β → β' → Prop} {r : Py α} {r' : Py α'} {k : α → Py β} {k' : α' → Py β'} (h : Sim2 R r r')
    (hk : ∀ x y, R x y → Sim2 S (k x) (k' y)) : Sim2 S (r >>= k) (r' >>= k') := by
  cases r with
  | error e =>
    cases r' with
    | error e' => exact h
    | ok y => exact h.elim
  | ok x =>
    cases r' with
    | error e' => exact h.elim
    | ok y => exact hk x y h

theorem Sim2.same {α β β' : Type} {S : β → β' → Prop} {r : Py α} {k : α → Py β} {k' : α → Py β'} (hk : ∀ x, Sim2 S (k x) (k' x)) : Sim2 S (r >>= k) (r >>= k') := by
  cases r with
  | error e => rfl
  | ok q => exact hk q

/-- The builder replaced. -/
def Swapped (cs cs' : List (Commodity P)) (F : Nat → Nat → Option RC) (b b' : Builder P) : Prop := b.net.commodities = cs ∧ b' = swap cs' F b

/-- `r'` is `r` with the builder replaced. -/
def Sim (cs cs' : List (Commodity P)) (F : Nat → Nat → Option RC) : Py (α × Builder P) → Py (α × Builder P) → Prop :=
  Sim2 fun q q' => q'.1 = q.1 ∧ Swapped cs cs' F q.2 q'.2

omit [DecidableEq P] in
theorem Sim.ok {x : α} {b : Builder P} (h : b.net.commodities = cs) : Sim cs cs' F (.ok (x, b)) (.ok (x, swap cs' F b)) := ⟨rfl, h, rfl⟩

omit [DecidableEq P] in
theorem Sim.error {e : Err} : Sim cs cs' F (.error e : Py (α × Builder P)) (.error e) := rfl

omit [DecidableEq P] in
theorem Sim.bind {r r' : Py (α × Builder P)} {k k' : α × Builder P → Py (β × Builder P)} (h : Sim cs cs' F r r')
    (hk : ∀ x b, b.net.commodities = cs → Sim cs cs' F (k (x, b)) (k' (x, swap cs' F b))) : Sim cs cs' F (r >>= k) (r' >>= k') :=
  Sim2.bind h fun x y ⟨h1, h2, h3⟩ => by
    obtain ⟨x, b⟩ := x
    obtain ⟨y, b'⟩ := y
    simp only at h1 h2 h3
    subst h1; subst h3
    exact hk _ _ h2

omit [DecidableEq P] in
theorem Sim.same {r : Py α} {k k' : α → Py (β × Builder P)} (hk : ∀ x, Sim cs cs' F (k x) (k' x)) : Sim cs cs' F (r >>= k) (r >>= k') := Sim2.same hk

omit [DecidableEq P] in
theorem rd_same (h : List.Forall₂ CommoditySteps cs cs') (i : Nat) :
    (∃ e, rd cs i = .error e ∧ rd cs' i = .error e) ∨ ∃ c c', rd cs i = .ok c ∧ rd cs' i = .ok c' ∧ CommoditySteps c c' := by
  induction h generalizing i with
  | nil => exact .inl ⟨_, rfl, rfl⟩
  | cons h _ ih =>
    cases i with
    | zero => exact .inr ⟨_, _, rfl, rfl, h⟩
    | succ i => exact ih i

theorem getCosts_same {b : Builder P} (hb : b.net.commodities = cs) (p : P) : Sim cs cs' F (b.getCosts preds p) ((swap cs' F b).getCosts preds p) := by
  unfold Builder.getCosts
  change Sim cs cs' F _ (match b.cache p with | some costs => _ | none => _)
  cases b.cache p with
  | some c => exact Sim.ok hb
  | none =>
    refine Sim.same fun ps => ?_
    refine Sim.same fun costs => ?_
    exact Sim.ok hb

theorem assign_same {n : Network P} (hcs : n.commodities = cs) (h : List.Forall₂ CommoditySteps cs cs') (p : P) (v : Nat) (a : List Nat) : ∀ js d,
    assign { n with commodities := cs' } p v a js d = assign n p v a js d := by
  intro js
  induction js with
  | nil => intro d; rfl
  | cons j js ih =>
    intro d
    unfold assign
    simp only [hcs]
    rcases rd_same h j with ⟨e, h1, h2⟩ | ⟨c, c', h1, h2, hc⟩
    · rw [h1, h2]; rfl
    · rw [h1, h2, ok_bind, ok_bind, hc.predictor, ih]

theorem constLoop_same {b : Builder P} (hb : b.net.commodities = cs) (h : List.Forall₂ CommoditySteps cs cs') {c c' : Commodity P} (hc : CommoditySteps c c') (costs : List ℚ) (dist : Nat → Option ℚ) : ∀ vs d,
    constLoop ord (swap cs' F b) c' costs dist vs d = constLoop ord b c costs dist vs d := by
  intro vs
  induction vs with
  | nil => intro d; rfl
  | cons v vs ih =>
    intro d
    unfold constLoop
    rw [hc.sink, hc.predictor]
    simp only [ih]
    change (if v = c.sink then _ else constActive b.net.graph costs dist v (b.net.graph.outgoing v) >>= fun a => pyAssert (a.length > 0) >>= fun _ =>
      assign { b.net with commodities := cs' } c.predictor v a (ord (b.sinkIds c.sink)) d >>= fun d => constLoop ord b c costs dist vs d) = _
    simp only [assign_same hb h]

theorem getActive_same {b : Builder P} (hb : b.net.commodities = cs) (h : List.Forall₂ CommoditySteps cs cs') (i s : Nat) : Sim cs cs' F (b.getActive ord preds i s) ((swap cs' F b).getActive ord preds i s) := by
  unfold Builder.getActive
  change Sim cs cs' F _ (match b.active i s with | some a => _ | none => _)
  cases b.active i s with
  | some a => exact Sim.ok hb
  | none =>
    simp only
    change Sim cs cs' F _ (rd cs' i >>= _)
    rw [hb]
    rcases rd_same h i with ⟨e, h1, h2⟩ | ⟨c, c', h1, h2, hc⟩
    · rw [h1, h2]; exact Sim.error
    rw [h1, h2, ok_bind, ok_bind]
    change Sim cs cs' F _ (rd b.important i >>= _)
    refine Sim.same fun nodes => ?_
    rw [hc.predictor, hc.sink]
    split
    · refine Sim.bind (getCosts_same hb _) fun costs b1 hb1 => ?_
      refine Sim.same fun consts => ?_
      refine Sim.same fun dist => ?_
      simp only
      rw [constLoop_same hb1 h hc]
      change Sim cs cs' F _ (constLoop ord b1 c consts dist (ord nodes) b1.active >>= _)
      refine Sim.same fun d => ?_
      cases d i s with
      | none => exact Sim.error
      | some a => exact Sim.ok hb1
    · refine Sim.bind (getCosts_same hb _) fun costs b1 hb1 => ?_
      refine Sim.same fun res => ?_
      refine Sim.same fun a => ?_
      exact Sim.ok hb1

theorem distribute_same (h : List.Forall₂ CommoditySteps cs cs') (v : Nat) (outs : List Rates) (net : Rates) : ∀ is (b : Builder P) d, b.net.commodities = cs →
    Sim cs cs' F (distribute ord preds v outs net is b d) (distribute ord preds v outs net is (swap cs' F b) d) := by
  intro is
  induction is with
  | nil => intro b d hb; exact Sim.ok hb
  | cons i is ih =>
    intro b d hb
    unfold distribute
    simp only
    split
    · exact ih _ _ hb
    · refine Sim.bind (getActive_same hb h _ _) fun a b1 hb1 => ?_
      refine Sim.same fun x => ?_
      refine Sim.same fun d => ?_
      exact ih _ _ hb1

theorem values_same (c : FRC) (G : Nat → Option RC) (t : ℚ) : ({ c with funs := G } : FRC).getValuesAtTime t = (c.getValuesAtTime t).map (fun q => (q.1, { q.2 with funs := G })) := by
  obtain ⟨f, q, a⟩ := c
  unfold FRC.getValuesAtTime
  simp only
  cases q with
  | nil => rfl
  | cons x l =>
    simp only
    split
    · rfl
    · cases FRC.advanceHead t (x :: l) with
      | nil => rfl
      | cons y r => rfl

theorem newInflow_same (h : List.Forall₂ CommoditySteps cs cs') : ∀ vs (b : Builder P) d, b.net.commodities = cs →
    Sim cs cs' F (newInflow ord preds vs b d) (newInflow ord preds vs (swap cs' F b) d) := by
  intro vs
  induction vs with
  | nil => intro b d hb; exact Sim.ok hb
  | cons v vs ih =>
    intro b d hb
    unfold newInflow
    simp only
    change Sim cs cs' F _ (outflows b.net.graph (b.net.graph.incoming v) b.flow >>= _)
    refine Sim.same fun q => ?_
    obtain ⟨outs, flow⟩ := q
    simp only
    change Sim cs cs' F _ (({ b.netInflow v with funs := F v } : FRC).getValuesAtTime flow.phi >>= _)
    rw [values_same (b.netInflow v) (F v) flow.phi]
    cases hv : (b.netInflow v).getValuesAtTime flow.phi with
    | error e => exact Sim.error
    | ok q =>
      obtain ⟨net, c⟩ := q
      simp only [Except.map, ok_bind]
      have e : (swap cs' F { b with flow := flow, netInflow := setAt b.netInflow v c }) =
          { swap cs' F { b with flow := flow } with netInflow := setAt (swap cs' F { b with flow := flow }).netInflow v { c with funs := F v } } := by
        unfold swap
        simp only
        congr 1
        funext u
        by_cases hu : u = v
        · subst hu; rw [DFlow.setAt_self, DFlow.setAt_self]
        · rw [DFlow.setAt_ne _ _ hu, DFlow.setAt_ne _ _ hu]
      have := distribute_same (F := F) (ord := ord) (preds := preds) h v outs net (ord (((outs.flatten ++ net).map Prod.fst).filter (fun i => ¬ i ∈ b.sinkIds v)))
        { b with flow := flow, netInflow := setAt b.netInflow v c } (reset b.net.graph (b.net.graph.outgoing v) d) hb
      rw [e] at this
      exact Sim.bind (k := fun q => newInflow ord preds vs q.2 q.1) (k' := fun q => newInflow ord preds vs q.2 q.1) this fun d b1 hb1 => ih b1 d hb1

omit [DecidableEq P] in
theorem popChanges_same : ∀ k (b : Builder P), b.net.commodities = cs → Sim2 (Swapped cs cs' F) (popChanges k b) (popChanges k (swap cs' F b)) := by
  intro k
  induction k with
  | zero => intro b _; rfl
  | succ k ih =>
    intro b hb
    unfold popChanges
    refine Sim2.same (r := b.changes.minKey) fun m => ?_
    change Sim2 _ _ (if m ≤ ev b.flow.phi then _ else _)
    split
    · exact Sim2.same (r := b.changes.pop) fun q => ih _ hb
    · exact ⟨hb, rfl⟩

omit [DecidableEq P] in
theorem reroute_same {b : Builder P} (hb : b.net.commodities = cs) : Sim2 (Swapped cs cs' F) (reroute b) (reroute (swap cs' F b)) := by
  obtain ⟨net, interval, active, built, handle, flow, nextReroute, route, important, netInflow, sinkIds, changes, cache⟩ := b
  unfold reroute swap
  simp only
  cases interval with
  | none => rfl
  | some d =>
    simp only
    split
    · exact ⟨hb, rfl⟩
    · exact ⟨hb, rfl⟩

theorem prepare_same (h : List.Forall₂ CommoditySteps cs cs') {b : Builder P} (hb : b.net.commodities = cs) :
    Sim2 (fun q q' : List (Nat × Rates) × ℚ × Builder P => q'.1 = q.1 ∧ q'.2.1 = q.2.1 ∧ Swapped cs cs' F q.2.2 q'.2.2) (b.prepare ord preds) ((swap cs' F b).prepare ord preds) := by
  unfold Builder.prepare
  refine Sim2.bind (popChanges_same (b.changes.len + 1) b hb) fun b1 b1' ⟨h1, e1⟩ => ?_
  subst e1
  refine Sim2.bind (reroute_same h1) fun b2 b2' ⟨h2, e2⟩ => ?_
  subst e2
  refine Sim2.bind (newInflow_same h (ord b2.handle) b2 [] h2) fun q q' ⟨h3, h4, h5⟩ => ?_
  obtain ⟨l, b3⟩ := q
  obtain ⟨l', b3'⟩ := q'
  simp only at h3 h4 h5
  subst h3; subst h5
  refine Sim2.same (r := b3.changes.minKey) fun m => ?_
  refine Sim2.same (r := (min (ev b3.nextReroute) m).toRat) fun T => ?_
  exact ⟨rfl, rfl, h4, rfl⟩

theorem step_same (h : List.Forall₂ CommoditySteps cs cs') {b : Builder P} (hb : b.net.commodities = cs) :
    Sim2 (Swapped cs cs' F) (b.step ord preds) ((swap cs' F b).step ord preds) := by
  unfold Builder.step
  refine Sim2.bind (prepare_same h hb) fun q q' ⟨h1, h2, h3, h4⟩ => ?_
  obtain ⟨l, T, b1⟩ := q
  obtain ⟨l', T', b1'⟩ := q'
  simp only at h1 h2 h3 h4
  subst h1; subst h2; subst h4
  refine Sim2.same (r := b1.flow.extend b1.net.data l' T') fun r => ?_
  refine Sim2.same (r := mapPy (fun e => rd b1.net.graph.edges e >>= fun r => pure (b1.net.graph.nodeTo r)) r.2) fun x => ?_
  exact ⟨h3, rfl⟩

theorem rounds_same (h : List.Forall₂ CommoditySteps cs cs') {b : Builder P} (hb : b.net.commodities = cs) : ∀ k,
    Sim2 (Swapped cs cs' F) (rounds ord preds k b) (rounds ord preds k (swap cs' F b)) := by
  intro k
  induction k with
  | zero => exact ⟨hb, rfl⟩
  | succ k ih =>
    unfold rounds
    refine Sim2.bind ih fun b1 b1' ⟨h1, e1⟩ => ?_
    subst e1
    exact step_same h h1

omit [DecidableEq P] in
theorem flow_same {r r' : Py (Builder P)} (h : Sim2 (Swapped cs cs' F) r r') : r'.map Builder.flow = r.map Builder.flow := by
  cases r with
  | error e =>
    cases r' with
    | error e' => cases h; rfl
    | ok y => exact h.elim
  | ok x =>
    cases r' with
    | error e' => exact h.elim
    | ok y => obtain ⟨_, rfl⟩ := h; rfl

end Rounds

end Redom
end Verif
