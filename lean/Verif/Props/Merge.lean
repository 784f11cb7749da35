import Verif.Proofs.Merge
import Verif.Props.Predictors
import Verif.Props.RightConstant

/-! Property theorems C53: merging commodities for the visualisation. -/

namespace Verif.Props
open Verif Verif.Spec Verif.Merge

theorem mergeCommodities_spec {net : EdgeData} {s : DFlow} (h : Reached net s) {m : Nat} {cs : List Nat} (hcs : cs ≠ []) {inItems outItems : Nat → List (Nat × RC)}
    (hin : ∀ e < m, Items (s.inflow e) (inItems e)) (hout : ∀ e < m, Items (s.outflow e) (outItems e)) :
    ∃ s' k, mergeCommodities s m cs inItems outItems = .ok s' ∧ s'.queues = s.queues ∧ k ∈ cs ∧ (∀ i ∈ cs, k ≤ i) ∧ ∀ e < m,
      MergedRates cs k (1000 * eps * breakPoints (inItems e)) (inRate s e) (inRate s' e) ∧
      MergedRates cs k (1000 * eps * breakPoints (outItems e)) (outRate s e) (outRate s' e) ∧
      (SumApart cs (inRate s e) → MergedRates cs k 0 (inRate s e) (inRate s' e)) ∧
      (SumApart cs (outRate s e) → MergedRates cs k 0 (outRate s e) (outRate s' e)) := by
  obtain ⟨hn, s0, calls, h0, h1, h2⟩ := h
  obtain ⟨⟨Q, C, hx⟩, _⟩ := exact_reach hn h0 h1 h2
  obtain ⟨k, hk⟩ : ∃ k, cs.min? = some k := by
    cases hm : cs.min? with
    | none => exact absurd (List.min?_eq_none_iff.mp hm) hcs
    | some k => exact ⟨k, rfl⟩
  obtain ⟨hkm, hkl⟩ := List.min?_eq_some_iff.mp hk
  have key : ∀ (c c' : FRC) (r r' : Nat → ℚ → ℚ) (δ : ℚ), (∀ i x, 0 ≤ x → r i x = FRC.rate c.funs i x) → (∀ i x, 0 ≤ x → r' i x = FRC.rate c'.funs i x) →
      MergedRates cs k δ (FRC.rate c.funs) (FRC.rate c'.funs) →
      (SumApart cs (FRC.rate c.funs) → ∀ x, 0 ≤ x → FRC.rate c'.funs k x = (cs.dedup.map (fun i => FRC.rate c.funs i x)).sum) →
      MergedRates cs k δ r r' ∧ (SumApart cs r → MergedRates cs k 0 r r') := by
    intro c c' r r' δ hr hr' hm hs
    have hsum : ∀ x, 0 ≤ x → (cs.dedup.map (fun i => r i x)).sum = (cs.dedup.map (fun i => FRC.rate c.funs i x)).sum :=
      fun x hx => congrArg _ (List.map_congr_left fun i _ => hr i x hx)
    have k1 : ∀ i, i ∉ cs → ∀ x, 0 ≤ x → r' i x = r i x := fun i hi x hx => by rw [hr' i x hx, hr i x hx, hm.kept i hi x hx]
    have k2 : ∀ i, i ∈ cs → i ≠ k → ∀ x, 0 ≤ x → r' i x = 0 := fun i hi hne x hx => by rw [hr' i x hx, hm.gone i hi hne x hx]
    refine ⟨⟨k1, k2, fun x hx => ?_⟩, fun hap => ⟨k1, k2, fun x hx => ?_⟩⟩
    · rw [hsum x hx, hr' k x hx]; exact hm.sum x hx
    · rw [hsum x hx, hr' k x hx, hs ?_ x hx, sub_self, abs_zero]
      intro a b ha hb
      have := hap a b ha hb
      rwa [hsum a ha, hsum b hb] at this
  have e1 : ∀ e, inRate s e = fun i x => match (s.inflow e).rateAt i x with | .ok y => y | .error _ => 0 := fun e => rfl
  have hexi : ∀ e, ∃ c', e < m → mergeCollection cs k (inItems e) = .ok c' ∧ (∀ i x, 0 ≤ x → c'.rateAt i x = .ok (FRC.rate c'.funs i x)) ∧
      MergedRates cs k (1000 * eps * breakPoints (inItems e)) (FRC.rate (s.inflow e).funs) (FRC.rate c'.funs) ∧
      (SumApart cs (FRC.rate (s.inflow e).funs) → ∀ x, 0 ≤ x → FRC.rate c'.funs k x = (cs.dedup.map (fun i => FRC.rate (s.inflow e).funs i x)).sum) := by
    intro e
    by_cases he : e < m
    · obtain ⟨_, _, _, _, _, hh⟩ := hx.edge e
      obtain ⟨c', hc'⟩ := mergeCollection_spec hkm hh.gin (hin e he)
      exact ⟨c', fun _ => hc'⟩
    · exact ⟨s.inflow e, fun h => absurd h he⟩
  have hexo : ∀ e, ∃ c', e < m → mergeCollection cs k (outItems e) = .ok c' ∧ (∀ i x, 0 ≤ x → c'.rateAt i x = .ok (FRC.rate c'.funs i x)) ∧
      MergedRates cs k (1000 * eps * breakPoints (outItems e)) (FRC.rate (s.outflow e).funs) (FRC.rate c'.funs) ∧
      (SumApart cs (FRC.rate (s.outflow e).funs) → ∀ x, 0 ≤ x → FRC.rate c'.funs k x = (cs.dedup.map (fun i => FRC.rate (s.outflow e).funs i x)).sum) := by
    intro e
    by_cases he : e < m
    · obtain ⟨_, _, _, _, _, hh⟩ := hx.edge e
      obtain ⟨c', hc'⟩ := mergeCollection_spec hkm hh.gout (hout e he)
      exact ⟨c', fun _ => hc'⟩
    · exact ⟨s.outflow e, fun h => absurd h he⟩
  choose ci hci using hexi
  choose co hco using hexo
  have m1 := Predictors.mapPy_eq (f := fun e => mergeCollection cs k (inItems e)) (g := ci) (l := List.range m) (fun e he => (hci e (List.mem_range.mp he)).1)
  have m2 := Predictors.mapPy_eq (f := fun e => mergeCollection cs k (outItems e)) (g := co) (l := List.range m) (fun e he => (hco e (List.mem_range.mp he)).1)
  refine ⟨{ s0 with queues := s.queues, inflow := fun e => ((List.range m).map ci).getD e (s0.inflow e), outflow := fun e => ((List.range m).map co).getD e (s0.outflow e) },
    k, ?_, rfl, hkm, hkl, ?_⟩
  · unfold mergeCommodities
    rw [hk]
    simp only
    unfold mergeInto
    rw [h0, ok_bind, m1, ok_bind, m2, ok_bind]; rfl
  · intro e he
    obtain ⟨_, _, _, _, _, hh⟩ := hx.edge e
    obtain ⟨_, a2, a3, a4⟩ := hci e he
    obtain ⟨_, b2, b3, b4⟩ := hco e he
    have gi : ((List.range m).map ci).getD e (s0.inflow e) = ci e := by
      rw [List.getD_eq_getElem?_getD, List.getElem?_map, List.getElem?_range he]; rfl
    have go : ((List.range m).map co).getD e (s0.outflow e) = co e := by
      rw [List.getD_eq_getElem?_getD, List.getElem?_map, List.getElem?_range he]; rfl
    obtain ⟨p1, p2⟩ := key (s.inflow e) (ci e) (inRate s e)
      (inRate { s0 with queues := s.queues, inflow := fun e => ((List.range m).map ci).getD e (s0.inflow e), outflow := fun e => ((List.range m).map co).getD e (s0.outflow e) } e)
      _ (fun i x hx => by unfold inRate; rw [rateAt_eval hh.gin i hx])
      (fun i x hx => by
        unfold inRate
        show (match (((List.range m).map ci).getD e (s0.inflow e)).rateAt i x with | .ok y => y | .error _ => 0) = _
        rw [gi, a2 i x hx]) a3 a4
    obtain ⟨q1, q2⟩ := key (s.outflow e) (co e) (outRate s e)
      (outRate { s0 with queues := s.queues, inflow := fun e => ((List.range m).map ci).getD e (s0.inflow e), outflow := fun e => ((List.range m).map co).getD e (s0.outflow e) } e)
      _ (fun i x hx => by unfold outRate; rw [rateAt_eval hh.gout i hx])
      (fun i x hx => by
        unfold outRate
        show (match (((List.range m).map co).getD e (s0.outflow e)).rateAt i x with | .ok y => y | .error _ => 0) = _
        rw [go, b2 i x hx]) b3 b4
    exact ⟨p1, q1, p2, q2⟩

/-- **C53.** Merging any commodities of any reached flow never raises, keeps the queues and the rates of all other commodities, and gives the
smallest of the merged ids the sum of their rates on every edge at every time, up to the tolerance of `simplify`: `1000 * eps` per recorded break point. -/
theorem C53_merge {net : EdgeData} {s : DFlow} (h : Reached net s) {m : Nat} {cs : List Nat} (hcs : cs ≠ []) {inItems outItems : Nat → List (Nat × RC)}
    (hin : ∀ e < m, Items (s.inflow e) (inItems e)) (hout : ∀ e < m, Items (s.outflow e) (outItems e)) :
    ∃ s' k, mergeCommodities s m cs inItems outItems = .ok s' ∧ s'.queues = s.queues ∧ k ∈ cs ∧ (∀ i ∈ cs, k ≤ i) ∧ ∀ e < m,
      MergedRates cs k (1000 * eps * breakPoints (inItems e)) (inRate s e) (inRate s' e) ∧
      MergedRates cs k (1000 * eps * breakPoints (outItems e)) (outRate s e) (outRate s' e) := by
  obtain ⟨s', k, h1, h2, h3, h4, h5⟩ := mergeCommodities_spec h hcs hin hout
  exact ⟨s', k, h1, h2, h3, h4, fun e he => ⟨(h5 e he).1, (h5 e he).2.1⟩⟩

/-- **C53**, without error, when the sums of the rates never change by a positive amount below the tolerance. -/
theorem C53_merge_exact {net : EdgeData} {s : DFlow} (h : Reached net s) {m : Nat} {cs : List Nat} (hcs : cs ≠ []) {inItems outItems : Nat → List (Nat × RC)}
    (hin : ∀ e < m, Items (s.inflow e) (inItems e)) (hout : ∀ e < m, Items (s.outflow e) (outItems e))
    (hi : ∀ e < m, SumApart cs (inRate s e)) (ho : ∀ e < m, SumApart cs (outRate s e)) :
    ∃ s' k, mergeCommodities s m cs inItems outItems = .ok s' ∧ s'.queues = s.queues ∧ k ∈ cs ∧ (∀ i ∈ cs, k ≤ i) ∧ ∀ e < m,
      MergedRates cs k 0 (inRate s e) (inRate s' e) ∧ MergedRates cs k 0 (outRate s e) (outRate s' e) := by
  obtain ⟨s', k, h1, h2, h3, h4, h5⟩ := mergeCommodities_spec h hcs hin hout
  exact ⟨s', k, h1, h2, h3, h4, fun e he => ⟨(h5 e he).2.2.1 (hi e he), (h5 e he).2.2.2 (ho e he)⟩⟩

/-- **C53**: with no commodities to merge the flow itself is returned. -/
theorem C53_nothing (s : DFlow) (m : Nat) (inItems outItems : Nat → List (Nat × RC)) : mergeCommodities s m [] inItems outItems = .ok s := rfl

/-- Merged rates have the same total, over any list of distinct commodities that contains the merged ones. -/
theorem C53_total {cs : List Nat} {k : Nat} {δ : ℚ} {R R' : Nat → ℚ → ℚ} (h : MergedRates cs k δ R R') (hk : k ∈ cs) {all : List Nat} (hn : all.Nodup)
    (hall : ∀ i ∈ cs, i ∈ all) {x : ℚ} (hx : 0 ≤ x) : |(all.map (fun i => R' i x)).sum - (all.map (fun i => R i x)).sum| ≤ δ := by
  have hp : (cs.dedup ++ all.filter (· ∉ cs)).Perm all := by
    rw [List.perm_ext_iff_of_nodup _ hn]
    · intro i
      simp only [List.mem_append, List.mem_dedup, List.mem_filter, decide_eq_true_eq]
      constructor
      · rintro (h | h)
        · exact hall i h
        · exact h.1
      · intro h
        by_cases hc : i ∈ cs
        · exact .inl hc
        · exact .inr ⟨h, hc⟩
    · rw [List.nodup_append]
      refine ⟨cs.nodup_dedup, hn.filter _, ?_⟩
      intro a ha b hb hab
      subst hab
      simp only [List.mem_dedup, List.mem_filter, decide_eq_true_eq] at ha hb
      exact hb.2 ha
  rw [← (hp.map (fun i => R' i x)).sum_eq, ← (hp.map (fun i => R i x)).sum_eq, List.map_append, List.map_append, List.sum_append, List.sum_append]
  have e1 : ((all.filter (· ∉ cs)).map (fun i => R' i x)) = (all.filter (· ∉ cs)).map (fun i => R i x) :=
    List.map_congr_left fun i hi => h.kept i (of_decide_eq_true (List.mem_filter.mp hi).2) x hx
  have e2 : (cs.dedup.map (fun i => R' i x)).sum = R' k x := by
    have : cs.dedup.map (fun i => R' i x) = cs.dedup.map (fun i => if i = k then R' k x else 0) := by
      refine List.map_congr_left fun i hi => ?_
      by_cases hik : i = k
      · subst hik; simp
      · rw [if_neg hik]; exact h.gone i (List.mem_dedup.mp hi) hik x hx
    rw [this, sum_ite_mem cs.nodup_dedup, if_pos (List.mem_dedup.mpr hk)]
  rw [e1, e2, add_sub_add_right_eq_sub]
  exact h.sum x hx

/-- The dict of functions of every collection of a reached flow has items. -/
theorem C53_items {net : EdgeData} {s : DFlow} (h : Reached net s) (e : Nat) : (∃ l, Items (s.inflow e) l) ∧ ∃ l, Items (s.outflow e) l := by
  obtain ⟨hn, s0, calls, h0, h1, h2⟩ := h
  obtain ⟨⟨Q, C, hx⟩, _⟩ := exact_reach hn h0 h1 h2
  obtain ⟨_, _, _, _, _, hh⟩ := hx.edge e
  have key : ∀ {c : FRC} {L R : ℚ} {V : Rates}, c.Good L V R → ∃ l, Items c l := by
    intro c L R V hg
    obtain ⟨H, _, _, _, ⟨N, hN⟩, _⟩ := hg.chain
    have aux : ∀ (K : List Nat), K.Nodup → ((K.filterMap (fun i => (c.funs i).map (fun f => (i, f)))).map Prod.fst).Nodup ∧
        (∀ j ∈ (K.filterMap (fun i => (c.funs i).map (fun f => (i, f)))).map Prod.fst, j ∈ K) ∧
        ∀ i, (K.filterMap (fun i => (c.funs i).map (fun f => (i, f)))).lookup i = if i ∈ K then c.funs i else none := by
      intro K
      induction K with
      | nil => intro _; simp
      | cons j K ih =>
        intro hK
        rw [List.nodup_cons] at hK
        obtain ⟨i1, i2, i3⟩ := ih hK.2
        cases hf : c.funs j with
        | none =>
          have e : (j :: K).filterMap (fun i => (c.funs i).map (fun f => (i, f))) = K.filterMap (fun i => (c.funs i).map (fun f => (i, f))) := by
            rw [List.filterMap_cons_none]; rw [hf]; rfl
          rw [e]
          refine ⟨i1, fun a ha => List.mem_cons_of_mem _ (i2 a ha), fun i => ?_⟩
          rw [i3]
          by_cases hij : i = j
          · subst hij; simp [hf]
          · simp [hij]
        | some f =>
          have e : (j :: K).filterMap (fun i => (c.funs i).map (fun f => (i, f))) = (j, f) :: K.filterMap (fun i => (c.funs i).map (fun f => (i, f))) := by
            rw [List.filterMap_cons_some]; rw [hf]; rfl
          rw [e]
          refine ⟨?_, ?_, fun i => ?_⟩
          · rw [List.map_cons, List.nodup_cons]
            exact ⟨fun hj => hK.1 (i2 j hj), i1⟩
          · intro a ha
            rcases List.mem_cons.mp ha with h | h
            · rw [h]; simp
            · exact List.mem_cons_of_mem _ (i2 a h)
          · rw [List.lookup_cons, i3]
            by_cases hij : i = j
            · subst hij; simp [hf]
            · have : (i == j) = false := by simpa using hij
              rw [this]; simp [hij]
    obtain ⟨a1, _, a3⟩ := aux (List.range N) List.nodup_range
    refine ⟨_, a1, fun i => ?_⟩
    rw [a3]
    split
    · rfl
    · rename_i hi
      exact (hN i (by simpa using hi)).symm
  exact ⟨key hh.gin, key hh.gout⟩

theorem mergeLoop_single {k : Nat} : ∀ {l d : List (Nat × RC)}, ((d ++ l).map Prod.fst).Nodup → mergeLoop [k] k l d = .ok (d ++ l) := by
  have hset : ∀ {d : List (Nat × RC)} {i : Nat} {f : RC}, i ∉ d.map Prod.fst → setD i f d = d ++ [(i, f)] := by
    intro d
    induction d with
    | nil => intro i f _; rfl
    | cons p d ih =>
      intro i f h
      rw [List.map_cons, List.mem_cons, not_or] at h
      obtain ⟨j, g⟩ := p
      unfold setD
      rw [if_neg (Ne.symm h.1), ih h.2]; rfl
  intro l
  induction l with
  | nil => intro d _; rw [List.append_nil]; rfl
  | cons p l ih =>
    obtain ⟨i, f⟩ := p
    intro d h
    have hfresh : i ∉ d.map Prod.fst := by
      intro hi
      rw [List.map_append, List.nodup_append] at h
      exact h.2.2 i hi i (by simp) rfl
    have hn : ((d ++ [(i, f)] ++ l).map Prod.fst).Nodup := by rwa [List.append_assoc, List.singleton_append]
    unfold mergeLoop
    by_cases hi : i = k
    · subst hi
      rw [if_neg (by simp), addSource_fresh hfresh, ok_bind, hset hfresh, ih hn, List.append_assoc, List.singleton_append]
    · rw [if_pos (by simpa using hi), hset hfresh, ih hn, List.append_assoc, List.singleton_append]

/-- Three rates of commodity 0, each 999 eps above the one before. -/
def driftCalls : List FlowCall :=
  [.extend [(0, [(0, 1 / 4)])] 1, .extend [(0, [(0, 1 / 4 + 999 * eps)])] 2, .extend [(0, [(0, 1 / 4 + 1998 * eps)])] 3]

/-- **C53**: the factor (number of break points) in the bound is needed: the differences of neighbouring values add up, and after merging the rate
of a commodity (with nothing but itself) can be off by more than the tolerance `1000 * eps` of one comparison. -/
theorem C53_drift : ∃ s, Reached sampleNet s ∧ ∀ inItems outItems s', (∀ e < 2, Items (s.inflow e) (inItems e)) →
    mergeCommodities s 2 [0] inItems outItems = .ok s' → inRate s 0 0 2 = 1 / 4 + 1998 * eps ∧ inRate s' 0 0 2 = 1 / 4 := by
  obtain ⟨s, hs, hp⟩ := reached_of (calls := driftCalls) (post := fun s => (s.inflow 0).funs 0 ==
    some ⟨[0, 1, 2], [1 / 4, 1 / 4 + 999 * eps, 1 / 4 + 1998 * eps], ((0 : ℚ) : WithBot ℚ), ⊤⟩) (by unfold driftCalls eps; decide +kernel)
  have hf := eq_of_beq hp
  refine ⟨s, hs, fun inItems outItems s' hin hm => ?_⟩
  constructor
  · unfold inRate FRC.rateAt
    rw [hf]
    unfold eps
    decide +kernel
  unfold mergeCommodities at hm
  rw [show ([0] : List Nat).min? = some 0 from rfl] at hm
  simp only at hm
  unfold mergeInto at hm
  obtain ⟨s0, _, hm⟩ := bind_eq_ok.mp hm
  obtain ⟨ci, hci, hm⟩ := bind_eq_ok.mp hm
  obtain ⟨co, _, hm⟩ := bind_eq_ok.mp hm
  injection hm with hm
  rw [show List.range 2 = [0, 1] from rfl] at hci
  unfold Builder.mapPy at hci
  obtain ⟨c, hc, hci⟩ := bind_eq_ok.mp hci
  obtain ⟨l, _, hci⟩ := bind_eq_ok.mp hci
  injection hci with hci
  have hi := hin 0 (by omega)
  unfold mergeCollection at hc
  rw [mergeLoop_single (d := []) (by simpa using hi.1), ok_bind, List.nil_append] at hc
  unfold simplifyAt at hc
  rw [hi.2, hf] at hc
  have hsimp : RC.simplify ⟨[0, 1, 2], [1 / 4, 1 / 4 + 999 * eps, 1 / 4 + 1998 * eps], ((0 : ℚ) : WithBot ℚ), ⊤⟩ = .ok ⟨[0], [1 / 4], ((0 : ℚ) : WithBot ℚ), ⊤⟩ := by
    unfold eps; decide +kernel
  simp only [hsimp, ok_bind] at hc
  obtain ⟨d, hd, hc⟩ := bind_eq_ok.mp hc
  injection hd with hd
  unfold FRC.ofDict at hc
  obtain ⟨_, _, hc⟩ := bind_eq_ok.mp hc
  obtain ⟨_, _, hc⟩ := bind_eq_ok.mp hc
  obtain ⟨_, _, hc⟩ := bind_eq_ok.mp hc
  obtain ⟨_, _, hc⟩ := bind_eq_ok.mp hc
  injection hc with hc
  have hfun : (s'.inflow 0).funs 0 = some ⟨[0], [1 / 4], ((0 : ℚ) : WithBot ℚ), ⊤⟩ := by
    rw [← hm]
    show (ci.getD 0 (s0.inflow 0)).funs 0 = _
    rw [← hci, List.getD_cons_zero, ← hc, ← hd]
    simp only
    rw [setD_lookup, if_pos rfl]
  unfold inRate FRC.rateAt
  rw [hfun]
  decide +kernel

/-- A value of a step function is one of its values. -/
theorem fn_mem {f : RC} (h : f.WF) (x : ℚ) : f.fn x ∈ f.values := by
  unfold RC.fn
  have : RC.idx f x < f.values.length := by
    have := h.pos
    have hl := h.len
    unfold RC.idx
    have : RC.cnt f x ≤ f.times.length := List.countP_le_length
    omega
  rw [List.getD_eq_getElem?_getD, List.getElem?_eq_getElem this]
  exact List.getElem_mem _

/-- A check of `SumApart` for two commodities. -/
def sumApartB (f g : Option RC) : Bool :=
  ((f.map RC.values).getD [0]).all fun a => ((g.map RC.values).getD [0]).all fun b =>
    ((f.map RC.values).getD [0]).all fun c => ((g.map RC.values).getD [0]).all fun d => decide (a + b = c + d ∨ 1000 * eps ≤ |a + b - (c + d)|)

theorem sumApartB_sound {net : EdgeData} {s : DFlow} (h : Reached net s) {e : Nat} (hi : sumApartB ((s.inflow e).funs 0) ((s.inflow e).funs 1) = true)
    (ho : sumApartB ((s.outflow e).funs 0) ((s.outflow e).funs 1) = true) : SumApart [0, 1] (inRate s e) ∧ SumApart [0, 1] (outRate s e) := by
  obtain ⟨hn, s0, calls, h0, h1, h2⟩ := h
  obtain ⟨⟨Q, C, hx⟩, _⟩ := exact_reach hn h0 h1 h2
  obtain ⟨_, _, _, _, _, hh⟩ := hx.edge e
  have key : ∀ {c : FRC} {L R : ℚ} {V : Rates}, c.Good L V R → sumApartB (c.funs 0) (c.funs 1) = true → ∀ r : Nat → ℚ → ℚ,
      (∀ i x, 0 ≤ x → r i x = FRC.rate c.funs i x) → SumApart [0, 1] r := by
    intro c L R V hg hb r hr x y hx hy
    have hm : ∀ i z, 0 ≤ z → r i z ∈ ((c.funs i).map RC.values).getD [0] := by
      intro i z hz
      rw [hr i z hz]
      unfold FRC.rate
      cases hf : c.funs i with
      | none => simp
      | some f => exact fn_mem ((hg.funs i).1 f hf).wf z
    have := List.all_eq_true.mp (List.all_eq_true.mp (List.all_eq_true.mp (List.all_eq_true.mp hb _ (hm 0 x hx)) _ (hm 1 x hx)) _ (hm 0 y hy)) _ (hm 1 y hy)
    have := of_decide_eq_true this
    have hd : ([0, 1] : List Nat).dedup = [0, 1] := by decide
    rw [hd]
    simpa using this
  exact ⟨key hh.gin hi _ (fun i x hx => by unfold inRate; rw [rateAt_eval hh.gin i hx]),
    key hh.gout ho _ (fun i x hx => by unfold outRate; rw [rateAt_eval hh.gout i hx])⟩

/-- **C53**, hypotheses met: two commodities with rates 3 and 1 on the same edge; both theorems apply, the merged rate is 4. -/
example : ∃ s inItems outItems, Reached sampleNet s ∧ (∀ e < 2, Items (s.inflow e) (inItems e)) ∧ (∀ e < 2, Items (s.outflow e) (outItems e)) ∧
    (∀ e < 2, SumApart [0, 1] (inRate s e)) ∧ (∀ e < 2, SumApart [0, 1] (outRate s e)) ∧ inRate s 0 0 (1 / 2) = 3 ∧ inRate s 0 1 (1 / 2) = 1 ∧
    ∃ s', mergeCommodities s 2 [0, 1] inItems outItems = .ok s' ∧ inRate s' 0 0 (1 / 2) = 4 := by
  obtain ⟨s, hs, hp⟩ := reached_of (calls := sampleCalls) (post := fun s => ((s.inflow 0).rateAt 0 (1 / 2)).toOption == some 3 &&
    (((s.inflow 0).rateAt 1 (1 / 2)).toOption == some 1 && (List.range 2).all (fun e => sumApartB ((s.inflow e).funs 0) ((s.inflow e).funs 1) &&
      sumApartB ((s.outflow e).funs 0) ((s.outflow e).funs 1)))) (by unfold sampleCalls; decide +kernel)
  obtain ⟨p1, p2⟩ := Bool.and_eq_true_iff.mp hp
  obtain ⟨p2, p3⟩ := Bool.and_eq_true_iff.mp p2
  have hap : ∀ e < 2, SumApart [0, 1] (inRate s e) ∧ SumApart [0, 1] (outRate s e) := by
    intro e he
    obtain ⟨q1, q2⟩ := Bool.and_eq_true_iff.mp (List.all_eq_true.mp p3 e (List.mem_range.mpr he))
    exact sumApartB_sound hs q1 q2
  have r0 : inRate s 0 0 (1 / 2) = 3 := by
    have := eq_of_beq p1
    unfold inRate
    cases hv : (s.inflow 0).rateAt 0 (1 / 2) with
    | error e => rw [hv] at this; cases this
    | ok y => rw [hv] at this; injection this
  have r1 : inRate s 0 1 (1 / 2) = 1 := by
    have := eq_of_beq p2
    unfold inRate
    cases hv : (s.inflow 0).rateAt 1 (1 / 2) with
    | error e => rw [hv] at this; cases this
    | ok y => rw [hv] at this; injection this
  choose inItems hin using fun e => (C53_items hs e).1
  choose outItems hout using fun e => (C53_items hs e).2
  refine ⟨s, inItems, outItems, hs, fun e _ => hin e, fun e _ => hout e, fun e he => (hap e he).1, fun e he => (hap e he).2, r0, r1, ?_⟩
  obtain ⟨s', k, h1, _, h3, h4, h5⟩ := C53_merge_exact hs (m := 2) (cs := [0, 1]) (by simp) (fun e _ => hin e) (fun e _ => hout e)
    (fun e he => (hap e he).1) (fun e he => (hap e he).2)
  refine ⟨s', h1, ?_⟩
  have hk : k = 0 := by have := h4 0 (by simp); omega
  subst hk
  have := (h5 0 (by omega)).1.sum (1 / 2) (by norm_num)
  have hd : ([0, 1] : List Nat).dedup = [0, 1] := by decide
  rw [hd] at this
  simp only [List.map_cons, List.map_nil, List.sum_cons, List.sum_nil, add_zero] at this
  rw [r0, r1] at this
  have := abs_nonpos_iff.mp this
  linarith

/-- C22 (step functions), without any condition on the values: `simplify` returns a valid function whose break points are among the old ones and that
differs from the old one by at most `1000 * eps` per dropped comparison. -/
theorem C22_simplify_step_drift (f : RC) (h : ValidRC f) : ∃ g, f.simplify = .ok g ∧ ValidRC g ∧ g.lo = f.lo ∧ g.hi = f.hi ∧ g.times.Sublist f.times ∧
    g.times.head? = f.times.head? ∧ ∀ x, f.inDom x → ∃ a b, f.eval x = .ok a ∧ g.eval x = .ok b ∧ |b - a| ≤ 1000 * eps * (f.times.length - 1 : Nat) := by
  have hw : f.WF := h.wf
  obtain ⟨g, g1, g2, g3, g4, g5, _, g7, g8⟩ := RC.simplify_drift hw
  refine ⟨g, g1, g2.valid, g3, g4, g5, g7, fun x hx => ⟨_, _, RC.eval_eq hw hx, RC.eval_eq g2 ?_, g8 x⟩⟩
  unfold RC.inDom at hx ⊢
  rw [g3, g4]; exact hx

example : ValidRC ⟨[0, 1, 2], [1 / 4, 1 / 4 + 999 * eps, 1 / 4 + 1998 * eps], (0 : ℚ), ⊤⟩ :=
  RC.WF.valid ⟨rfl, by simp, by decide +kernel, by decide +kernel⟩

end Verif.Props
