import Verif.Props.ReproducibleBuild
import Verif.Proofs.CausalBuilder

/-! Property theorem C112 (src/core/flow_builder.py): the flow that is built until some time follows from the demands until then. -/

namespace Verif.Props
open Verif Spec Builder

variable {P : Type} [DecidableEq P]

theorem init_important {n : Network P} {d : Option ℚ} {b : Builder P} (h : Builder.init n d = .ok b) : mapPy (importantOf n.graph) n.commodities = .ok b.important := by
  unfold Builder.init at h
  obtain ⟨f, _, h⟩ := bind_eq_ok.mp h
  obtain ⟨imp, h1, h⟩ := bind_eq_ok.mp h
  obtain ⟨_, _, h⟩ := bind_eq_ok.mp h
  obtain ⟨_, _, h⟩ := bind_eq_ok.mp h
  obtain ⟨_, _, h⟩ := bind_eq_ok.mp h
  obtain ⟨_, _, h⟩ := bind_eq_ok.mp h
  injection h with h
  subst h
  exact h1

omit [DecidableEq P] in
theorem same_importants (g : Graph) {T : ℚ} {cs ds : List (Commodity P)} (h : List.Forall₂ (SameCommodity T) cs ds) : mapPy (importantOf g) cs = mapPy (importantOf g) ds := by
  induction h with
  | nil => rfl
  | cons hab _ ih => unfold mapPy; rw [same_important _ hab, ih]

theorem history_of_agree {net : EdgeData} {s s' : DFlow} {Q Q' : Nat → Pend} {C C' : Nat × ℚ → Bool} (h : DFlow.Exact net s Q C) (h' : DFlow.Exact net s' Q' C') {T : ℚ}
    (ha : DFlow.Agree s s' T) : SameHistory s s' T := by
  refine ⟨fun e i t h0 ht => ?_, fun e i t h0 ht => ?_, fun e t h0 ht => ?_, fun e t h0 ht => ?_, fun e t ht => ?_⟩ <;>
    obtain ⟨_, _, _, _, _, ho⟩ := h.edge e <;> obtain ⟨_, _, _, _, _, hn⟩ := h'.edge e
  · rw [rateAt_eval ho.gin i h0, rateAt_eval hn.gin i h0, (ha.inflow e).1 i t h0 ht]
  · rw [rateAt_eval ho.gout i h0, rateAt_eval hn.gout i h0, (ha.outflow e).1 i t h0 ht]
  · rw [acc_eval ho.gin h0, acc_eval hn.gin h0, (ha.inflow e).2 t ht]
  · rw [acc_eval ho.gout h0, acc_eval hn.gout h0, (ha.outflow e).2 t ht]
  · rw [PL.eval_eq ho.qwf (DFlow.inDom_all ho.qlo ho.qhi t), PL.eval_eq hn.qwf (DFlow.inDom_all hn.qlo hn.qhi t), ha.queue e t ht]

/-- **C112**: the flow builder does not look ahead. Two networks whose demands are the same before time `T` (and may differ in any way from `T` on) are
built with the same predictors and routing interval, with any order of sets and any numbers of rounds. Then up to `T`, as far as both flows have been built, they
have the same rates, cumulative flows and queues on all edges. -/
theorem C112_causal {n n' : Network P} {ord ord' : List Nat → List Nat} {preds : P → Predictor} {d T : ℚ} {b0 c0 b c : Builder P} {k k' : Nat}
    (hs : SameBefore T n n') (hb : Building n ord preds d b0 k) (hc : Building n' ord' preds d c0 k') (hbl : ∀ p, Blind (preds p)) (hsh : SharedNodes n preds)
    (hr : rounds ord preds k b0 = .ok b) (hr' : rounds ord' preds k' c0 = .ok c) : SameHistory b.flow c.flow (min T (min b.flow.phi c.flow.phi)) := by
  obtain ⟨g, cap, tt, ds⟩ := n'
  obtain ⟨h1, h2, h3, hcs⟩ := hs
  simp only at h1 h2 h3 hcs
  subst h1; subst h2; subst h3
  have hc : Building { n with commodities := ds } ord' preds d c0 k' := hc
  obtain ⟨f0, W, hf, hi⟩ := building_inv hb
  obtain ⟨f1, W', hf', hi'⟩ := building_inv hc
  rw [hf] at hf'; injection hf' with hf'; subst hf'
  obtain ⟨b', hb0, rfl⟩ := hb.made
  obtain ⟨c', hc0, rfl⟩ := hc.made
  have hshare : Share n b'.important preds := share_of_shared hb.input hsh hb0
  have himp : c'.important = b'.important := by
    have e1 := init_important hb0
    have e2 := init_important hc0
    have := same_importants n.graph hcs
    simp only at e2
    rw [← this, e1] at e2
    injection e2 with e2; exact e2.symm
  obtain ⟨_, _, g1, g2, _, _, g5, _, g7, g8, g9, g10, _, _, _, _, g15, M, g16, g17⟩ := init_spec hb.input (some d)
  rw [hb0] at g1; injection g1 with g1; subst g1
  rw [hf] at g2; injection g2 with g2; subst g2
  obtain ⟨_, _, k1, k2, _, _, k5, _, k7, k8, k9, k10, _, _, _, _, k15, M', k16, k17⟩ := init_spec hc.input (some d)
  rw [hc0] at k1; injection k1 with k1; subst k1
  rw [hf] at k2; injection k2 with k2; subst k2
  classical
  have hM : M = wmap (fun x => decide (Break n.commodities x)) := by
    funext x
    by_cases hx : Break n.commodities x
    · rw [(g17 x).1 hx]; simp [wmap, hx]
    · rw [(g17 x).2 hx]; simp [wmap, hx]
  have hM' : M' = wmap (fun x => decide (Break ds x)) := by
    funext x
    by_cases hx : Break ds x
    · rw [(k17 x).1 hx]; simp [wmap, hx]
    · rw [(k17 x).2 hx]; simp [wmap, hx]
  have tw : CTwin n ds T b'.important preds { b' with built := true } { c' with built := true } := by
    refine ⟨rfl, himp, by simp only [g9, k9], by simp only [g10, k10], by simp only [g15, k15], ?_, ?_, by simp only [g8, k8]; exact (DFlow.init_twin hf).1,
      fun v => by simp only [g7, k7], _, _, hM ▸ g16, hM' ▸ k16, fun x hx => of_decide_eq_true hx, fun x hx => of_decide_eq_true hx, fun x hx => ?_⟩
    · intro i v a ha; simp only [g5] at ha; cases ha
    · intro i v a ha; simp only [k5] at ha; cases ha
    · simp only [same_break hcs x hx]
  have hbl' : ∀ s s', DFlow.Twin n.data s s' → ∀ p t, (preds p).predict t s = (preds p).predict t s' := fun s s' hs p t => hbl p t s s' (record_of_twin hs)
  -- as many rounds as both have done
  have hcl1 : ClearRounds ord preds { b' with built := true } (min k k') := fun m hm => hb.clear m (by omega)
  have hcl2 : ClearRounds ord' preds { c' with built := true } (min k k') := fun m hm => hc.clear m (by omega)
  obtain ⟨x, _, _, _, _, r1, r2, _⟩ := inv_rounds hb.input hb.order hb.predictors hb.interval hf hi (min k k') hcl1
  obtain ⟨y, _, _, _, _, q1, q2, _⟩ := inv_rounds hc.input hc.order hc.predictors hc.interval hf hi' (min k k') hcl2
  obtain ⟨u, _, _, _, _, t1, t2, _⟩ := inv_rounds hb.input hb.order hb.predictors hb.interval hf hi k hb.clear
  rw [hr] at t1; injection t1 with t1; subst t1
  obtain ⟨w, _, _, _, _, w1, w2, _⟩ := inv_rounds hc.input hc.order hc.predictors hc.interval hf hi' k' hc.clear
  rw [hr'] at w1; injection w1 with w1; subst w1
  obtain ⟨_, _, hx, _⟩ := t2.flow.exact
  obtain ⟨_, _, hy, _⟩ := w2.flow.exact
  obtain ⟨a1, a2⟩ := rounds_past hb.input hb.order hb.predictors hb.interval hf hi hb.clear (k - min k k') (min k k') (by omega) r1 hr
  obtain ⟨e1, e2⟩ := rounds_past hc.input hc.order hc.predictors hc.interval hf hi' hc.clear (k' - min k k') (min k k') (by omega) q1 hr'
  refine history_of_agree hx hy ?_
  rcases rounds_causal hcs hb.input hc.input hshare hb.order hc.order hb.predictors hc.predictors hbl' hb.interval hf hi hi' tw _ hcl1 hcl2 r1 q1 with h | ⟨l1, l2, l3⟩
  · have hle : min b.flow.phi c.flow.phi ≤ x.flow.phi := by
      rcases le_total k k' with hk | hk
      · rw [min_eq_left hk] at r1
        rw [hr] at r1; injection r1 with r1; subst r1
        exact min_le_left _ _
      · rw [min_eq_right hk] at q1
        rw [hr'] at q1; injection q1 with q1; subst q1
        rw [h.flow.phi]
        exact min_le_right _ _
    have hag : DFlow.Agree b.flow c.flow x.flow.phi := a2.symm.trans ((DFlow.twin_agree h.flow _).trans (by rw [h.flow.phi]; exact e2))
    exact hag.mono (le_trans (min_le_right _ _) hle)
  · have hag : DFlow.Agree b.flow c.flow T := (a2.mono l1).symm.trans (l3.trans (e2.mono l2))
    exact hag.mono (min_le_left _ _)

/-- The network of C43 with another demand of the first commodity from time 2 on. -/
def laterNet : Network (Fin 3) :=
  { buildNet with
    commodities := [⟨[(0, ⟨[0, 2, 4], [3, (5 / 2), 0], ((0 : ℚ) : WithBot ℚ), ⊤⟩)], 2, 0⟩, ⟨[(0, ⟨[0, 3], [1, 0], ((0 : ℚ) : WithBot ℚ), ⊤⟩)], 2, 1⟩,
      ⟨[(1, ⟨[0, 1], [(1 / 2), 0], ((0 : ℚ) : WithBot ℚ), ⊤⟩)], 2, 2⟩] }

theorem laterNet_same : SameBefore 2 buildNet laterNet := by
  have hrefl : ∀ f : RC, SameSteps 2 f f := fun f => ⟨fun _ _ => Iff.rfl, fun _ _ => rfl⟩
  have hnew : SameSteps 2 ⟨[0, 2], [3, 0], ((0 : ℚ) : WithBot ℚ), ⊤⟩ ⟨[0, 2, 4], [3, (5 / 2), 0], ((0 : ℚ) : WithBot ℚ), ⊤⟩ := by
    have w1 : RC.WF ⟨[0, 2], [3, 0], ((0 : ℚ) : WithBot ℚ), ⊤⟩ := ⟨rfl, by simp, by decide +kernel, fun t ht => ⟨WithBot.coe_le_coe.mpr (by revert t; decide +kernel), le_top⟩⟩
    have w2 : RC.WF ⟨[0, 2, 4], [3, (5 / 2), 0], ((0 : ℚ) : WithBot ℚ), ⊤⟩ := ⟨rfl, by simp, by decide +kernel, fun t ht => ⟨WithBot.coe_le_coe.mpr (by revert t; decide +kernel), le_top⟩⟩
    refine ⟨fun t ht => ?_, fun t ht => ?_⟩
    · simp only [List.mem_cons, List.not_mem_nil, or_false]
      constructor
      · rintro (h | h)
        · exact Or.inl h
        · exact absurd h ht.ne
      · rintro (h | h | h)
        · exact Or.inl h
        · exact absurd h ht.ne
        · rw [h] at ht; norm_num at ht
    · unfold stepValue
      by_cases h0 : 0 ≤ t
      · rw [RC.eval_eq w1 ⟨WithBot.coe_le_coe.mpr h0, le_top⟩, RC.eval_eq w2 ⟨WithBot.coe_le_coe.mpr h0, le_top⟩]
        simp only
        rw [RC.fn_on w1 (i := 0) (by decide) h0 (fun h => ht), RC.fn_on w2 (i := 0) (by decide) h0 (fun h => ht)]
        rfl
      · rw [RC.eval_err (fun h => h0 (WithBot.coe_le_coe.mp h.1)), RC.eval_err (fun h => h0 (WithBot.coe_le_coe.mp h.1))]
  exact ⟨rfl, rfl, rfl, .cons ⟨rfl, rfl, .cons ⟨rfl, hnew⟩ .nil⟩ (.cons ⟨rfl, rfl, .cons ⟨rfl, hrefl _⟩ .nil⟩ (.cons ⟨rfl, rfl, .cons ⟨rfl, hrefl _⟩ .nil⟩ .nil))⟩

theorem laterNet_ok : InputOk laterNet := by
  have hb := buildNet_ok
  have e01 : Path buildNet.graph 0 1 := Relation.ReflTransGen.single ⟨0, by decide +kernel, rfl, rfl⟩
  have e12 : Path buildNet.graph 1 2 := Relation.ReflTransGen.single ⟨3, by decide +kernel, rfl, rfl⟩
  have i1 : InflowOk ⟨[0, 2, 4], [3, (5 / 2), 0], ((0 : ℚ) : WithBot ℚ), ⊤⟩ := ⟨rfl, by simp, by decide +kernel, by decide +kernel, rfl, rfl, by decide +kernel⟩
  have i2 : InflowOk ⟨[0, 3], [1, 0], ((0 : ℚ) : WithBot ℚ), ⊤⟩ := ⟨rfl, by simp, by decide +kernel, by decide +kernel, rfl, rfl, by decide +kernel⟩
  have i3 : InflowOk ⟨[0, 1], [(1 / 2), 0], ((0 : ℚ) : WithBot ℚ), ⊤⟩ := ⟨rfl, by simp, by decide +kernel, by decide +kernel, rfl, rfl, by decide +kernel⟩
  refine ⟨hb.graph, hb.capLen, hb.ttLen, hb.cap, hb.tt, by decide +kernel, by decide +kernel, ?_, ?_, ?_⟩
  · intro c hc s hs
    simp only [laterNet, List.mem_cons, List.not_mem_nil, or_false] at hc
    rcases hc with rfl | rfl | rfl <;> simp only [List.mem_cons, List.not_mem_nil, or_false] at hs <;> subst hs
    · exact ⟨by decide +kernel, e01.trans e12, i1⟩
    · exact ⟨by decide +kernel, e01.trans e12, i2⟩
    · exact ⟨by decide +kernel, e12, i3⟩
  · decide +kernel
  · unfold eps
    intro c hc s hs c' hc' s' hs'
    revert c hc s hs c' hc' s' hs'
    have : ∀ c ∈ laterNet.commodities, ∀ s ∈ c.sources, ∀ c' ∈ laterNet.commodities, ∀ s' ∈ c'.sources,
      ∀ a ∈ s.2.times, ∀ b ∈ s'.2.times, (a < b → (1 : ℚ) / 10000000000 < b - a) := by decide +kernel
    exact fun c hc s hs c' hc' s' hs' _ => this c hc s hs c' hc' s' hs'

theorem laterPreds_ok : PredictorsOk laterNet buildPreds := by
  intro p f0 f calls t h0 hc hr _ ht
  match p with
  | 0 => exact Predictors.zero_ok laterNet_ok t f
  | 1 => exact Predictors.const_ok laterNet_ok h0 hc hr ht
  | 2 => exact Predictors.const_ok laterNet_ok h0 hc hr ht

/-- The hypotheses of C112 are met: the two networks are built for 7 and 6 rounds, beyond time 2, with different orders; before time 2 the first commodity flows,
afterwards the flows differ. -/
example : ∃ b0 b c0 c, SameBefore 2 buildNet laterNet ∧ Building buildNet List.dedup buildPreds 2 b0 7 ∧ Building laterNet (fun l => l.dedup.reverse) buildPreds 2 c0 6 ∧
    rounds List.dedup buildPreds 7 b0 = .ok b ∧ rounds (fun l => l.dedup.reverse) buildPreds 6 c0 = .ok c ∧ (∀ p, Blind (buildPreds p)) ∧ SharedNodes buildNet buildPreds ∧
    inRate b.flow 0 0 1 = 3 / 2 ∧ inRate b.flow 0 0 (5 / 2) = 0 ∧ inRate c.flow 0 0 (5 / 2) = 5 / 4 ∧ 2 < b.flow.phi ∧ 2 < c.flow.phi := by
  obtain ⟨b0, h1, h2, b, h3, h4⟩ := buildB_sound (show buildB List.dedup buildPreds buildNet 2 7 (fun b => decide (inRate b.flow 0 0 1 = 3 / 2 ∧ inRate b.flow 0 0 (5 / 2) = 0 ∧ 2 < b.flow.phi)) = true by decide +kernel)
  obtain ⟨c0, k1, k2, c, k3, k4⟩ := buildB_sound (show buildB (fun l => l.dedup.reverse) buildPreds laterNet 2 6 (fun b => decide (inRate b.flow 0 0 (5 / 2) = 5 / 4 ∧ 2 < b.flow.phi)) = true by decide +kernel)
  obtain ⟨x1, x2, x3⟩ := of_decide_eq_true h4
  obtain ⟨y1, y2⟩ := of_decide_eq_true k4
  exact ⟨_, b, _, c, laterNet_same, ⟨buildNet_ok, dedup_order, buildPreds_ok, by norm_num, ⟨b0, h1, rfl⟩, h2⟩, ⟨laterNet_ok, reverse_order, laterPreds_ok, by norm_num, ⟨c0, k1, rfl⟩, k2⟩,
    h3, k3, buildPreds_blind, buildNet_shared, x1, x2, y1, x3, y2⟩

end Verif.Props
