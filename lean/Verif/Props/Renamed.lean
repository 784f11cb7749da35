import Verif.Spec.Renamed
import Verif.Props.Causal
import Verif.Proofs.RenameBuilder

/-! Property theorems C113 and C114 (src/core/flow_builder.py): the order in which the commodities are listed does not matter, and commodities with the same
demand are treated the same. -/

namespace Verif.Props
open Verif Spec Builder

variable {P : Type} [DecidableEq P]

theorem totals_of_record {s t : DFlow} (h : SameRecord s t) : SameTotals s t :=
  ⟨h.phi, fun e => (h.edge e).inTotal, fun e => (h.edge e).outTotal, fun e => (h.edge e).queue⟩

theorem renamed_of_twin {σ : Equiv.Perm ℕ} {net : EdgeData} {s t : DFlow} (h : DFlow.Twin net s (t.ren σ.symm)) : RenamedFlow σ s t := by
  have hr := record_of_twin h
  refine ⟨hr.phi.symm, fun e => ⟨fun i => ?_, (hr.edge e).inTotal.symm, fun i => ?_, (hr.edge e).outTotal.symm, (hr.edge e).queue.symm⟩⟩
  · exact (congrFun (hr.edge e).inRates i).symm
  · exact (congrFun (hr.edge e).outRates i).symm

theorem relisted_important {n : Network P} {ds : List (Commodity P)} {σ : Equiv.Perm ℕ} (hs : ∀ i : Nat, ds[σ i]? = n.commodities[i]?) {L L' : List (List Nat)}
    (h : mapPy (importantOf n.graph) n.commodities = .ok L) (h' : mapPy (importantOf n.graph) ds = .ok L') (i : Nat) : L'[σ i]? = L[i]? := by
  obtain ⟨l1, h1⟩ := mapPy_inv h
  obtain ⟨l2, h2⟩ := mapPy_inv h'
  cases hc : n.commodities[i]? with
  | some c =>
    obtain ⟨x, x1, x2⟩ := h1 i c hc
    obtain ⟨y, y1, y2⟩ := h2 (σ i) c (by rw [hs]; exact hc)
    rw [x2] at y2; injection y2 with y2; subst y2
    rw [x1, y1]
  | none =>
    have g : ds[σ i]? = none := by rw [hs]; exact hc
    rw [List.getElem?_eq_none_iff] at hc g
    rw [List.getElem?_eq_none_iff.mpr (by omega), List.getElem?_eq_none_iff.mpr (by omega)]

/-- **C113**: the order in which the commodities of a network are listed does not matter. If building touches no tolerance, then building the network with the
same commodities in another order, with the same predictors and any order of sets, runs as well, touches no tolerance either, and after each number of rounds leaves the same
time, cumulative flows and queues on all edges, and the same rates of each commodity under its new number; the predictions used are the same, the next routing is due
at the same time and the same nodes are waiting to be handled. -/
theorem C113_relisted {σ : Equiv.Perm ℕ} {n n' : Network P} {ord ord' : List Nat → List Nat} {preds : P → Predictor} {d : ℚ} {b0 : Builder P} {k : Nat}
    (hr : Relisted σ n n') (h : Building n ord preds d b0 k) (hord' : OrderOk ord') (han : ∀ p, Anonymous (preds p)) (hsh : SharedNodes n preds) :
    ∃ c0, Building n' ord' preds d c0 k ∧ ∃ b c, rounds ord preds k b0 = .ok b ∧ rounds ord' preds k c0 = .ok c ∧ RenamedFlow σ b.flow c.flow ∧
      b.cache = c.cache ∧ b.nextReroute = c.nextReroute ∧ b.route = c.route ∧ ∀ v, v ∈ b.handle ↔ v ∈ c.handle := by
  obtain ⟨g, cap, tt, ds⟩ := n'
  obtain ⟨h1, h2, h3, hs⟩ := hr
  simp only at h1 h2 h3 hs
  subst h1; subst h2; subst h3
  have hn' : InputOk { n with commodities := ds } := ren_input hs h.input
  obtain ⟨f0, W, hf, hi⟩ := building_inv h
  obtain ⟨b', hb0, rfl⟩ := h.made
  obtain ⟨_, _, g1, g2, _, _, g5, _, g7, g8, g9, g10, _, _, _, _, g15, M, g16, g17⟩ := init_spec h.input (some d)
  rw [hb0] at g1; injection g1 with g1; subst g1
  rw [hf] at g2; injection g2 with g2; subst g2
  obtain ⟨c', f1, hc0, k2, _, _, k5, _, k7, k8, k9, k10, _, _, _, _, k15, M', k16, k17⟩ := init_spec hn' (some d)
  rw [hf] at k2; injection k2 with k2; subst k2
  have hc : Building { n with commodities := ds } ord' preds d { c' with built := true } 0 :=
    ⟨hn', hord', ren_preds h.predictors, h.interval, ⟨c', hc0, rfl⟩, fun m hm => absurd hm (Nat.not_lt_zero m)⟩
  obtain ⟨f1, W', hf', hi'⟩ := building_inv hc
  rw [hf] at hf'; injection hf' with hf'; subst hf'
  have hshare : Share n b'.important preds := share_of_shared h.input hsh hb0
  have himp : ∀ i : Nat, c'.important[σ i]? = b'.important[i]? := relisted_important hs (init_important hb0) (init_important hc0)
  classical
  have hM : M = wmap (fun x => decide (Break n.commodities x)) := by
    funext x
    by_cases hx : Break n.commodities x
    · rw [(g17 x).1 hx]; simp [wmap, hx]
    · rw [(g17 x).2 hx]; simp [wmap, hx]
  have hM' : M' = wmap (fun x => decide (Break ds x)) := by
    funext x
    by_cases hx : Break ds x
    · rw [(k17 x).1 hx]; simp [wmap, hx]
    · rw [(k17 x).2 hx]; simp [wmap, hx]
  have hflow : DFlow.Twin n.data f0 (f0.ren σ.symm) := by
    have hfix : f0.ren σ.symm = f0 := by
      unfold DFlow.init at hf
      obtain ⟨c, e1, g, _, hfn, hq, _⟩ := FRC.empty_good
      rw [e1, ok_bind] at hf
      obtain ⟨q, _, hf⟩ := bind_eq_ok.mp hf
      injection hf with hf; subst hf
      have hfuns : c.funs = fun _ => none := by
        unfold FRC.empty at e1
        obtain ⟨_, _, e1⟩ := bind_eq_ok.mp e1
        obtain ⟨_, _, e1⟩ := bind_eq_ok.mp e1
        obtain ⟨_, _, e1⟩ := bind_eq_ok.mp e1
        injection e1 with e1; subst e1; rfl
      have hcr : c.ren σ.symm = c := by
        obtain ⟨fu, qu, ac⟩ := c
        simp only at hfuns hq
        subst hfuns; subst hq
        rfl
      unfold DFlow.ren
      simp only [hcr]
      rfl
    rw [hfix]; exact (DFlow.init_twin hf).1
  have tw : RTwin n ds σ b'.important c'.important preds { b' with built := true } { c' with built := true } := by
    refine ⟨rfl, rfl, by simp only [g9, k9], by simp only [g10, k10], by simp only [g15, k15], ?_, ?_, by simp only [g8, k8]; exact hflow,
      fun v => by simp only [g7, k7], _, _, hM ▸ g16, hM' ▸ k16, fun x hx => of_decide_eq_true hx, fun x hx => of_decide_eq_true hx, fun x => ?_⟩
    · intro i v a ha; simp only [g5] at ha; cases ha
    · intro i v a ha; simp only [k5] at ha; cases ha
    · simp only [ren_break hs x]
  obtain ⟨hcl, b, c, _, _, _, _, _, _, _, _, r1, r2, _, _, r5⟩ := rounds_rename hs h.input himp hshare h.order hord' h.predictors
    (fun s s' hs p t => han p t s s' (totals_of_record (record_of_twin hs))) (fun τ s p t => han p t _ _ ⟨rfl, fun _ => rfl, fun _ => rfl, fun _ => rfl⟩) h.interval hf hi hi' tw k h.clear
  exact ⟨_, ⟨hn', hord', ren_preds h.predictors, h.interval, ⟨c', hc0, rfl⟩, hcl⟩, b, c, r1, r2, renamed_of_twin r5.flow, r5.cache, r5.next, r5.route, r5.handle⟩

/-- Every arrangement of a list is of this kind. -/
theorem C113_arrangements {α : Type} {l l' : List α} (h : l.Perm l') : ∃ σ : Equiv.Perm ℕ, ∀ i : Nat, l'[σ i]? = l[i]? := by
  induction h with
  | nil => exact ⟨Equiv.refl _, fun i => rfl⟩
  | cons a _ ih =>
    obtain ⟨σ, hσ⟩ := ih
    refine ⟨⟨fun i => i.casesOn 0 (fun i => σ i + 1), fun i => i.casesOn 0 (fun i => σ.symm i + 1), fun i => ?_, fun i => ?_⟩, fun i => ?_⟩
    · cases i <;> simp
    · cases i <;> simp
    · cases i with
      | zero => rfl
      | succ i => simpa using hσ i
  | swap a b l =>
    refine ⟨Equiv.swap 0 1, fun i => ?_⟩
    match i with
    | 0 => simp
    | 1 => simp
    | i + 2 => rw [Equiv.swap_apply_of_ne_of_ne (by omega) (by omega)]; simp
  | trans _ _ ih1 ih2 =>
    obtain ⟨σ, hσ⟩ := ih1
    obtain ⟨τ, hτ⟩ := ih2
    exact ⟨σ.trans τ, fun i => by rw [Equiv.trans_apply, hτ, hσ]⟩

theorem totals_queues {s t : DFlow} (h : SameTotals s t) : s.queues = t.queues := funext h.queue

theorem totals_load {s t : DFlow} (h : SameTotals s t) : s.edgeLoad = t.edgeLoad := by
  funext e
  unfold DFlow.edgeLoad
  rw [h.inTotal e, h.outTotal e]

open Predictors in
/-- **C113**, the predictors: no predictor of the project, whatever models were trained, asks for single commodities. -/
theorem C113_anonymous (edges : Nat) : Anonymous (zero edges) ∧ Anonymous (const edges) ∧ (∀ horizon, Anonymous (linear edges horizon)) ∧
    (∀ horizon delta, Anonymous (regLinear edges horizon delta)) ∧ Anonymous (weka edges) ∧ (∀ c model, Anonymous (fullNet c model)) ∧
    (∀ c near models, Anonymous (neighborhood c near models)) ∧ (∀ inc out capacity past future average models, Anonymous (perEdge edges inc out capacity past future average models)) ∧
    (∀ c model, Anonymous (fullNetReg c model)) ∧ (∀ out coef, Anonymous (expandedWeka edges out coef)) ∧ ∀ inc past future model, Anonymous (expandedSk edges inc past future model) := by
  refine ⟨?_, ?_, ?_, ?_, ?_, ?_, ?_, ?_, ?_, ?_, ?_⟩
  · intro t s s' h; rfl
  · intro t s s' h; simp only [const, totals_queues h]
  · intro a t s s' h; simp only [linear, totals_queues h]
  · intro a b t s s' h; simp only [regLinear, totals_queues h]
  · intro t s s' h; simp only [weka, totals_queues h]
  · intro a b t s s' h; simp only [fullNet, totals_queues h, totals_load h]
  · intro a b c t s s' h; simp only [neighborhood, totals_queues h, totals_load h]
  · intro a b c x y z w t s s' h; simp only [perEdge, interleaved, totals_queues h]
  · intro a b t s s' h; simp only [fullNetReg, totals_queues h, totals_load h, h.phi]
  · intro a b t s s' h; simp only [expandedWeka, totals_queues h]
  · intro a b c x t s s' h; rfl

/-- **C114**: commodities with the same demand are treated the same. If two commodities of a network have the same sources with the same network inflow rates, the
same sink and the same predictor, then in every flow that is built they have the same rates on all edges at all times. -/
theorem C114_equal {n : Network P} {ord : List Nat → List Nat} {preds : P → Predictor} {d : ℚ} {b0 b : Builder P} {k i j : Nat} {c : Commodity P}
    (h : Building n ord preds d b0 k) (han : ∀ p, Anonymous (preds p)) (hsh : SharedNodes n preds) (hi : n.commodities[i]? = some c) (hj : n.commodities[j]? = some c)
    (hb : rounds ord preds k b0 = .ok b) (e : Nat) : (b.flow.inflow e).funs i = (b.flow.inflow e).funs j ∧ (b.flow.outflow e).funs i = (b.flow.outflow e).funs j := by
  have hr : Relisted (Equiv.swap i j) n n := by
    refine ⟨rfl, rfl, rfl, fun m => ?_⟩
    by_cases h1 : m = i
    · subst h1; rw [Equiv.swap_apply_left, hi, hj]
    · by_cases h2 : m = j
      · subst h2; rw [Equiv.swap_apply_right, hi, hj]
      · rw [Equiv.swap_apply_of_ne_of_ne h1 h2]
  obtain ⟨c0, hc, x, y, r1, r2, r3, _⟩ := C113_relisted hr h h.order han hsh
  obtain ⟨a, a1, rfl⟩ := h.made
  obtain ⟨a', a1', rfl⟩ := hc.made
  rw [a1] at a1'; injection a1' with a1'; subst a1'
  rw [hb] at r1 r2
  injection r1 with r1; injection r2 with r2
  subst r1; subst r2
  have h1 := (r3.edge e).inRates j
  have h2 := (r3.edge e).outRates j
  rw [Equiv.swap_apply_right] at h1 h2
  exact ⟨h1, h2⟩

theorem buildPreds_anonymous (p : Fin 3) : Anonymous (buildPreds p) := by
  match p with
  | 0 => exact (C113_anonymous 4).1
  | 1 => exact (C113_anonymous 4).2.1
  | 2 => exact (C113_anonymous 4).2.1

/-- The network of C43 with its commodities listed in the order 2, 0, 1. -/
def turnedNet : Network (Fin 3) :=
  { buildNet with
    commodities := [⟨[(1, ⟨[0, 1], [(1 / 2), 0], ((0 : ℚ) : WithBot ℚ), ⊤⟩)], 2, 2⟩, ⟨[(0, ⟨[0, 2], [3, 0], ((0 : ℚ) : WithBot ℚ), ⊤⟩)], 2, 0⟩,
      ⟨[(0, ⟨[0, 3], [1, 0], ((0 : ℚ) : WithBot ℚ), ⊤⟩)], 2, 1⟩] }

/-- The new place of each commodity. -/
def turn : Equiv.Perm ℕ := (Equiv.swap 0 2).trans (Equiv.swap 2 1)

theorem turnedNet_relisted : Relisted turn buildNet turnedNet := by
  refine ⟨rfl, rfl, rfl, fun i => ?_⟩
  have h0 : turn 0 = 1 := by decide +kernel
  have h1 : turn 1 = 2 := by decide +kernel
  have h2 : turn 2 = 0 := by decide +kernel
  match i with
  | 0 => rw [h0]; rfl
  | 1 => rw [h1]; rfl
  | 2 => rw [h2]; rfl
  | i + 3 =>
    have h3 : turn (i + 3) = i + 3 := by
      unfold turn
      rw [Equiv.trans_apply, Equiv.swap_apply_of_ne_of_ne (show i + 3 ≠ 0 by omega) (show i + 3 ≠ 2 by omega), Equiv.swap_apply_of_ne_of_ne (show i + 3 ≠ 2 by omega) (show i + 3 ≠ 1 by omega)]
    rw [h3]
    simp [turnedNet, buildNet]

/-- The hypotheses of C113 are met by the example of C43, whose first commodity, flowing at rate 3/2 into the first edge at time 1, becomes the second one. -/
example : ∃ b0 b, Building buildNet List.dedup buildPreds 2 b0 7 ∧ rounds List.dedup buildPreds 7 b0 = .ok b ∧ inRate b.flow 0 0 1 = 3 / 2 ∧ inRate b.flow 0 1 1 = 1 / 2 ∧
    Relisted turn buildNet turnedNet ∧ turn 0 = 1 ∧ OrderOk (fun l => l.dedup.reverse) ∧ (∀ p, Anonymous (buildPreds p)) ∧ SharedNodes buildNet buildPreds := by
  obtain ⟨b0, h1, h2, b, h3, h4⟩ := buildB_sound (show buildB List.dedup buildPreds buildNet 2 7 (fun b => decide (inRate b.flow 0 0 1 = 3 / 2 ∧ inRate b.flow 0 1 1 = 1 / 2)) = true by decide +kernel)
  obtain ⟨x1, x2⟩ := of_decide_eq_true h4
  exact ⟨_, b, ⟨buildNet_ok, dedup_order, buildPreds_ok, by norm_num, ⟨b0, h1, rfl⟩, h2⟩, h3, x1, x2, turnedNet_relisted, by decide +kernel, reverse_order, buildPreds_anonymous, buildNet_shared⟩

/-- The network of C43 with its second commodity listed twice. -/
def doubleNet : Network (Fin 3) :=
  { buildNet with
    commodities := [⟨[(0, ⟨[0, 3], [1, 0], ((0 : ℚ) : WithBot ℚ), ⊤⟩)], 2, 1⟩, ⟨[(0, ⟨[0, 2], [3, 0], ((0 : ℚ) : WithBot ℚ), ⊤⟩)], 2, 0⟩,
      ⟨[(0, ⟨[0, 3], [1, 0], ((0 : ℚ) : WithBot ℚ), ⊤⟩)], 2, 1⟩, ⟨[(1, ⟨[0, 1], [(1 / 2), 0], ((0 : ℚ) : WithBot ℚ), ⊤⟩)], 2, 2⟩] }

theorem doubleNet_members (c : Commodity (Fin 3)) : c ∈ doubleNet.commodities ↔ c ∈ buildNet.commodities := by
  simp only [doubleNet, buildNet, List.mem_cons, List.not_mem_nil, or_false]
  tauto

theorem doubleNet_shared : SharedNodes doubleNet buildPreds := fun c hc c' hc' =>
  buildNet_shared c ((doubleNet_members c).mp hc) c' ((doubleNet_members c').mp hc')

/-- The hypotheses of C114 are met: the first and the third commodity are equal, and they flow through the network, with a queue. -/
example : ∃ b0 b, Building doubleNet List.dedup buildPreds 2 b0 7 ∧ rounds List.dedup buildPreds 7 b0 = .ok b ∧ doubleNet.commodities[0]? = doubleNet.commodities[2]? ∧
    inRate b.flow 0 2 1 = 1 / 2 ∧ (b.flow.queues 0).eval 1 = .ok (3 / 2) ∧ (∀ p, Anonymous (buildPreds p)) ∧ SharedNodes doubleNet buildPreds := by
  obtain ⟨b0, h1, h2, b, h3, h4⟩ := buildB_sound (show buildB List.dedup buildPreds doubleNet 2 7 (fun b => decide (inRate b.flow 0 2 1 = 1 / 2 ∧ (b.flow.queues 0).eval 1 = .ok (3 / 2))) = true by decide +kernel)
  obtain ⟨x1, x2⟩ := of_decide_eq_true h4
  exact ⟨_, b, ⟨input_members doubleNet_members buildNet_ok, dedup_order, ren_preds buildPreds_ok, by norm_num, ⟨b0, h1, rfl⟩, h2⟩, h3, rfl, x1, x2, buildPreds_anonymous, doubleNet_shared⟩

end Verif.Props
