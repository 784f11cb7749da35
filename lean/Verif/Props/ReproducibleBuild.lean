import Verif.Spec.ReproducibleBuild
import Verif.Props.Reproducible
import Verif.Props.FlowBuilder
import Verif.Proofs.TwinBuilder
import Verif.Model.Regression
import Verif.Proofs.PredictLinear

/-! Property theorem C109 (src/core/flow_builder.py): the flow that is built does not depend on the order in which sets are iterated over. -/

namespace Verif.Props
open Verif Spec Builder

variable {P : Type} [DecidableEq P]

theorem importantOf_shared {n : Network P} (hn : InputOk n) {c c' : Commodity P} (hc : c ∈ n.commodities) (hc' : c' ∈ n.commodities) (hs : c.sink = c'.sink)
    (hw : ∀ v, UsesNode n c v ↔ UsesNode n c' v) : importantOf n.graph c = importantOf n.graph c' := by
  obtain ⟨L, h1, h2⟩ := importantOf_spec hn.graph (hn.sink c hc) (fun s hs => (hn.source c hc s hs).1)
  obtain ⟨L', h1', h2'⟩ := importantOf_spec hn.graph (hn.sink c' hc') (fun s hs => (hn.source c' hc' s hs).1)
  rw [h1, h1']
  unfold importantOf at h1 h1'
  obtain ⟨S, a1, h1⟩ := bind_eq_ok.mp h1
  obtain ⟨F, a2, h1⟩ := bind_eq_ok.mp h1
  obtain ⟨S', a1', h1'⟩ := bind_eq_ok.mp h1'
  obtain ⟨F', a2', h1'⟩ := bind_eq_ok.mp h1'
  rw [← hs, a1] at a1'; injection a1' with a1'; subst a1'
  injection h1 with h1; injection h1' with h1'
  subst h1; subst h1'
  congr 1
  apply List.filter_congr
  intro v hv
  have e1 := h2 v
  have e2 := h2' v
  rw [List.mem_filter] at e1 e2
  have : (decide (v ∈ F.flatten) = true) ↔ (decide (v ∈ F'.flatten) = true) :=
    ⟨fun h => (e2.mpr ((hw v).mp (e1.mp ⟨hv, h⟩))).2, fun h => (e1.mpr ((hw v).mpr (e2.mp ⟨hv, h⟩))).2⟩
  exact Bool.eq_iff_iff.mpr this

variable {n : Network P} {ord ord' : List Nat → List Nat} {preds : P → Predictor} {d : ℚ} {b0 : Builder P} {k : Nat}

theorem share_of_shared (hn : InputOk n) (hsh : SharedNodes n preds) {b : Builder P} {i : Option ℚ} (hb : Builder.init n i = .ok b) : Share n b.important preds := by
  unfold Builder.init at hb
  obtain ⟨f, _, hb⟩ := bind_eq_ok.mp hb
  obtain ⟨imp, h1, hb⟩ := bind_eq_ok.mp hb
  obtain ⟨_, _, hb⟩ := bind_eq_ok.mp hb
  obtain ⟨_, _, hb⟩ := bind_eq_ok.mp hb
  obtain ⟨_, _, hb⟩ := bind_eq_ok.mp hb
  obtain ⟨_, _, hb⟩ := bind_eq_ok.mp hb
  injection hb with hb
  subst hb
  obtain ⟨_, h2⟩ := mapPy_inv h1
  intro i j c c' hi hj hp hk hs
  obtain ⟨L, l1, l2⟩ := h2 i c hi
  obtain ⟨L', l1', l2'⟩ := h2 j c' hj
  rw [importantOf_shared hn (List.mem_of_getElem? hi) (List.mem_of_getElem? hj) hs (hsh c (List.mem_of_getElem? hi) c' (List.mem_of_getElem? hj) hp hk hs), l2'] at l2
  injection l2 with l2
  subst l2
  simp only
  rw [l1, l1']

/-- **C109**: the flow that is built does not depend on the order in which Python iterates over sets. If building touches no tolerance with one order, then
building the same network with the same predictors and any other order runs as well, touches no tolerance either, and after each number of rounds
leaves the same time, rates, cumulative flows and queues on all edges; the same outflow rates are read, the predictions used are the same, the next
routing is due at the same time and the same nodes are waiting to be handled. -/
theorem C109_order (h : Building n ord preds d b0 k) (hord' : OrderOk ord') (hbl : ∀ p, Blind (preds p)) (hsh : SharedNodes n preds) :
    Building n ord' preds d b0 k ∧ ∃ b c, rounds ord preds k b0 = .ok b ∧ rounds ord' preds k b0 = .ok c ∧ SameRecord b.flow c.flow ∧ (∀ e, SameReading b.flow c.flow e) ∧
      b.cache = c.cache ∧ b.nextReroute = c.nextReroute ∧ b.route = c.route ∧ ∀ v, v ∈ b.handle ↔ v ∈ c.handle := by
  obtain ⟨f0, W, hf, hi⟩ := building_inv h
  obtain ⟨b', hb, he⟩ := h.made
  have hshare : Share n b0.important preds := by
    have := share_of_shared h.input hsh hb
    rw [he]; exact this
  obtain ⟨b1, f1, g1, g2, _, _, g5, _, g7, g8, _, _, _, _, _, _, g15, _⟩ := init_spec h.input (some d)
  rw [hb] at g1; injection g1 with g1; subst g1
  rw [hf] at g2; injection g2 with g2; subst g2
  have hact : ActDet n b0.important preds b0 := by
    intro i v a ha
    rw [he] at ha; simp only [g5] at ha; cases ha
  have tw : BTwin n b0.important preds b0 b0 :=
    ⟨rfl, rfl, rfl, rfl, rfl, hact, hact, (by rw [he]; simp only [g8]; exact (DFlow.init_twin hf).1), fun _ => Iff.rfl, W, hi.heap, hi.heap, hi.wbreak⟩
  obtain ⟨hcl, b, c, _, _, _, _, _, _, _, _, r1, r2, _, _, r5⟩ := rounds_twin h.input hshare h.order hord' h.predictors
    (fun s s' hs p t => hbl p t s s' (record_of_twin hs)) h.interval hf hi tw k h.clear
  exact ⟨⟨h.input, hord', h.predictors, h.interval, h.made, hcl⟩, b, c, r1, r2, record_of_twin r5.flow, reading_of_twin r5.flow, r5.cache, r5.next, r5.route, r5.handle⟩

/-! The predictors of the project are blind. -/

theorem record_queues {s t : DFlow} (h : SameRecord s t) : s.queues = t.queues := funext (fun e => (h.edge e).queue)

theorem record_load {s t : DFlow} (h : SameRecord s t) : s.edgeLoad = t.edgeLoad := by
  funext e
  unfold DFlow.edgeLoad
  rw [(h.edge e).inTotal, (h.edge e).outTotal]

open Predictors in
/-- **C109**, the predictors: all predictors of the project, whatever models were trained, are blind. -/
theorem C109_blind (edges : Nat) : Blind (zero edges) ∧ Blind (const edges) ∧ (∀ horizon, Blind (linear edges horizon)) ∧
    (∀ horizon delta, Blind (regLinear edges horizon delta)) ∧ Blind (weka edges) ∧ (∀ c model, Blind (fullNet c model)) ∧
    (∀ c near models, Blind (neighborhood c near models)) ∧ (∀ inc out capacity past future average models, Blind (perEdge edges inc out capacity past future average models)) ∧
    (∀ c model, Blind (fullNetReg c model)) ∧ (∀ out coef, Blind (expandedWeka edges out coef)) ∧ ∀ inc past future model, Blind (expandedSk edges inc past future model) := by
  refine ⟨?_, ?_, ?_, ?_, ?_, ?_, ?_, ?_, ?_, ?_, ?_⟩
  · intro t s s' h; rfl
  · intro t s s' h; simp only [const, record_queues h]
  · intro a t s s' h; simp only [linear, record_queues h]
  · intro a b t s s' h; simp only [regLinear, record_queues h]
  · intro t s s' h; simp only [weka, record_queues h]
  · intro a b t s s' h; simp only [fullNet, record_queues h, record_load h]
  · intro a b c t s s' h; simp only [neighborhood, record_queues h, record_load h]
  · intro a b c x y z w t s s' h; simp only [perEdge, interleaved, record_queues h]
  · intro a b t s s' h; simp only [fullNetReg, record_queues h, record_load h, h.phi]
  · intro a b t s s' h; simp only [expandedWeka, record_queues h]
  · intro a b c x t s s' h; rfl

/-- Another order. -/
theorem reverse_order : OrderOk (fun l => l.dedup.reverse) :=
  fun l => ⟨List.nodup_reverse.mpr (List.nodup_dedup l), fun _ => by rw [List.mem_reverse, List.mem_dedup]⟩

theorem buildPreds_blind (p : Fin 3) : Blind (buildPreds p) := by
  match p with
  | 0 => exact (C109_blind 4).1
  | 1 => exact (C109_blind 4).2.1
  | 2 => exact (C109_blind 4).2.1

theorem buildNet_shared : SharedNodes buildNet buildPreds := by
  intro c hc c' hc' hp
  have : c = c' := by
    simp only [buildNet, List.mem_cons, List.not_mem_nil, or_false] at hc hc'
    rcases hc with rfl | rfl | rfl <;> rcases hc' with rfl | rfl | rfl <;> first | rfl | (exact absurd hp (by decide))
  rw [this]
  exact fun _ _ _ => Iff.rfl

/-- The hypotheses of C109 are met by the example of C43 with two orders that differ on the sets of the example. -/
example : ∃ b0 b, Building buildNet List.dedup buildPreds 2 b0 7 ∧ rounds List.dedup buildPreds 7 b0 = .ok b ∧ b.flow.phi = 7 ∧ OrderOk (fun l => l.dedup.reverse) ∧
    (∀ p, Blind (buildPreds p)) ∧ SharedNodes buildNet buildPreds ∧ List.dedup buildNet.graph.nodes ≠ (List.dedup buildNet.graph.nodes).reverse := by
  obtain ⟨b0, b, h1, h2, h3⟩ := buildNet_building
  exact ⟨b0, b, h1, h2, h3, reverse_order, buildPreds_blind, buildNet_shared, by decide +kernel⟩

end Verif.Props
