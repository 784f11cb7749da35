import Verif.Props.Predictors
import Verif.Props.FlowBuilder
import Verif.Proofs.PredictReg

/-! Property theorems C59, C70 and C71: predictors and time; regression predictors. -/

namespace Verif.Props
open Verif Verif.Spec Verif.Predictors

/-! ### C59 -/

theorem same_fn {net net' : EdgeData} {f g : DFlow} {m e : Nat} {t : ℚ} (hf : Reached net f) (hg : Reached net' g) (h : SameQueues m t f g) (he : e < m) {x : ℚ}
    (hx : x ≤ t) : (f.queues e).fn x = (g.queues e).fn x := by
  have := h e he x hx
  rw [(reached_total hf e).eval, (reached_total hg e).eval] at this
  injection this

/-- **C59**: the zero, constant, linear and regularised linear predictors and `LinearRegressionPredictor` only use queues up to the
prediction time. -/
theorem C59_queues_only (m : Nat) : QueuesOnly m (zero m) ∧ QueuesOnly m (const m) ∧ (∀ d, QueuesOnly m (linear m d)) ∧
    (∀ d δ, 0 ≤ δ → QueuesOnly m (regLinear m d δ)) ∧ QueuesOnly m (weka m) := by
  refine ⟨fun _ _ _ _ _ _ _ _ => rfl, ?_, ?_, ?_, ?_⟩
  · intro net net' f g t hf hg h
    refine Builder.mapPy_congr (fun e he => ?_)
    simp only [h e (List.mem_range.mp he) t le_rfl]
  · intro d net net' f g t hf hg h
    refine Builder.mapPy_congr (fun e he => ?_)
    have he := List.mem_range.mp he
    obtain ⟨r, σ, a1, a2, a3⟩ := PL.rank_slope (reached_total hf e).wf t
    obtain ⟨r', σ', b1, b2, b3⟩ := PL.rank_slope (reached_total hg e).wf t
    have hσ : σ = σ' := by
      refine PL.leftSlope_unique (F := (g.queues e).fn) ?_ b3
      obtain ⟨s, s1, s2⟩ := a3
      refine ⟨s, s1, fun x x1 x2 => ?_⟩
      rw [← same_fn hf hg h he x2, ← same_fn hf hg h he le_rfl, s2 x x1 x2]
    simp only [h e he t le_rfl, a1, a2, b1, b2, ok_bind, hσ]
  · intro d δ hδ net net' f g t hf hg h
    refine Builder.mapPy_congr (fun e he => ?_)
    have he := List.mem_range.mp he
    simp only [h e he t le_rfl, h e he (t - δ) (by linarith)]
  · intro net net' f g t hf hg h
    unfold weka
    simp only
    congr 1
    funext z
    refine Builder.mapPy_congr (fun e he => ?_)
    have he := List.mem_range.mp he
    simp only [h e he t le_rfl, h e he (t - 1) (by linarith), h e he (t - 2) (by linarith), h e he (t - 3) (by linarith), h e he (t - 4) (by linarith)]

theorem rowOf_congr {F G : Nat → ℚ → ℚ} {times : List ℚ} {edges : List Nat} (h : ∀ e ∈ edges, ∀ x ∈ times, F e x = G e x) :
    rowOf F times edges = rowOf G times edges := by
  unfold rowOf
  rw [List.map_congr_left (fun e he => List.map_congr_left (h e he))]

/-- **C59**: the full-net and neighbourhood predictors only use queues and loads up to the prediction time. -/
theorem C59_queues_and_loads_only (c : Setup) (hi : 0 ≤ c.interval) (model : List (List ℚ) → Py (List (List ℚ))) (near : Nat → Nat → Bool)
    (models : Nat → List (List ℚ) → Py (List (List ℚ))) :
    QueuesAndLoadsOnly c.edges (fullNet c model) ∧ QueuesAndLoadsOnly c.edges (neighborhood c near models) := by
  have key : ∀ (net net' : EdgeData) (f g : DFlow) (t : ℚ), Reached net f → Reached net' g →
      LoadsApart c.edges f → LoadsApart c.edges g → SameQueues c.edges t f g → SameLoads c.edges t f g → ∃ L M, Sees f c.edges L ∧ Sees g c.edges M ∧
      ∀ mask : Nat → Bool, rowOf (fun e => (f.queues e).fn) (pastTimes t c.interval c.past) ((List.range c.edges).filter mask) =
        rowOf (fun e => (g.queues e).fn) (pastTimes t c.interval c.past) ((List.range c.edges).filter mask) ∧
        rowOf (fun e => (L e).fn) (pastTimes t c.interval c.past) ((List.range c.edges).filter mask) =
        rowOf (fun e => (M e).fn) (pastTimes t c.interval c.past) ((List.range c.edges).filter mask) := by
    intro net net' f g t hf hg lf lg hq hl
    obtain ⟨L, hL⟩ := reached_sees hf lf
    obtain ⟨M, hM⟩ := reached_sees hg lg
    refine ⟨L, M, hL, hM, fun mask => ⟨rowOf_congr ?_, rowOf_congr ?_⟩⟩
    · intro e he x hx
      exact same_fn hf hg hq (List.mem_range.mp (List.mem_filter.mp he).1) (pastTimes_le hi hx)
    · intro e he x hx
      have he := List.mem_range.mp (List.mem_filter.mp he).1
      obtain ⟨a, b, a1, b1, ab⟩ := hl e he
      rw [hL.load e he] at a1; injection a1 with a1; subst a1
      rw [hM.load e he] at b1; injection b1 with b1; subst b1
      have := ab x (pastTimes_le hi hx)
      rw [(hL.loads e he).eval, (hM.loads e he).eval] at this
      injection this
  constructor
  · intro net net' f g t hf hg lf lg hq hl
    obtain ⟨L, M, hL, hM, hr⟩ := key net net' f g t hf hg lf lg hq hl
    rw [fullNet_eq hL hi, fullNet_eq hM hi, (hr c.input).1, (hr c.input).2]
    congr 1; funext out; congr 1; funext raw
    refine Builder.mapPy_congr (fun e he => ?_)
    simp only [same_fn hf hg hq (List.mem_range.mp he) le_rfl]
  · intro net net' f g t hf hg lf lg hq hl
    obtain ⟨L, M, hL, hM, hr⟩ := key net net' f g t hf hg lf lg hq hl
    rw [neighborhood_eq hL hi, neighborhood_eq hM hi]
    refine Builder.mapPy_congr (fun e he => ?_)
    simp only [same_fn hf hg hq (List.mem_range.mp he) le_rfl, (hr _).1, (hr _).2]

/-- A flow and its continuation agree on queues and loads. -/
theorem continues_same {net : EdgeData} {s s' : DFlow} (h : Reached net s) (hc : Continues net s s') : Reached net s' ∧ s.phi ≤ s'.phi ∧
    ∀ m t, t ≤ s.phi → SameQueues m t s s' ∧ (LoadsApart m s → LoadsApart m s' → SameLoads m t s s') := by
  obtain ⟨hn, s0, calls, h0, h1, h2⟩ := h
  obtain ⟨more, h3, h4⟩ := hc
  have hr' : Reached net s' := ⟨hn, s0, calls ++ more, h0, callsOk_append _ _ h1 h2 h3, by rw [runFlow_append _ _ h2]; exact h4⟩
  obtain ⟨a, b⟩ := C69_past net hn s0 s s' calls more h0 h1 h2 h3 h4
  refine ⟨hr', a, fun m t ht => ⟨fun e _ x hx => ((b e).2.2 x (le_trans hx ht)).symm, fun l l' e he => ?_⟩⟩
  obtain ⟨_, s0', calls', h0', h1', h2'⟩ := hr'
  obtain ⟨g, g1, g2, g3, _⟩ := C36_loads net hn s0 s calls h0 h1 h2 e (l e he)
  obtain ⟨g', g1', g2', g3', _⟩ := C36_loads net hn s0' s' calls' h0' h1' h2' e (l' e he)
  refine ⟨g, g', g1, g1', fun x hx => ?_⟩
  rcases le_total x 0 with hx0 | hx0
  · rw [g3 x hx0, g3' x hx0]
  · obtain ⟨p, q, p1, q1, r1⟩ := g2 x hx0
    obtain ⟨p', q', p1', q1', r1'⟩ := g2' x hx0
    have := (b e).2.1 x hx0 (le_trans hx ht)
    rw [p1, p1', q1, q1'] at this
    obtain ⟨e1, e2⟩ := this
    injection e1 with e1
    injection e2 with e2
    rw [r1, r1', e1, e2]

/-- **C59**: what is predicted for a past time from the flow as it has been continued is what was predicted then. -/
theorem C59_later {net : EdgeData} {s s' : DFlow} (h : Reached net s) (hc : Continues net s s') {t : ℚ} (ht : t ≤ s.phi) (m : Nat) (p : Predictor)
    (hp : QueuesOnly m p ∨ (QueuesAndLoadsOnly m p ∧ LoadsApart m s ∧ LoadsApart m s')) : p.predict t s' = p.predict t s := by
  obtain ⟨a, _, b⟩ := continues_same h hc
  obtain ⟨b1, b2⟩ := b m t ht
  rcases hp with hp | ⟨hp, l1, l2⟩
  · exact (hp net net s s' t h a b1).symm
  · exact (hp net net s s' t h a l1 l2 b1 (b2 l1 l2)).symm

theorem callsOk_prefix {D : EdgeData} : ∀ (l m : List FlowCall) {s s' : DFlow}, CallsOk D s (l ++ m) → runFlow D s l = .ok s' → CallsOk D s l ∧ CallsOk D s' m := by
  intro l
  induction l with
  | nil => intro m s s' h hr; injection hr with hr; subst hr; exact ⟨trivial, h⟩
  | cons c l ih =>
    intro m s s' h hr
    unfold runFlow at hr
    obtain ⟨s2, h2, h3⟩ := bind_eq_ok.mp hr
    obtain ⟨a, b⟩ := ih m (h.2 s2 h2) h3
    refine ⟨⟨h.1, fun s1 h1 => ?_⟩, b⟩
    rw [h1] at h2; injection h2 with h2; subst h2; exact a

/-- **C44, C59**: the predictions by which flow was routed are those that the finished flow gives for the routing times, for predictors that
only use queues: it does not matter when in its period a prediction was computed. -/
theorem C44_predictions_stand {P : Type} [DecidableEq P] {n : Network P} {ord : List Nat → List Nat} {preds : P → Predictor} {d : ℚ} {b0 : Builder P} {k : Nat}
    (h : Building n ord preds d b0 k) (hq : ∀ p, QueuesOnly n.graph.edges.length (preds p)) {b : Builder P} (hb : rounds ord preds k b0 = .ok b) :
    ∃ hist : Nat → P → Option (List PL), (∀ K p ps, hist K p = some ps → (preds p).predict (K * d) b.flow = .ok ps) ∧
      ∀ e ∈ n.graph.edges, ∀ i t, 0 ≤ t → t < b.flow.phi → inRate b.flow (n.graph.edge e).id i t ≠ 0 → ¬ IsSink n i (n.graph.nodeFrom e) ∧
        ∃ K : Nat, K * d ≤ t ∧ t < (K + 1) * d ∧ ∃ A, e ∈ A ∧ ActiveFor n preds (K * d) (hist K) i (n.graph.nodeFrom e) A := by
  obtain ⟨b', hb', f0, cs, hist, hf, hcs, hrun, hpred, hr⟩ := C43_conservation h
  rw [hb] at hb'; injection hb' with hb'; subst hb'
  refine ⟨hist, ?_, ?_⟩
  · intro K p ps hps
    obtain ⟨pre, f, ⟨post, rfl⟩, f1, f2, _, f3⟩ := hpred K p ps hps
    obtain ⟨c1, c2⟩ := callsOk_prefix _ _ hcs f1
    rw [C59_later (net := n.data) (s := f) ⟨Builder.netOk h.input, f0, pre, hf, c1, f1⟩ ⟨post, c2, by rw [← runFlow_append _ _ f1]; exact hrun⟩ f2
      n.graph.edges.length _ (.inl (hq p))]
    exact f3
  · intro e he i t ht ht' hne
    have hv := (h.input.graph.ends e he).1
    have hout : e ∈ n.graph.outgoing (n.graph.nodeFrom e) := (Builder.out_mem h.input.graph hv).mpr ⟨he, rfl⟩
    obtain ⟨K, k1, k2, hr⟩ := hr _ hv i t ht ht'
    have hns : ¬ (IsSink n i (n.graph.nodeFrom e) ∨ arriving n b.flow (n.graph.nodeFrom e) i t < eps) := fun hc => hne (hr.stop hc e hout)
    rw [not_or] at hns
    obtain ⟨A, _, _, _, a4, a5⟩ := hr.split hns.1 (not_lt.mp hns.2)
    refine ⟨hns.1, K, k1, k2, A, ?_, a4⟩
    by_contra hc
    have := a5 e hout
    rw [if_neg hc] at this
    exact hne this

/-! ### C70, C71 -/

theorem interleaved_ok {net : EdgeData} {s : DFlow} (h : Reached net s) (times : List ℚ) (edges : List Nat) : ∃ l, interleaved s times edges = .ok l := by
  unfold interleaved
  rw [mapPy_eq (g := fun t => edges.map (fun e => (s.queues e).fn t)) (fun t _ => mapPy_eq (fun e _ => (reached_total h e).eval t)), ok_bind]
  exact ⟨_, rfl⟩

/-- **C71**: whatever the models answer, every queue that `PerEdgeLinearRegressionPredictor` returns is physical. -/
theorem C71_per_edge {net : EdgeData} {s : DFlow} (h : Reached net s) {m : Nat} (inc out : Nat → List Nat) {capacity : Nat → ℚ} (hc : ∀ e < m, capacity e = net.capacity e)
    (past future : Nat) (average : Bool) (models : Nat → List (List ℚ) → Py (List (List ℚ))) {t : ℚ} (ht : t ≤ s.phi) {ps : List PL}
    (hp : (perEdge m inc out capacity past future average models).predict t s = .ok ps) :
    ps.length = m ∧ ∀ e < m, ∃ p cur F, ps[e]? = some p ∧ (s.queues e).eval t = .ok cur ∧ Evals p F ∧ Physical (net.capacity e) t cur F := by
  obtain ⟨p1, p2⟩ := Builder.mapPy_range hp
  refine ⟨p1, fun e he => ?_⟩
  obtain ⟨p, q1, q2⟩ := p2 e he
  have hq := reached_facts h e
  obtain ⟨_, _, q2⟩ := bind_eq_ok.mp q2
  obtain ⟨_, _, q2⟩ := bind_eq_ok.mp q2
  obtain ⟨_, _, q2⟩ := bind_eq_ok.mp q2
  obtain ⟨_, _, q2⟩ := bind_eq_ok.mp q2
  obtain ⟨raw, _, q2⟩ := bind_eq_ok.mp q2
  rw [hq.eval, ok_bind] at q2
  obtain ⟨f, q3, q2⟩ := bind_eq_ok.mp q2
  have hcap := le_of_lt (h.1.cap e)
  have hlen : raw.length = future := by
    obtain ⟨hf, hw⟩ := PL.new_eq_ok.mp q3
    have := hw.len
    rw [hf] at this
    simp only [perEdgeValues_length, futureTimes_length] at this
    omega
  obtain ⟨f', f1, f2, f3, f4, f5, f6, f7, f8⟩ := perEdge_fn (av := average) (t := t) (cap := capacity e) (by rw [hc e he]; exact hcap) (hq.nonneg t ht) hlen
  rw [q3] at f1; injection f1 with f1; subst f1
  rw [hc e he] at f8
  obtain ⟨g, g1, g2, g3, g4, _, g6⟩ := PL.simplify_physical f2 hcap f3 f4 f5 f8
  rw [q2] at g1; injection g1 with g1; subst g1
  exact ⟨p, _, p.fn, q1, hq.eval t, PL.evals g2 (g3.trans f6) (g4.trans f7), g6⟩

/-- **C71**: it returns when the models answer with as many numbers as there are future steps. -/
theorem C71_per_edge_returns {net : EdgeData} {s : DFlow} (h : Reached net s) {m : Nat} (inc out : Nat → List Nat) {capacity : Nat → ℚ} (hc : ∀ e < m, capacity e = net.capacity e)
    (past future : Nat) (average : Bool) (models : Nat → List (List ℚ) → Py (List (List ℚ))) {t : ℚ} (ht : t ≤ s.phi)
    (hm : ∀ e < m, ∀ row, ∃ raw rest, models e [row] = .ok (raw :: rest) ∧ raw.length = future) :
    ∃ ps, (perEdge m inc out capacity past future average models).predict t s = .ok ps := by
  refine Builder.mapPy_range_ok _ _ (fun e he => ?_)
  have hq := reached_facts h e
  have hcap := le_of_lt (h.1.cap e)
  obtain ⟨a, ha⟩ := interleaved_ok h ((List.range past).map (fun (k : Nat) => t - ((k : ℚ) - past + 1))) (inc e)
  obtain ⟨b, hb⟩ := interleaved_ok h ((List.range past).map (fun (k : Nat) => t - ((k : ℚ) - past + 1))) (out e)
  obtain ⟨c, hc'⟩ := interleaved_ok h ((List.range past).map (fun (k : Nat) => t - ((k : ℚ) - past + 1))) [e]
  obtain ⟨raw, rest, m1, m2⟩ := hm e he (a ++ b ++ c)
  obtain ⟨f, f1, f2, f3, f4, f5, f6, f7, f8⟩ := perEdge_fn (av := average) (t := t) (cap := capacity e) (by rw [hc e he]; exact hcap) (hq.nonneg t ht) m2
  obtain ⟨g, g1, _⟩ := PL.simplify_keeps f2
  refine ⟨g, ?_⟩
  rw [ha, ok_bind, hb, ok_bind, hc', ok_bind, m1, ok_bind, rd_lt _ 0 (by simp), ok_bind, hq.eval, ok_bind]
  rw [List.getElem_cons_zero, f1, ok_bind]
  exact g1

/-- **C70**, without the claim on draining: `LinearRegressionPredictor` returns one function per edge that starts at the current queue
and is never negative. -/
theorem C70_weka_partial {net : EdgeData} {s : DFlow} (h : Reached net s) (m : Nat) {t : ℚ} (ht : t ≤ s.phi) :
    ∃ ps, (weka m).predict t s = .ok ps ∧ ps.length = m ∧ ∀ e < m, ∃ p cur F, ps[e]? = some p ∧ (s.queues e).eval t = .ok cur ∧ Evals p F ∧
      F t = cur ∧ ∀ x, t ≤ x → 0 ≤ F x := by
  have hedge : ∀ e < m, ∃ p, (do
      let x0 ← (s.queues e).eval t
      let x1 ← (s.queues e).eval (t - 1)
      let x2 ← (s.queues e).eval (t - 2)
      let x3 ← (s.queues e).eval (t - 3)
      let x4 ← (s.queues e).eval (t - 4)
      wekaEdge ⟨[t], [0], 0, 0, ⊥, ⊤⟩ t (max 0 x0) (max 0 x1) (max 0 x2) (max 0 x3) (max 0 x4)) = .ok p ∧
      Evals p p.fn ∧ p.fn t = (s.queues e).fn t ∧ ∀ x, t ≤ x → 0 ≤ p.fn x := by
    intro e he
    have hq := reached_facts h e
    rw [hq.eval, hq.eval, hq.eval, hq.eval, hq.eval]
    simp only [ok_bind]
    have n0 := hq.nonneg t ht
    have n1 := hq.nonneg (t - 1) (by linarith)
    have n2 := hq.nonneg (t - 2) (by linarith)
    have n3 := hq.nonneg (t - 3) (by linarith)
    have n4 := hq.nonneg (t - 4) (by linarith)
    rw [max_eq_right n0, max_eq_right n1, max_eq_right n2, max_eq_right n3, max_eq_right n4]
    exact wekaEdge_ok n0 n1 n2 n3 n4
  obtain ⟨ps, p1⟩ := Builder.mapPy_range_ok _ m (fun e he => by obtain ⟨p, hp, _⟩ := hedge e he; exact ⟨p, hp⟩)
  obtain ⟨p2, p3⟩ := Builder.mapPy_range p1
  refine ⟨ps, by unfold weka; simp only; rw [PL.new_ok (PL.wf_const t 0), ok_bind]; exact p1, p2, fun e he => ?_⟩
  obtain ⟨p, q1, q2⟩ := p3 e he
  obtain ⟨p', a1, a2, a3, a4⟩ := hedge e he
  rw [a1] at q2; injection q2 with q2; subst q2
  exact ⟨p', _, _, q1, (reached_facts h e).eval t, a2, a3, a4⟩

/-- A run in which the queue of edge 0 (capacity 1) grows with slope 10. -/
def growCalls : List FlowCall := [.extend [(0, [(0, 11)])] 10, .extend [] 10, .extend [] 10]

/-- **C70** in full is false: the predicted queue drains faster than the capacity 1. -/
theorem C70_not_physical : ∃ s, Reached sampleNet s ∧ 4 ≤ s.phi ∧ sampleNet.capacity 0 = 1 ∧
    (∃ ps p, (weka 2).predict 4 s = .ok ps ∧ ps[0]? = some p ∧ p.eval 8 = .ok (5247 / 100)) ∧
    ∃ ps p, (weka 2).predict 4 s = .ok ps ∧ ps[0]? = some p ∧ p.eval 9 = .ok (1467 / 100) := by
  obtain ⟨s, h, hp⟩ := reached_of (calls := growCalls) (post := fun s => decide (4 ≤ s.phi) &&
    (decide (valueAt ((weka 2).predict 4 s) 0 8 = some (5247 / 100)) && decide (valueAt ((weka 2).predict 4 s) 0 9 = some (1467 / 100)))) (by decide +kernel)
  simp only [Bool.and_eq_true, decide_eq_true_eq] at hp
  exact ⟨s, h, hp.1, rfl, valueAt_some hp.2.1, valueAt_some hp.2.2⟩

/-- Models that answer with the first two inputs. -/
def firstModel : Nat → List (List ℚ) → Py (List (List ℚ)) := fun _ rows => .ok (rows.map (fun r => r.take 2))

/-- The hypotheses of `C71_per_edge` are met, with a queue of 3. -/
example : ∃ s, Reached sampleNet s ∧ 1 ≤ s.phi ∧
    ∃ ps p, (perEdge 2 (fun _ => []) (fun _ => []) sampleNet.capacity 2 2 false firstModel).predict 1 s = .ok ps ∧ ps[0]? = some p ∧ p.eval 2 = .ok (5 / 2) := by
  obtain ⟨s, h, hp⟩ := reached_of (calls := sampleCalls) (post := fun s => decide (1 ≤ s.phi) &&
    decide (valueAt ((perEdge 2 (fun _ => []) (fun _ => []) sampleNet.capacity 2 2 false firstModel).predict 1 s) 0 2 = some (5 / 2))) (by decide +kernel)
  simp only [Bool.and_eq_true, decide_eq_true_eq] at hp
  exact ⟨s, h, hp.1, valueAt_some hp.2⟩

/-- The flow of the sample run at time 1, and its continuation: the hypotheses of `C59_later` are met (with all loads apart), and **C59** is
false for `PerEdgeLinearRegressionPredictor`: its prediction for time 1 changes when the flow is continued, because it uses the queue at time 2. -/
theorem C59_per_edge_looks_ahead : ∃ s s', Reached sampleNet s ∧ Continues sampleNet s s' ∧ 1 ≤ s.phi ∧ LoadsApart 2 s ∧ LoadsApart 2 s' ∧ SameQueues 2 1 s s' ∧
    (∃ ps p, (perEdge 2 (fun _ => []) (fun _ => []) sampleNet.capacity 2 2 false firstModel).predict 1 s = .ok ps ∧ ps[0]? = some p ∧ p.eval 2 = .ok 6) ∧
    ∃ ps p, (perEdge 2 (fun _ => []) (fun _ => []) sampleNet.capacity 2 2 false firstModel).predict 1 s' = .ok ps ∧ ps[0]? = some p ∧ p.eval 2 = .ok (5 / 2) := by
  obtain ⟨s0, s', h0, h1, h2, h3⟩ := runB_sound (net := sampleNet) (calls := sampleCalls) (post := fun s => apartB 2 s &&
    decide (valueAt ((perEdge 2 (fun _ => []) (fun _ => []) sampleNet.capacity 2 2 false firstModel).predict 1 s) 0 2 = some (5 / 2))) (by decide +kernel)
  obtain ⟨s1, s, h0', g1, g2, g3⟩ := runB_sound (net := sampleNet) (calls := sampleCalls.take 1)
    (post := fun s => callsB sampleNet s (sampleCalls.drop 1) && (decide (1 ≤ s.phi) && (apartB 2 s &&
      decide (valueAt ((perEdge 2 (fun _ => []) (fun _ => []) sampleNet.capacity 2 2 false firstModel).predict 1 s) 0 2 = some 6)))) (by decide +kernel)
  rw [h0] at h0'; injection h0' with h0'; subst h0'
  simp only [Bool.and_eq_true, decide_eq_true_eq] at g3 h3
  have e : runFlow sampleNet s (sampleCalls.drop 1) = .ok s' := by
    rw [← runFlow_append _ _ g2, List.take_append_drop]; exact h2
  have hr : Reached sampleNet s := ⟨sampleNet_ok, s0, _, h0, g1, g2⟩
  have hc : Continues sampleNet s s' := ⟨_, callsB_sound g3.1, e⟩
  exact ⟨s, s', hr, hc, g3.2.1, apartB_sound g3.2.2.1, apartB_sound h3.1, ((continues_same hr hc).2.2 2 1 g3.2.1).1, valueAt_some g3.2.2.2, valueAt_some h3.2⟩

/-- The hypotheses of `C44_predictions_stand` are met. -/
example : ∃ b0 b, Building buildNet List.dedup buildPreds 2 b0 7 ∧ (∀ p, QueuesOnly buildNet.graph.edges.length (buildPreds p)) ∧
    rounds List.dedup buildPreds 7 b0 = .ok b ∧ b.flow.phi = 7 := by
  obtain ⟨b0, b, h1, h2, h3⟩ := buildNet_building
  refine ⟨b0, b, h1, fun p => ?_, h2, h3⟩
  obtain ⟨a, b, _⟩ := C59_queues_only 4
  match p with
  | 0 => exact a
  | 1 => exact b
  | 2 => exact b

end Verif.Props
