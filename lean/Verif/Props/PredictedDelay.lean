import Verif.Proofs.PredictedDelay
import Verif.Props.PredictorsTime
import Verif.Props.PiecewiseLinear
import Verif.Props.RightConstant

/-! Property theorems C58, C62 and C63: predicted costs and delays. -/

namespace Verif.Props
open Verif Verif.Spec Verif.Predictors Verif.Delay

variable {P : Type} {n : Network P}

/-! ### C58 -/

theorem fullNet_valid {net : EdgeData} {s : DFlow} (h : Reached net s) {c : Setup} {model : List (List ℚ) → Py (List (List ℚ))} (hl : LoadsApart c.edges s)
    (hi : 0 < c.interval) (hc : ∀ e < c.edges, c.capacity e = net.capacity e) {t : ℚ} (ht : t ≤ s.phi) {ps : List PL}
    (hp : (fullNet c model).predict t s = .ok ps) {e : Nat} {p : PL} (hpe : ps[e]? = some p) : ValidPL p ∧ ∀ x ∈ p.times, t ≤ x := by
  obtain ⟨L, hL⟩ := reached_sees h hl
  rw [fullNet_eq hL (le_of_lt hi)] at hp
  obtain ⟨out, _, hp⟩ := bind_eq_ok.mp hp
  obtain ⟨raw, _, hp⟩ := bind_eq_ok.mp hp
  obtain ⟨p1, p2⟩ := Builder.mapPy_range hp
  have he : e < c.edges := by rw [← p1]; exact (List.getElem?_eq_some_iff.mp hpe).1
  obtain ⟨p', q1, q2⟩ := p2 e he
  rw [hpe] at q1; injection q1 with q1; subst q1
  cases ho : c.output e with
  | false =>
    rw [ho, if_neg (by simp), py_pure] at q2
    injection q2 with q2; subst q2
    exact ⟨(PL.wf_const t 0).valid, by simp⟩
  | true =>
    rw [ho, if_pos rfl] at q2
    obtain ⟨a1, _, _, a4, _⟩ := edgeFn_spec q2 hi (mul_nonneg (le_of_lt hi) (by rw [hc e he]; exact le_of_lt (h.1.cap e))) ((reached_facts h e).nonneg t ht)
      (slice_nonneg (clip_nonneg raw) _ _)
    exact ⟨a1.valid, a4⟩

theorem perEdge_valid {net : EdgeData} {s : DFlow} (h : Reached net s) {m : Nat} {inc out : Nat → List Nat}
    {past future : Nat} {average : Bool} {models : Nat → List (List ℚ) → Py (List (List ℚ))} {t : ℚ} (ht : t ≤ s.phi) {ps : List PL}
    (hp : (perEdge m inc out net.capacity past future average models).predict t s = .ok ps) {e : Nat} {p : PL} (hpe : ps[e]? = some p) :
    ValidPL p ∧ ∀ x ∈ p.times, t ≤ x := by
  obtain ⟨p1, p2⟩ := Builder.mapPy_range hp
  have he : e < m := by rw [← p1]; exact (List.getElem?_eq_some_iff.mp hpe).1
  obtain ⟨p', q1, q2⟩ := p2 e he
  rw [hpe] at q1; injection q1 with q1; subst q1
  have hq := reached_facts h e
  obtain ⟨_, _, q2⟩ := bind_eq_ok.mp q2
  obtain ⟨_, _, q2⟩ := bind_eq_ok.mp q2
  obtain ⟨_, _, q2⟩ := bind_eq_ok.mp q2
  obtain ⟨_, _, q2⟩ := bind_eq_ok.mp q2
  obtain ⟨raw, _, q2⟩ := bind_eq_ok.mp q2
  rw [hq.eval, ok_bind] at q2
  obtain ⟨f, q3, q2⟩ := bind_eq_ok.mp q2
  have hcap := le_of_lt (h.1.cap e)
  have hlen : raw.length = future := by
    obtain ⟨hf, hw⟩ := PL.new_eq_ok.mp q3
    have := hw.len
    rw [hf] at this
    simp only [perEdgeValues_length, futureTimes_length] at this
    omega
  obtain ⟨f', f1, f2, f3, f4, f5, f6, f7, f8⟩ := perEdge_fn (av := average) (t := t) (cap := net.capacity e) hcap (hq.nonneg t ht) hlen
  rw [q3] at f1; injection f1 with f1; subst f1
  obtain ⟨g, g1, g2, _, _, g5, _⟩ := PL.simplify_physical f2 hcap f3 f4 f5 f8
  rw [q2] at g1; injection g1 with g1; subst g1
  exact ⟨g2.valid, g5⟩

/-- **C58.** For valid predicted queues with break points from `t` on, the costs are, from `t` on, the travel time plus the predicted
queue over the capacity; before `t` they cannot be evaluated. -/
theorem C58_costs (hn : InputOk n) {t : ℚ} {ps : List PL} (hl : ps.length = n.graph.edges.length) (hv : ∀ p ∈ ps, ValidPL p ∧ ∀ x ∈ p.times, t ≤ x) :
    ∃ costs, costsFromPreds n ps t = .ok costs ∧ costs.length = n.graph.edges.length ∧
      ∀ (e : Nat) (p : PL) (tt cap : ℚ), ps[e]? = some p → n.travelTime[e]? = some tt → n.capacity[e]? = some cap →
        ∃ f, costs[e]? = some f ∧ (∀ x, x < t → f.eval x = .error .assertion) ∧ ∀ x, t ≤ x → ∀ q, p.eval x = .ok q → f.eval x = .ok (tt + q / cap) := by
  have hv' : ∀ p ∈ ps, p.values.length = p.times.length ∧ p.times ≠ [] ∧ p.times.Pairwise (fun a b => a < b - eps) ∧ ∀ x ∈ p.times, t ≤ x :=
    fun p hp => ⟨(hv p hp).1.len, (hv p hp).1.ne, (hv p hp).1.gap, (hv p hp).2⟩
  obtain ⟨costs, h1⟩ := Builder.mapPy_range_ok (Builder.costOfEdge n t ps) n.graph.edges.length (fun e he => by
    obtain ⟨_, _, _, f, _, _, _, _, h, _⟩ := Builder.costOfEdge_gen hn hl hv' he; exact ⟨f, h⟩)
  obtain ⟨h2, h3⟩ := Builder.mapPy_range h1
  refine ⟨costs, h1, h2, fun e p tt cap hp htt hcap => ?_⟩
  have he : e < n.graph.edges.length := by rw [← hl]; exact (List.getElem?_eq_some_iff.mp hp).1
  obtain ⟨p', tt', cap', f, a1, a2, a3, _, a5, v1, v2, v3, v4, a6⟩ := Builder.costOfEdge_gen hn hl hv' he
  rw [hp] at a1; injection a1 with a1; subst a1
  rw [htt] at a2; injection a2 with a2; subst a2
  rw [hcap] at a3; injection a3 with a3; subst a3
  obtain ⟨f', b1, b2⟩ := h3 e he
  rw [a5] at b2; injection b2 with b2; subst b2
  have hw : f.WF := by rw [a6]; exact ⟨by simpa using v1, v2, v3, fun x hx => ⟨WithBot.coe_le_coe.mpr (v4 x hx), le_top⟩⟩
  refine ⟨f, b1, fun x hx => ?_, fun x hx q hq => ?_⟩
  · refine PL.eval_err (fun hd => ?_)
    have := hd.1
    rw [a6] at this
    exact absurd (WithBot.coe_le_coe.mp this) (not_le.mpr hx)
  · have hpw := (hv p (List.mem_of_getElem? hp)).1.wf
    have hin : p.inDom x := by
      by_contra hc
      rw [PL.eval_err hc] at hq; cases hq
    rw [PL.eval_eq hpw hin] at hq; injection hq with hq
    have hfn := Builder.fn_scale (tt := tt) (cap := cap) (t := t) v1 v2 v3 v4 (PL.interpolates hpw) x
    rw [PL.eval_eq hw (by rw [a6]; exact ⟨WithBot.coe_le_coe.mpr hx, le_top⟩), ← hq, hfn, a6]

/-- **C58.** The costs that the flow builder computes are these. -/
theorem C58_builder [DecidableEq P] (preds : P → Predictor) (b : Builder P) (p : P) {ps : List PL} (hc : b.cache p = none)
    (hp : (preds p).predict b.route b.flow = .ok ps) {costs : List PL} (h : costsFromPreds b.net ps b.route = .ok costs) :
    ∃ b', b.getCosts preds p = .ok (costs, b') ∧ b'.cache p = some costs := by
  unfold Builder.getCosts
  rw [hc]
  simp only
  unfold costsFromPreds at h
  rw [hp, ok_bind, h, ok_bind]
  exact ⟨_, rfl, by simp⟩

/-- **C58.** Costs are at least the travel time where the predicted queue is not negative; who leaves later on the edge never arrives
earlier if, and only if, the predicted queue never drains faster than the capacity. -/
theorem C58_fifo (hn : InputOk n) {t : ℚ} {ps : List PL} (hl : ps.length = n.graph.edges.length) (hv : ∀ p ∈ ps, ValidPL p ∧ ∀ x ∈ p.times, t ≤ x)
    {costs : List PL} (hcosts : costsFromPreds n ps t = .ok costs) {e : Nat} {p : PL} {tt cap : ℚ} (hp : ps[e]? = some p) (htt : n.travelTime[e]? = some tt)
    (hcap : n.capacity[e]? = some cap) {F : ℚ → ℚ} (hF : ∀ x, t ≤ x → p.eval x = .ok (F x)) :
    ∃ (f : PL) (C : ℚ → ℚ), costs[e]? = some f ∧ (∀ x, t ≤ x → f.eval x = .ok (C x)) ∧ (∀ x, t ≤ x → 0 ≤ F x → tt ≤ C x) ∧
      ((∀ x y, t ≤ x → x ≤ y → x + C x ≤ y + C y) ↔ ∀ x y, t ≤ x → x ≤ y → F x - F y ≤ cap * (y - x)) := by
  obtain ⟨costs', h1, _, h2⟩ := C58_costs hn hl hv
  rw [hcosts] at h1; injection h1 with h1; subst h1
  obtain ⟨f, f1, _, f2⟩ := h2 e p tt cap hp htt hcap
  have hc := hn.cap cap (List.mem_of_getElem? hcap)
  refine ⟨f, fun x => tt + F x / cap, f1, fun x hx => f2 x hx _ (hF x hx), fun x _ h0 => ?_, ?_⟩
  · have := div_nonneg h0 (le_of_lt hc); linarith
  · refine forall_congr' fun x => forall_congr' fun y => forall_congr' fun _ => forall_congr' fun _ => ?_
    have e1 : x + (tt + F x / cap) ≤ y + (tt + F y / cap) ↔ (F x - F y) / cap ≤ y - x := by
      rw [sub_div]; constructor <;> intro h <;> linarith
    rw [e1, div_le_iff₀ hc, mul_comm]

/-- **C58.** A prediction with a break point before `t` cannot be used at `t`: the costs are refused. -/
theorem C58_early_break_fails {t : ℚ} {ps : List PL} {e : Nat} {p : PL} {x : ℚ} (he : e < n.graph.edges.length) (hp : ps[e]? = some p) (hx : p.times[0]? = some x)
    (hlt : x < t) (costs : List PL) : costsFromPreds n ps t ≠ .ok costs := by
  intro h
  obtain ⟨_, h3⟩ := Builder.mapPy_range h
  obtain ⟨f, _, h4⟩ := h3 e he
  unfold Builder.costOfEdge at h4
  rw [rd_eq_ok.mpr hp, ok_bind] at h4
  obtain ⟨_, _, h4⟩ := bind_eq_ok.mp h4
  obtain ⟨_, _, h4⟩ := bind_eq_ok.mp h4
  obtain ⟨_, _, h4⟩ := bind_eq_ok.mp h4
  obtain ⟨_, _, h4⟩ := bind_eq_ok.mp h4
  obtain ⟨_, _, h4⟩ := bind_eq_ok.mp h4
  obtain ⟨h5, h6⟩ := PL.new_eq_ok.mp h4
  have := (h6.dom x (by rw [h5]; exact List.mem_of_getElem? hx)).1
  rw [h5] at this
  exact absurd (WithBot.coe_le_coe.mp this) (not_le.mpr hlt)

/-- **C58.** So what `batch_predict` of the full-net predictors returns for a positive time cannot be used as soon as one edge is not
in the output mask, whatever the model answers. -/
theorem C58_batch_fails {c : Setup} {model : List (List ℚ) → Py (List (List ℚ))} {ts : List ℚ} {flow : DFlow} {pss : List (List PL)}
    (h : fullNetBatch c model ts flow = .ok pss) (hedges : c.edges = n.graph.edges.length) {e : Nat} (he : e < c.edges) (ho : c.output e = false) {k : Nat} {t : ℚ}
    {ps : List PL} (ht : ts[k]? = some t) (hps : pss[k]? = some ps) (hpos : 0 < t) (costs : List PL) : costsFromPreds n ps t ≠ .ok costs := by
  unfold fullNetBatch at h
  obtain ⟨_, _, h⟩ := bind_eq_ok.mp h
  obtain ⟨_, _, h⟩ := bind_eq_ok.mp h
  obtain ⟨_, _, h⟩ := bind_eq_ok.mp h
  obtain ⟨z, hz, h⟩ := bind_eq_ok.mp h
  obtain ⟨_, _, h⟩ := bind_eq_ok.mp h
  obtain ⟨out, _, h⟩ := bind_eq_ok.mp h
  obtain ⟨hz, _⟩ := PL.new_eq_ok.mp hz
  obtain ⟨_, h2⟩ := Builder.mapPy_inv h
  have hk := (List.getElem?_eq_some_iff.mp ht).1
  obtain ⟨ps', p1, p2⟩ := h2 k (k, t) (by
    rw [List.getElem?_zip_eq_some, List.getElem?_range hk]; exact ⟨rfl, ht⟩)
  rw [hps] at p1; injection p1 with p1; subst p1
  obtain ⟨raw, _, p2⟩ := bind_eq_ok.mp p2
  obtain ⟨_, h3⟩ := Builder.mapPy_range p2
  obtain ⟨f, f1, f2⟩ := h3 e he
  rw [ho, if_neg (by simp)] at f2
  injection f2 with f2; subst f2
  exact C58_early_break_fails (by rw [← hedges]; exact he) f1 (x := 0) (by rw [hz]; rfl) hpos costs

/-- **C58.** A physical prediction made of valid functions with break points from `t` on is one that the flow builder can use. -/
theorem C58_physical (hn : InputOk n) {t : ℚ} {ps : List PL} (hl : ps.length = n.graph.edges.length)
    (h : ∀ (e : Nat) (p : PL) (cap : ℚ), ps[e]? = some p → n.capacity[e]? = some cap → ValidPL p ∧ (∀ x ∈ p.times, t ≤ x) ∧ ∃ cur F, Evals p F ∧ Physical cap t cur F) :
    PredictionOk n t ps := by
  refine predictionOk_of hn hl (fun e p cap hp hc => ?_)
  obtain ⟨h1, h2, cur, F, h3, h4⟩ := h e p cap hp hc
  have e1 : ∀ x, p.fn x = F x := by
    intro x
    have := h3 x
    by_cases hd : p.inDom x
    · rw [PL.eval_eq h1.wf hd] at this; injection this
    · rw [PL.eval_err hd] at this; cases this
  refine ⟨h1.wf, h2, fun x hx => by rw [e1]; exact h4.nonneg x hx, fun x y hx hxy => by rw [e1, e1]; exact h4.drain x y hx hxy⟩

theorem capacity_data {e : Nat} {cap : ℚ} (h : n.capacity[e]? = some cap) : n.data.capacity e = cap := by
  show n.capacity.getD e 1 = cap
  rw [List.getD_eq_getElem?_getD, h]; rfl

/-- **C58.** `PerEdgeLinearRegressionPredictor` is valid for the flow builder on every network (so C43–C45 hold of flows built with it),
whatever numbers its models answer. -/
theorem C58_per_edge (hn : InputOk n) (inc out : Nat → List Nat) (past future : Nat) (average : Bool) (models : Nat → List (List ℚ) → Py (List (List ℚ)))
    (hm : ∀ e < n.graph.edges.length, ∀ row, ∃ raw rest, models e [row] = .ok (raw :: rest) ∧ raw.length = future) :
    PredictorsOk n (fun _ : P => perEdge n.graph.edges.length inc out n.data.capacity past future average models) := by
  intro _ f0 f calls t h0 h1 h2 ht0 ht
  have hr : Reached n.data f := ⟨Builder.netOk hn, f0, calls, h0, h1, h2⟩
  obtain ⟨ps, hps⟩ := C71_per_edge_returns hr inc out (capacity := n.data.capacity) (fun _ _ => rfl) past future average models ht hm
  obtain ⟨l1, l2⟩ := C71_per_edge hr inc out (capacity := n.data.capacity) (fun _ _ => rfl) past future average models ht hps
  refine ⟨ps, hps, C58_physical hn l1 (fun e p cap hp hc => ?_)⟩
  have he : e < n.graph.edges.length := by rw [← l1]; exact (List.getElem?_eq_some_iff.mp hp).1
  obtain ⟨p', cur, F, q1, _, q3, q4⟩ := l2 e he
  rw [hp] at q1; injection q1 with q1; subst q1
  rw [capacity_data hc] at q4
  obtain ⟨v1, v2⟩ := perEdge_valid hr ht hps hp
  exact ⟨v1, v2, cur, F, q3, q4⟩

/-- **C58.** Every prediction of the full-net predictors for a reached flow (with loads apart) is one that the flow builder can use. -/
theorem C58_full_net (hn : InputOk n) {s : DFlow} (h : Reached n.data s) (c : Setup) (hedges : c.edges = n.graph.edges.length)
    (model : List (List ℚ) → Py (List (List ℚ))) (hl : LoadsApart c.edges s) (hi : 0 < c.interval) (hc : ∀ e < c.edges, c.capacity e = n.data.capacity e)
    {t : ℚ} (ht : t ≤ s.phi) {ps : List PL} (hp : (fullNet c model).predict t s = .ok ps) : PredictionOk n t ps := by
  obtain ⟨l1, l2⟩ := C57_full_net h c model hl hi hc ht hp
  refine C58_physical hn (by rw [l1, hedges]) (fun e p cap hpe hcap => ?_)
  have he : e < c.edges := by rw [← l1]; exact (List.getElem?_eq_some_iff.mp hpe).1
  obtain ⟨p', cur, F, q1, _, q3, q4, q5⟩ := l2 e he
  rw [hpe] at q1; injection q1 with q1; subst q1
  rw [capacity_data hcap] at q4
  obtain ⟨v1, v2⟩ := fullNet_valid h hl hi hc ht hp hpe
  refine ⟨v1, v2, ?_⟩
  cases ho : c.output e with
  | true => exact ⟨cur, F, q3, q4 ho⟩
  | false =>
    refine ⟨0, F, q3, q5 ho t, fun x _ => le_of_eq (q5 ho x).symm, fun x y _ hxy => ?_⟩
    rw [q5 ho, q5 ho, sub_self]
    exact mul_nonneg (le_of_lt (hn.cap cap (List.mem_of_getElem? hcap))) (by linarith)

/-- **C58**, hypotheses met: predicted queues 3, falling to 0 at time 3, on the first edge of the example. -/
example : InputOk buildNet ∧ ∃ ps p, ps.length = buildNet.graph.edges.length ∧ (∀ p ∈ ps, ValidPL p ∧ ∀ x ∈ p.times, (1 : ℚ) ≤ x) ∧ ps[0]? = some p ∧
    p.eval 2 = .ok (3 / 2) ∧ ∃ costs f, costsFromPreds buildNet ps 1 = .ok costs ∧ costs[0]? = some f ∧ f.eval 2 = .ok (5 / 2) := by
  have hv : ValidPL ⟨[1, 3], [3, 0], 0, 0, ⊥, ⊤⟩ := by
    refine ⟨rfl, by decide, ?_, by simp⟩
    simp only [List.pairwise_cons, List.mem_singleton, forall_eq, List.not_mem_nil, false_implies, implies_true, List.Pairwise.nil, and_true]
    unfold eps; norm_num
  refine ⟨buildNet_ok, List.replicate 4 ⟨[1, 3], [3, 0], 0, 0, ⊥, ⊤⟩, _, rfl, fun p hp => ?_, rfl, by decide +kernel, ?_⟩
  · rw [List.eq_of_mem_replicate hp]; exact ⟨hv, by decide⟩
  · have key : ((costsFromPreds buildNet (List.replicate 4 ⟨[1, 3], [3, 0], 0, 0, ⊥, ⊤⟩) 1).bind (fun cs => (rd cs 0).bind (fun f => f.eval 2))) = .ok (5 / 2) := by decide +kernel
    obtain ⟨costs, h1, h2⟩ := bind_eq_ok.mp key
    obtain ⟨f, h3, h4⟩ := bind_eq_ok.mp h2
    exact ⟨costs, f, h1, rd_eq_ok.mp h3, h4⟩

/-- A full-net predictor on the example, with one edge in its output mask. -/
def delaySetup : Setup := ⟨4, buildNet.data.capacity, fun _ => true, fun e => e == 0, 1, 1, 1⟩

/-- **C58**, `C58_batch_fails` met: a built flow for which the full-net `batch_predict` answers for time 1, but no costs can be made of it. -/
example : ∃ b0 b pss ps, Building buildNet List.dedup buildPreds 2 b0 7 ∧ rounds List.dedup buildPreds 7 b0 = .ok b ∧
    fullNetBatch delaySetup (fun rows => .ok (rows.map (fun r => [r.sum]))) [1] b.flow = .ok pss ∧ pss[0]? = some ps ∧ ∀ costs, costsFromPreds buildNet ps 1 ≠ .ok costs := by
  obtain ⟨b0, h1, h2, b, h3, h4⟩ := Builder.buildB_sound (show Builder.buildB List.dedup buildPreds buildNet 2 7 (fun b =>
    decide (((fullNetBatch delaySetup (fun rows => .ok (rows.map (fun r => [r.sum]))) [1] b.flow).bind (fun pss => (rd pss 0).map (fun ps => ps.length))) = .ok 4)) = true by decide +kernel)
  obtain ⟨pss, p1, p2⟩ := bind_eq_ok.mp (of_decide_eq_true h4)
  cases hr : rd pss 0 with
  | error e => rw [hr] at p2; cases p2
  | ok ps => exact ⟨_, b, pss, ps, ⟨buildNet_ok, dedup_order, buildPreds_ok, by norm_num, ⟨b0, h1, rfl⟩, h2⟩, h3, p1, rd_eq_ok.mp hr,
      C58_batch_fails p1 rfl (e := 1) (by decide) rfl rfl (rd_eq_ok.mp hr) (by norm_num)⟩

/-- **C58**, hypotheses of the predictor theorems met: the per-edge predictor with one answer per edge. -/
example : PredictorsOk buildNet (fun _ : Fin 3 => perEdge 4 (fun _ => []) (fun _ => []) buildNet.data.capacity 2 2 false
    (fun _ rows => .ok (rows.map (fun r => [r.sum, 3])))) :=
  C58_per_edge buildNet_ok _ _ 2 2 false _ (fun _ _ _ => ⟨_, _, rfl, rfl⟩)

/-- **C58**, hypotheses of `C58_full_net` met. -/
example : ∃ b0 b ps p, Building buildNet List.dedup buildPreds 2 b0 7 ∧ rounds List.dedup buildPreds 7 b0 = .ok b ∧ Reached buildNet.data b.flow ∧
    LoadsApart 4 b.flow ∧ 1 ≤ b.flow.phi ∧ (fullNet delaySetup (fun rows => .ok (rows.map (fun r => [r.sum])))).predict 1 b.flow = .ok ps ∧ ps[0]? = some p ∧
    p.eval 2 = .ok (13 / 2) := by
  obtain ⟨b0, h1, h2, b, h3, h4⟩ := Builder.buildB_sound (show Builder.buildB List.dedup buildPreds buildNet 2 7 (fun b => apartB 4 b.flow && (decide (1 ≤ b.flow.phi) &&
    decide (valueAt ((fullNet delaySetup (fun rows => .ok (rows.map (fun r => [r.sum])))).predict 1 b.flow) 0 2 = some (13 / 2)))) = true by decide +kernel)
  simp only [Bool.and_eq_true, decide_eq_true_eq] at h4
  have hB : Building buildNet List.dedup buildPreds 2 { b0 with built := true } 7 := ⟨buildNet_ok, dedup_order, buildPreds_ok, by norm_num, ⟨b0, h1, rfl⟩, h2⟩
  obtain ⟨b', hb', f0, cs, _, hf0, hcs, hrun, _⟩ := C43_conservation hB
  rw [h3] at hb'; injection hb' with hb'; subst hb'
  obtain ⟨ps, p, a1, a2, a3⟩ := valueAt_some h4.2.2
  exact ⟨_, b, ps, p, hB, h3, ⟨Builder.netOk buildNet_ok, f0, cs, hf0, hcs, hrun⟩, apartB_sound h4.1, h4.2.1, a1, a2, a3⟩

/-! ### C62 -/

/-- **C62.** `is_positive_during(f, a, b)` tells whether `f` has a value above `eps` in `[a, b)`. -/
theorem C62_positive {f : RC} (hf : ValidRC f) {a b : ℚ} (hab : a < b) (hd : ∀ x, a ≤ x → x < b → f.inDom x) :
    ∃ r, isPositiveDuring f a b = .ok r ∧ (r = true ↔ ∃ x v, a ≤ x ∧ x < b ∧ f.eval x = .ok v ∧ eps < v) := by
  obtain ⟨r, h1, h2⟩ := isPositiveDuring_spec hf.wf hab
  refine ⟨r, h1, h2.trans ⟨?_, ?_⟩⟩
  · rintro ⟨x, x1, x2, x3⟩
    exact ⟨x, _, x1, x2, RC.eval_eq hf.wf (hd x x1 x2), x3⟩
  · rintro ⟨x, v, x1, x2, x3, x4⟩
    rw [RC.eval_eq hf.wf (hd x x1 x2)] at x3; injection x3 with x3
    exact ⟨x, x1, x2, by rw [x3]; exact x4⟩

/-- **C62**, hypotheses met. -/
example : ValidRC ⟨[0, 2, 5], [1, 0, 3], ((0 : ℚ) : WithBot ℚ), ⊤⟩ ∧ isPositiveDuring ⟨[0, 2, 5], [1, 0, 3], ((0 : ℚ) : WithBot ℚ), ⊤⟩ 2 5 = .ok false ∧
    isPositiveDuring ⟨[0, 2, 5], [1, 0, 3], ((0 : ℚ) : WithBot ℚ), ⊤⟩ 1 2 = .ok true := by
  refine ⟨⟨rfl, by decide, ?_, ?_⟩, by decide +kernel, by decide +kernel⟩
  · decide +kernel
  · intro x hx
    refine ⟨WithBot.coe_le_coe.mpr ?_, le_top⟩
    revert x; decide +kernel

/-! ### C63 -/

/-- The recorded inflow of a reached flow, as a step function. -/
theorem reached_inflow {net : EdgeData} {s : DFlow} (h : Reached net s) (e i : Nat) :
    (∀ f, (s.inflow e).funs i = some f → ValidRC f ∧ ∀ x, 0 ≤ x → f.inDom x ∧ inRate s e i x = f.fn x) ∧
      ((s.inflow e).funs i = none → ∀ x, inRate s e i x = 0) := by
  obtain ⟨hn, s0, calls, h0, h1, h2⟩ := h
  obtain ⟨⟨Q, C, hx⟩, _⟩ := exact_reach hn h0 h1 h2
  obtain ⟨_, _, _, _, _, hh⟩ := hx.edge e
  refine ⟨fun f hf => ?_, fun hf x => ?_⟩
  · have hg := (hh.gin.funs i).1 f hf
    refine ⟨hg.wf.valid, fun x hx => ⟨hg.inDom hx, ?_⟩⟩
    unfold inRate
    rw [Builder.good_rateAt hh.gin i hx]
    unfold FRC.rate
    rw [hf]
  · unfold inRate FRC.rateAt
    rw [hf]

theorem positive_iff {net : EdgeData} {s : DFlow} (h : Reached net s) {e i : Nat} {a b : ℚ} (ha : 0 ≤ a) (hab : a < b) :
    (∀ f, (s.inflow e).funs i = some f → ∃ r, isPositiveDuring f a b = .ok r) ∧ (Positive s i a b e ↔ FlowsInto s i e a b) := by
  obtain ⟨h1, h2⟩ := reached_inflow h e i
  refine ⟨fun f hf => ?_, ?_, ?_⟩
  · obtain ⟨r, hr, _⟩ := isPositiveDuring_spec (h1 f hf).1.wf hab
    exact ⟨r, hr⟩
  · rintro ⟨f, f1, f2⟩
    obtain ⟨r, hr, hi⟩ := isPositiveDuring_spec (h1 f f1).1.wf hab
    rw [f2] at hr; injection hr with hr; subst hr
    obtain ⟨x, x1, x2, x3⟩ := hi.mp rfl
    exact ⟨x, x1, x2, by rw [((h1 f f1).2 x (le_trans ha x1)).2]; exact x3⟩
  · rintro ⟨x, x1, x2, x3⟩
    cases hf : (s.inflow e).funs i with
    | none => rw [h2 hf] at x3; exact absurd x3 (not_lt.mpr (le_of_lt eps_pos))
    | some f =>
      obtain ⟨r, hr, hi⟩ := isPositiveDuring_spec (h1 f hf).1.wf hab
      have := hi.mpr ⟨x, x1, x2, by rw [← ((h1 f hf).2 x (le_trans ha x1)).2]; exact x3⟩
      subst this
      exact ⟨f, hf, hr⟩

/-- **C63.** For valid predictions and an edge that the commodity can use, `get_pred_edge_delay` returns a non-negative number: how much later
than possible one arrives at the sink. -/
theorem C63_delay [DecidableEq P] (hn : InputOk n) {c : Commodity P} (hc : c ∈ n.commodities) {t : ℚ} {ps : List PL} (hp : PredictionOk n t ps) {e r : Nat}
    (he : n.graph.edges[e]? = some r) (hw : OnTheWay n.graph c r) :
    ∃ d, DelayAt n c ps t e d ∧ 0 ≤ d ∧ ∀ cost, Costs n ps cost → EdgeDelay n.graph cost c.sink t r d := by
  obtain ⟨costs, c1, c2⟩ := Builder.costs_ok hn hp
  obtain ⟨L, l1, l2⟩ := Builder.importantOf_spec hn.graph (hn.sink c hc) (fun s hs => (hn.source c hc s hs).1)
  have hcl := Builder.between_closed l2
  have hsub : ∀ v ∈ L, v ∈ n.graph.nodes := fun v hv => Builder.between_nodes hn hc ((l2 v).mp hv)
  have hr : r ∈ n.graph.edges := List.mem_of_getElem? he
  have hv : n.graph.nodeFrom r ∈ L := (l2 _).mpr ⟨Relation.ReflTransGen.head ⟨r, hr, rfl, rfl⟩ hw.sink, hw.source⟩
  have hs : c.sink ∈ L := by
    obtain ⟨s, s1, _⟩ := hw.source
    exact (l2 _).mpr ⟨.refl, s, s1, (hn.source c hc s s1).2.1⟩
  obtain ⟨cost0, hcost0⟩ := c2.costs
  obtain ⟨d, d1, d2, d3⟩ := predEdgeDelay_spec hn.graph (Builder.fifo_ok hp c2 hcost0) hsub hs hcl (fun v hv => ((l2 v).mp hv).1) he hv hw.out hw.sink
  refine ⟨d, ⟨L, costs, l1, c1, d1⟩, d2, fun cost hcost => ?_⟩
  obtain ⟨d', e1, _, e3⟩ := predEdgeDelay_spec hn.graph (Builder.fifo_ok hp c2 hcost) hsub hs hcl (fun v hv => ((l2 v).mp hv).1) he hv hw.out hw.sink
  rw [d1] at e1; injection e1 with e1; subst e1
  exact e3

/-- What is needed to measure the delays of commodity `i`: a valid network, a reached flow whose commodity `i` is on its way wherever it
enters an edge before the end of the measurement, measurement times, and valid predictions for these times. -/
structure CanReport (n : Network P) (flow : DFlow) (batch : P → List ℚ → DFlow → Py (List (List PL))) (future : Nat) (reroute predInterval horizon : ℚ)
    (i : Nat) (c : Commodity P) (times : List ℚ) (preds : List (List PL)) : Prop where
  input : InputOk n
  reached : Reached n.data flow
  commodity : n.commodities[i]? = some c
  interval : 0 < reroute
  long : 0 ≤ horizon - (future + 1) * predInterval
  grid : predTimes future reroute predInterval horizon = .ok times
  answers : batch c.predictor times flow = .ok preds
  len : preds.length = times.length
  valid : ∀ (k : Nat) (a : ℚ) (p : List PL), times[k]? = some a → preds[k]? = some p → PredictionOk n a p
  way : ∀ (e r : Nat) (x : ℚ), n.graph.edges[e]? = some r → 0 ≤ x → x < horizon - (future + 1) * predInterval → eps < inRate flow e i x → OnTheWay n.graph c r

/-- **C63.** Measuring never raises, and the report dominates all measured delays and is 0 or attained at its witness. -/
theorem C63_reported [DecidableEq P] {flow : DFlow} {batch : P → List ℚ → DFlow → Py (List (List PL))} {future : Nat} {reroute predInterval horizon : ℚ}
    {i : Nat} {c : Commodity P} {times : List ℚ} {preds : List (List PL)} (h : CanReport n flow batch future reroute predInterval horizon i c times preds) :
    ∃ m, delayOf flow n batch future reroute predInterval horizon i = .ok m ∧ Reports flow n i c times preds m := by
  have hn := h.input
  have hc := List.mem_of_getElem? h.commodity
  obtain ⟨times', t1, t2⟩ := predTimes_spec future h.interval predInterval horizon
  rw [h.grid] at t1; injection t1 with t1; subst t1
  have hd : 0 < reroute / 2 := by have := h.interval; positivity
  have hnext : ∀ (k : Nat) (a b : ℚ), times[k]? = some a → times[k + 1]? = some b → 0 ≤ a ∧ a < b ∧ b ≤ horizon - (future + 1) * predInterval := by
    intro k a b ha hb
    obtain ⟨ha, _⟩ := (t2 k a).mp ha
    obtain ⟨hb, hb2⟩ := (t2 (k + 1) b).mp hb
    refine ⟨by rw [ha]; positivity, ?_, hb2⟩
    rw [ha, hb]; push_cast; nlinarith
  have h0 : times[0]? = some 0 := (t2 0 0).mpr ⟨by simp, h.long⟩
  have hpos : 0 < times.length := (List.getElem?_eq_some_iff.mp h0).1
  obtain ⟨L, l1, l2⟩ := Builder.importantOf_spec hn.graph (hn.sink c hc) (fun s hs => (hn.source c hc s hs).1)
  have hway : ∀ (k : Nat) (a b : ℚ), times[k]? = some a → times[k + 1]? = some b → ∀ e < n.graph.edges.length, FlowsInto flow i e a b →
      ∃ r, n.graph.edges[e]? = some r ∧ OnTheWay n.graph c r := by
    rintro k a b ha hb e he ⟨x, x1, x2, x3⟩
    obtain ⟨b1, _, b3⟩ := hnext k a b ha hb
    have hr := List.getElem?_eq_getElem he
    exact ⟨_, hr, h.way e _ x hr (le_trans b1 x1) (lt_of_lt_of_le x2 b3) x3⟩
  have hdel : ∀ (k : Nat) (a : ℚ) (p cs : List PL) (e r : Nat), times[k]? = some a → preds[k]? = some p → costsFromPreds n p a = .ok cs →
      n.graph.edges[e]? = some r → OnTheWay n.graph c r → ∃ x, predEdgeDelay a e n c.sink L cs = .ok x ∧ DelayAt n c p a e x ∧ 0 ≤ x := by
    intro k a p cs e r ha hp hcs hr hw
    obtain ⟨x, ⟨L', cs', y1, y2, y3⟩, x2, _⟩ := C63_delay hn hc (h.valid k a p ha hp) hr hw
    rw [comNodes_eq, l1] at y1; injection y1 with y1; subst y1
    rw [hcs] at y2; injection y2 with y2; subst y2
    exact ⟨x, y3, ⟨L, cs, l1, hcs, y3⟩, x2⟩
  have hcan : CanMeasure flow n i c.sink L times preds := by
    refine ⟨?_, ?_, ?_⟩
    · intro k a p ha hp
      obtain ⟨cs, hcs, _⟩ := Builder.costs_ok hn (h.valid k a p ha hp)
      exact ⟨cs, hcs⟩
    · intro k a b ha hb e he f hf
      obtain ⟨b1, b2, _⟩ := hnext k a b ha hb
      exact (positive_iff h.reached b1 b2).1 f hf
    · intro k a b p q cs ce ha hb hp hq hcs hce e he hpo
      obtain ⟨b1, b2, _⟩ := hnext k a b ha hb
      obtain ⟨r, r1, r2⟩ := hway k a b ha hb e he ((positive_iff h.reached b1 b2).2.mp hpo)
      obtain ⟨x, x1, _⟩ := hdel k a p cs e r ha hp hcs r1 r2
      obtain ⟨y, y1, _⟩ := hdel (k + 1) b q ce e r hb hq hce r1 r2
      exact ⟨x, y, x1, y1⟩
  have hp0 : preds[0]? = some (preds[0]'(by rw [h.len]; exact hpos)) := List.getElem?_eq_getElem _
  obtain ⟨cs0, hcs0⟩ := hcan.costs 0 _ _ h0 hp0
  obtain ⟨m, m1, m2, m3⟩ := measureIntervals_spec hcan h.len (times.length - 1) 0 ⟨0, none⟩ 0 _ cs0 (fun _ => none) (by omega) h0 hp0 hcs0
    (fun e x hx => by cases hx)
  refine ⟨m, ?_, ?_, ?_⟩
  · unfold delayOf
    rw [rd_eq_ok.mpr h.commodity, ok_bind, comNodes_eq, l1, ok_bind, h.grid, ok_bind, h.answers, ok_bind, rd_eq_ok.mpr h0, ok_bind, rd_eq_ok.mpr hp0, ok_bind,
      hcs0, ok_bind, List.range_eq_range']
    exact m1
  · intro k e a b p q ha hb hp hq he hf
    obtain ⟨b1, b2, _⟩ := hnext k a b ha hb
    have hpo := (positive_iff h.reached b1 b2 (e := e) (i := i)).2.mpr hf
    obtain ⟨r, r1, r2⟩ := hway k a b ha hb e he hf
    obtain ⟨cs, hcs⟩ := hcan.costs k a p ha hp
    obtain ⟨ce, hce⟩ := hcan.costs (k + 1) b q hb hq
    obtain ⟨x, x1, x2, x3⟩ := hdel k a p cs e r ha hp hcs r1 r2
    obtain ⟨y, y1, y2, y3⟩ := hdel (k + 1) b q ce e r hb hq hce r1 r2
    have hk : k ∈ List.range' 0 (times.length - 1) := by
      have := (List.getElem?_eq_some_iff.mp hb).1
      rw [List.mem_range'_1]; omega
    obtain ⟨z1, z2⟩ := m2 k hk a b p q cs ce ha hb hp hq hcs hce e he hpo x y x1 y1
    exact ⟨x, y, x2, y2, x3, y3, z1, z2⟩
  · rcases m3.2 with rfl | ⟨w, w1, w2, k, a, b, p, q, cs, ce, _, k1, k2, k3, k4, k5, k6, k7, k8, ⟨k9, k10⟩, k11⟩
    · exact .inl ⟨rfl, rfl⟩
    · refine .inr ⟨w, k, p, q, w1, w2, by rw [k7]; exact k1, by rw [k8]; exact k2, k3, k4, List.mem_range.mp k9, ?_, ?_⟩
      · obtain ⟨b1, b2, _⟩ := hnext k a b k1 k2
        rw [k7, k8]
        exact (positive_iff h.reached b1 b2).2.mp k10
      · cases hs : w.atStart with
        | true =>
          rw [hs, if_pos rfl] at k11
          rw [if_pos rfl, k7]
          exact ⟨L, cs, l1, k5, k11⟩
        | false =>
          rw [hs, if_neg (by simp)] at k11
          rw [if_neg (by simp), k8]
          exact ⟨L, ce, l1, k6, k11⟩

/-- **C63.** The whole evaluation returns one report per commodity. -/
theorem C63_all [DecidableEq P] {flow : DFlow} {batch : P → List ℚ → DFlow → Py (List (List PL))} {future : Nat} {reroute predInterval horizon : ℚ} (new : List Nat)
    (h : ∀ (i : Nat) (c : Commodity P), n.commodities[i]? = some c → ∃ times preds, CanReport n flow batch future reroute predInterval horizon i c times preds) :
    ∃ rs, approximateMax flow n batch new future reroute predInterval horizon = .ok rs ∧ rs.length = n.commodities.length ∧
      ∀ (i : Nat) (c : Commodity P), n.commodities[i]? = some c → ∃ m times preds, rs[i]? = some (m, c.predictor, new.contains i) ∧
        CanReport n flow batch future reroute predInterval horizon i c times preds ∧ Reports flow n i c times preds m := by
  obtain ⟨rs, h1⟩ := Builder.mapPy_range_ok (fun i => do
      let m ← delayOf flow n batch future reroute predInterval horizon i
      let c ← rd n.commodities i
      pure (m, c.predictor, new.contains i) : Nat → Py (Found × P × Bool)) n.commodities.length (fun i hi => by
    have hc := List.getElem?_eq_getElem hi
    obtain ⟨times, preds, hm⟩ := h i _ hc
    obtain ⟨m, m1, _⟩ := C63_reported hm
    rw [m1, ok_bind, rd_eq_ok.mpr hc, ok_bind]
    exact ⟨_, rfl⟩)
  obtain ⟨h2, h3⟩ := Builder.mapPy_range h1
  refine ⟨rs, h1, h2, fun i c hc => ?_⟩
  obtain ⟨times, preds, hm⟩ := h i c hc
  obtain ⟨m, m1, m2⟩ := C63_reported hm
  obtain ⟨x, x1, x2⟩ := h3 i (List.getElem?_eq_some_iff.mp hc).1
  rw [m1, ok_bind, rd_eq_ok.mpr hc, ok_bind] at x2
  injection x2 with x2
  exact ⟨m, times, preds, by rw [x1, x2], hm, m2⟩

/-- **C63.** In a built flow, a commodity that enters an edge before `phi` is on its way. -/
theorem C63_on_the_way [DecidableEq P] {ord : List Nat → List Nat} {preds : P → Predictor} {d : ℚ} {b0 : Builder P} {k : Nat}
    (h : Building n ord preds d b0 k) {b : Builder P} (hb : rounds ord preds k b0 = .ok b) {e r i : Nat} {x : ℚ} (he : n.graph.edges[e]? = some r)
    (hx0 : 0 ≤ x) (hx : x < b.flow.phi) (hpos : eps < inRate b.flow e i x) : ∃ c, n.commodities[i]? = some c ∧ OnTheWay n.graph c r := by
  have hep := eps_pos
  obtain ⟨f0, W, hf, hi⟩ := building_inv h
  obtain ⟨b', cs, hist, K, W', r1, r2, _⟩ := Builder.inv_rounds h.input h.order h.predictors h.interval hf hi k h.clear
  rw [hb] at r1; injection r1 with r1; subst r1
  have hr : r ∈ n.graph.edges := List.mem_of_getElem? he
  have hid : (n.graph.edge r).id = e := by
    obtain ⟨h1, h2⟩ := List.getElem?_eq_some_iff.mp he
    rw [← h2]; exact h.input.graph.ids e h1
  have hne : inRate b.flow (n.graph.edge r).id i x ≠ 0 := by rw [hid]; exact ne_of_gt (lt_trans hep hpos)
  have hv := (h.input.graph.ends r hr).1
  have hout : r ∈ n.graph.outgoing (n.graph.nodeFrom r) := (Builder.out_mem h.input.graph hv).mpr ⟨hr, rfl⟩
  obtain ⟨_, _, _, hrt⟩ := r2.past _ hv i x hx0 hx
  have hns : ¬ (IsSink n i (n.graph.nodeFrom r) ∨ arriving n b.flow (n.graph.nodeFrom r) i x < eps) := fun hc => hne (hrt.stop hc r hout)
  rw [not_or] at hns
  have harr : arriving n b.flow (n.graph.nodeFrom r) i x ≠ 0 := ne_of_gt (lt_of_lt_of_le hep (not_lt.mp hns.2))
  obtain ⟨c, c1, _, c3⟩ := Builder.arriving_between h.input r2.flow r2.supp hv hx0 harr
  have hto : ∃ c, n.commodities[i]? = some c ∧ Builder.Between n.graph c (n.graph.nodeTo r) := by
    by_contra hc
    exact hne (by rw [Builder.inRate_eq r2.flow _ i hx0]; exact (r2.supp r hr i hc).1 x hx0)
  obtain ⟨c', c1', c2', _⟩ := hto
  rw [c1] at c1'; injection c1' with c1'; subst c1'
  exact ⟨c, c1, c3, c2', fun hc => hns.1 ⟨c, c1, hc.symm⟩⟩

/-- **C63.** In a flow that the builder made, the delays of every commodity can be measured up to `phi`, with the `batch_predict` of any valid
predictors. -/
theorem C63_built [DecidableEq P] {ord : List Nat → List Nat} {preds preds' : P → Predictor} {d : ℚ} {b0 : Builder P} {k : Nat}
    (h : Building n ord preds d b0 k) {b : Builder P} (hb : rounds ord preds k b0 = .ok b) (hp : PredictorsOk n preds') {future : Nat}
    {reroute predInterval horizon : ℚ} (hr : 0 < reroute) (h0 : 0 ≤ horizon - (future + 1) * predInterval)
    (hphi : horizon - (future + 1) * predInterval ≤ b.flow.phi) {i : Nat} {c : Commodity P} (hc : n.commodities[i]? = some c) :
    ∃ times ps, CanReport n b.flow (fun p => Predictors.batch (preds' p)) future reroute predInterval horizon i c times ps := by
  obtain ⟨b', hb', f0, cs, _, hf0, hcs, hrun, _⟩ := C43_conservation h
  rw [hb] at hb'; injection hb' with hb'; subst hb'
  obtain ⟨times, t1, t2⟩ := predTimes_spec future hr predInterval horizon
  have hmem : ∀ x ∈ times, 0 ≤ x ∧ x ≤ b.flow.phi := by
    intro x hx
    obtain ⟨j, hj⟩ := List.getElem?_of_mem hx
    obtain ⟨e1, e2⟩ := (t2 j x).mp hj
    exact ⟨by rw [e1]; positivity, le_trans e2 hphi⟩
  have hpred : ∀ x ∈ times, ∃ ps, (preds' c.predictor).predict x b.flow = .ok ps ∧ PredictionOk n x ps := fun x hx =>
    hp c.predictor f0 b.flow cs x hf0 hcs hrun (hmem x hx).1 (hmem x hx).2
  obtain ⟨pss, p1, p2, p3⟩ := Builder.mapPy_ok (fun t => (preds' c.predictor).predict t b.flow) times (fun x hx => by
    obtain ⟨ps, hps, _⟩ := hpred x hx; exact ⟨ps, hps⟩)
  have hbatch : Predictors.batch (preds' c.predictor) times b.flow = .ok pss := by
    have hz : times[0]? = some 0 := (t2 0 0).mpr ⟨by simp, h0⟩
    unfold Predictors.batch
    cases hm : times.max? with
    | none => rw [List.max?_eq_none_iff] at hm; rw [hm] at hz; cases hz
    | some m =>
      have := (hmem m (List.max?_mem hm)).2
      simp only
      rw [if_neg (not_lt.mpr this)]
      exact p1
  refine ⟨times, pss, h.input, ⟨Builder.netOk h.input, f0, cs, hf0, hcs, hrun⟩, hc, hr, h0, t1, hbatch, p2, ?_, ?_⟩
  · intro j a p ha hpj
    obtain ⟨p', q1, q2⟩ := p3 j a ha
    rw [hpj] at q1; injection q1 with q1; subst q1
    obtain ⟨ps, r1, r2⟩ := hpred a (List.mem_of_getElem? ha)
    rw [q2] at r1; injection r1 with r1; subst r1
    exact r2
  · intro e r x he hx0 hx hpos
    obtain ⟨c', c1, c2⟩ := C63_on_the_way h hb he hx0 (lt_of_lt_of_le hx hphi) hpos
    rw [hc] at c1; injection c1 with c1; subst c1
    exact c2

/-- **C63**, hypotheses met: in a built flow the first commodity, with zero predictions, has a delay of 2 with respect to constant
predictions: at time 2, on the first edge. -/
example : ∃ b0 b c times ps m w, Building buildNet List.dedup buildPreds 2 b0 7 ∧ rounds List.dedup buildPreds 7 b0 = .ok b ∧
    CanReport buildNet b.flow (fun _ => Predictors.batch (Predictors.const 4)) 1 2 1 7 0 c times ps ∧
    delayOf b.flow buildNet (fun _ => Predictors.batch (Predictors.const 4)) 1 2 1 7 0 = .ok m ∧ m.eps = 2 ∧ m.witness = some w ∧
    w.start = 1 ∧ w.stop = 2 ∧ w.atStart = false ∧ w.edge = 0 := by
  obtain ⟨b0, h1, h2, b, h3, h4⟩ := Builder.buildB_sound (show Builder.buildB List.dedup buildPreds buildNet 2 7 (fun b => decide (b.flow.phi = 7) &&
    decide ((delayOf b.flow buildNet (fun _ => Predictors.batch (Predictors.const 4)) 1 2 1 7 0).map (fun m => (m.eps, m.witness.map (fun (w : Witness) =>
      (w.start, w.stop, w.atStart, w.edge)))) = .ok (2, some (1, 2, false, 0)))) = true by decide +kernel)
  rw [Bool.and_eq_true] at h4
  have hphi := of_decide_eq_true h4.1
  have hB : Building buildNet List.dedup buildPreds 2 { b0 with built := true } 7 := ⟨buildNet_ok, dedup_order, buildPreds_ok, by norm_num, ⟨b0, h1, rfl⟩, h2⟩
  obtain ⟨times, ps, hr⟩ := C63_built (preds' := fun _ => Predictors.const 4) hB h3 (fun _ f0 f cs t h0 hc hr _ ht => Predictors.const_ok buildNet_ok h0 hc hr ht)
    (future := 1) (reroute := 2) (predInterval := 1) (horizon := 7) (i := 0) (by norm_num) (by norm_num) (by rw [hphi]; norm_num) rfl
  have h5 := of_decide_eq_true h4.2
  cases hm : delayOf b.flow buildNet (fun _ => Predictors.batch (Predictors.const 4)) 1 2 1 7 0 with
  | error e => rw [hm] at h5; cases h5
  | ok m =>
    rw [hm] at h5
    injection h5 with h5
    injection h5 with h5 h6
    obtain ⟨w, w1, w2⟩ := Option.map_eq_some_iff.mp h6
    injection w2 with a1 a2
    injection a2 with a2 a3
    injection a3 with a3 a4
    exact ⟨_, b, _, times, ps, m, w, hB, h3, hr, hm, h5, w1, a1, a2, a3, a4⟩

end Verif.Props
