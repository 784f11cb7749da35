import Verif.Proofs.PredictBatch
import Verif.Proofs.DFlowCheck
import Verif.Props.DynamicFlow

/-! Property theorems C54–C59 (src/core/predictors). -/

namespace Verif.Props
open Verif Verif.Spec Verif.Predictors

variable {net net' : EdgeData} {s s' : DFlow}

theorem reached_facts (h : Reached net s) (e : Nat) : QueueFacts (net.capacity e) s.phi (s.queues e) := by
  obtain ⟨hn, s0, calls, h0, h1, h2⟩ := h
  exact (queueFacts hn h0 h1 h2 e).1

theorem reached_total (h : Reached net s) (e : Nat) : Total (s.queues e) := ⟨(reached_facts h e).wf, (reached_facts h e).lo, (reached_facts h e).hi⟩

theorem reached_sees (h : Reached net s) {m : Nat} (hl : LoadsApart m s) : ∃ L, Sees s m L := by
  obtain ⟨hn, s0, calls, h0, h1, h2⟩ := h
  obtain ⟨⟨P, C, hx⟩, _⟩ := exact_reach hn h0 h1 h2
  have : ∀ e, ∃ g, e < m → s.edgeLoad e = .ok g ∧ Total g := by
    intro e
    obtain ⟨_, _, _, _, _, he⟩ := hx.edge e
    by_cases hm : e < m
    · obtain ⟨g, g1, g2, g3, g4, _⟩ := DFlow.edgeLoad_ok he (hl e hm)
      exact ⟨g, fun _ => ⟨g1, g2, g3, g4⟩⟩
    · exact ⟨s.queues e, fun h => absurd h hm⟩
  choose L hL using this
  exact ⟨L, fun e _ => reached_total ⟨hn, s0, calls, h0, h1, h2⟩ e, fun e he => (hL e he).1, fun e he => (hL e he).2⟩

/-! ### C54 -/

/-- **C54**: `ZeroPredictor` predicts one function per edge, 0 at every time; it says it is constant. -/
theorem C54_zero (m : Nat) (t : ℚ) (f : DFlow) : (zero m).constant = true ∧ ∃ ps, (zero m).predict t f = .ok ps ∧ ps.length = m ∧
    ∀ p ∈ ps, ∀ x, p.eval x = .ok 0 := by
  refine ⟨rfl, _, zero_spec m t f, by simp, ?_⟩
  intro p hp x
  obtain ⟨_, _, rfl⟩ := List.mem_map.mp hp
  exact PL.eval_const t 0 x

/-- **C54**: `ConstantPredictor` predicts one function per edge, the current queue at every time; it says it is constant. -/
theorem C54_constant (h : Reached net s) (m : Nat) (t : ℚ) : (const m).constant = true ∧ ∃ ps, (const m).predict t s = .ok ps ∧ ps.length = m ∧
    ∀ e < m, ∃ p c, ps[e]? = some p ∧ (s.queues e).eval t = .ok c ∧ ∀ x, p.eval x = .ok c := by
  obtain ⟨ps, h1, h2, h3⟩ := const_spec m (t := t) (f := s) (fun e _ => ⟨_, (reached_facts h e).eval t⟩)
  refine ⟨rfl, ps, h1, h2, fun e he => ?_⟩
  obtain ⟨v, v1, v2⟩ := h3 e he
  exact ⟨_, v, v2, v1, fun x => PL.eval_const t v x⟩

/-! ### C55, C56 -/

/-- **C55**, for edges whose queue is not led below 0 by its slope within the horizon, or is more than `eps` and takes more than
`eps` to deplete: `LinearPredictor` predicts that the queue follows its present slope (the one up to `t`) for the horizon or
until it is empty; the prediction is physical. -/
theorem C55_linear_partial (h : Reached net s) {m : Nat} {t d : ℚ} (hd : eps < d) (ht : t ≤ s.phi)
    (hok : ∀ e < m, ∀ Q σ, Evals (s.queues e) Q → LeftSlope Q t σ → 0 ≤ Q t + σ * d ∨ (eps < Q t ∧ eps < Q t / (-σ))) :
    ∃ ps, (linear m d).predict t s = .ok ps ∧ ps.length = m ∧ ∀ e < m, ∃ p Q σ F, ps[e]? = some p ∧ Evals (s.queues e) Q ∧ LeftSlope Q t σ ∧
      Evals p F ∧ Extrapolates (Q t) σ d t F ∧ Physical (net.capacity e) t (Q t) F := by
  have h0 := eps_pos
  have hedge : ∀ e < m, ∃ σ p F, LeftSlope (s.queues e).fn t σ ∧ (do
      let q ← (s.queues e).eval t
      let cur := max 0 q
      let r ← elemRank (s.queues e).times t
      let g ← (s.queues e).gradient r
      follow d t cur g : Py PL) = .ok p ∧ Evals p F ∧ Extrapolates ((s.queues e).fn t) σ d t F ∧ Physical (net.capacity e) t ((s.queues e).fn t) F := by
    intro e he
    have hq := reached_facts h e
    obtain ⟨σ, s1, s2, s3⟩ := linear_edge (h := d) hq ht
    obtain ⟨p, F, f1, f2, f3⟩ := follow_ok (t := t) hd (hq.nonneg t ht) (hok e he _ σ (reached_total h e).eval s1)
    exact ⟨σ, p, F, s1, by rw [s3]; exact f1, f2, f3, extrapolates_physical (le_of_lt (h.1.cap e)) (hq.nonneg t ht) (by linarith) s2 f3⟩
  obtain ⟨ps, p1⟩ := Builder.mapPy_range_ok (fun e => (do
      let q ← (s.queues e).eval t
      let cur := max 0 q
      let r ← elemRank (s.queues e).times t
      let g ← (s.queues e).gradient r
      follow d t cur g : Py PL)) m (fun e he => by obtain ⟨_, p, _, _, hp, _⟩ := hedge e he; exact ⟨p, hp⟩)
  obtain ⟨p2, p3⟩ := Builder.mapPy_range p1
  refine ⟨ps, p1, p2, fun e he => ?_⟩
  obtain ⟨p, q1, q2⟩ := p3 e he
  obtain ⟨σ, p', F, a1, a2, a3, a4, a5⟩ := hedge e he
  rw [q2] at a2; injection a2 with a2; subst a2
  exact ⟨p, _, σ, F, q1, (reached_total h e).eval, a1, a3, a4, a5⟩

/-- **C55**, what happens otherwise: every prediction that is returned is the one of the property, or the queue is at most `eps` and
the prediction goes below 0 and stays there. -/
theorem C55_linear_any (h : Reached net s) {m : Nat} {t d : ℚ} (hd : eps < d) (ht : t ≤ s.phi) {ps : List PL} (hp : (linear m d).predict t s = .ok ps) :
    ps.length = m ∧ ∀ e < m, ∃ p Q σ F, ps[e]? = some p ∧ Evals (s.queues e) Q ∧ LeftSlope Q t σ ∧ Evals p F ∧
      (Extrapolates (Q t) σ d t F ∨ (Q t ≤ eps ∧ Q t + σ * d < 0 ∧ ∀ x, t ≤ x → F x = Q t + σ * min (x - t) d)) := by
  obtain ⟨p2, p3⟩ := Builder.mapPy_range hp
  refine ⟨p2, fun e he => ?_⟩
  have hq := reached_facts h e
  obtain ⟨p, q1, q2⟩ := p3 e he
  obtain ⟨σ, s1, s2, s3⟩ := linear_edge (h := d) hq ht
  have q3 : follow d t ((s.queues e).fn t) σ = .ok p := by rw [← s3]; exact q2
  obtain ⟨F, f1, f2⟩ := follow_cases hd (hq.nonneg t ht) q3
  exact ⟨p, _, σ, F, q1, (reached_total h e).eval, s1, f1, f2⟩

/-- **C56**, as `C55_linear_partial` with the average slope over the last `δ`. -/
theorem C56_regularized_partial (h : Reached net s) {m : Nat} {t d δ : ℚ} (hd : eps < d) (hδ : 0 < δ) (ht : t ≤ s.phi)
    (hok : ∀ e < m, ∀ Q, Evals (s.queues e) Q →
      0 ≤ Q t + (Q t - Q (t - δ)) / δ * d ∨ (eps < Q t ∧ eps < Q t / (-((Q t - Q (t - δ)) / δ)))) :
    ∃ ps, (regLinear m d δ).predict t s = .ok ps ∧ ps.length = m ∧ ∀ e < m, ∃ p Q F, ps[e]? = some p ∧ Evals (s.queues e) Q ∧
      Evals p F ∧ Extrapolates (Q t) ((Q t - Q (t - δ)) / δ) d t F ∧ Physical (net.capacity e) t (Q t) F := by
  have h0 := eps_pos
  have hedge : ∀ e < m, ∃ p F, (do
      let q ← (s.queues e).eval t
      let cur := max 0 q
      let q' ← (s.queues e).eval (t - δ)
      let old := max 0 q'
      let g ← pyDiv (cur - old) δ
      follow d t cur g : Py PL) = .ok p ∧ Evals p F ∧
        Extrapolates ((s.queues e).fn t) (((s.queues e).fn t - (s.queues e).fn (t - δ)) / δ) d t F ∧ Physical (net.capacity e) t ((s.queues e).fn t) F := by
    intro e he
    have hq := reached_facts h e
    obtain ⟨s2, s3⟩ := regLinear_edge (h := d) hq ht hδ
    obtain ⟨p, F, f1, f2, f3⟩ := follow_ok (t := t) hd (hq.nonneg t ht) (hok e he _ (reached_total h e).eval)
    exact ⟨p, F, by rw [s3]; exact f1, f2, f3, extrapolates_physical (le_of_lt (h.1.cap e)) (hq.nonneg t ht) (by linarith) s2 f3⟩
  obtain ⟨ps, p1⟩ := Builder.mapPy_range_ok (fun e => (do
      let q ← (s.queues e).eval t
      let cur := max 0 q
      let q' ← (s.queues e).eval (t - δ)
      let old := max 0 q'
      let g ← pyDiv (cur - old) δ
      follow d t cur g : Py PL)) m (fun e he => by obtain ⟨p, _, hp, _⟩ := hedge e he; exact ⟨p, hp⟩)
  obtain ⟨p2, p3⟩ := Builder.mapPy_range p1
  refine ⟨ps, p1, p2, fun e he => ?_⟩
  obtain ⟨p, q1, q2⟩ := p3 e he
  obtain ⟨p', F, a2, a3, a4, a5⟩ := hedge e he
  rw [q2] at a2; injection a2 with a2; subst a2
  exact ⟨p, _, F, q1, (reached_total h e).eval, a3, a4, a5⟩

/-- **C56**, what happens otherwise. -/
theorem C56_regularized_any (h : Reached net s) {m : Nat} {t d δ : ℚ} (hd : eps < d) (hδ : 0 < δ) (ht : t ≤ s.phi) {ps : List PL}
    (hp : (regLinear m d δ).predict t s = .ok ps) :
    ps.length = m ∧ ∀ e < m, ∃ p Q F, ps[e]? = some p ∧ Evals (s.queues e) Q ∧ Evals p F ∧
      (Extrapolates (Q t) ((Q t - Q (t - δ)) / δ) d t F ∨
        (Q t ≤ eps ∧ Q t + (Q t - Q (t - δ)) / δ * d < 0 ∧ ∀ x, t ≤ x → F x = Q t + (Q t - Q (t - δ)) / δ * min (x - t) d)) := by
  obtain ⟨p2, p3⟩ := Builder.mapPy_range hp
  refine ⟨p2, fun e he => ?_⟩
  have hq := reached_facts h e
  obtain ⟨p, q1, q2⟩ := p3 e he
  obtain ⟨s2, s3⟩ := regLinear_edge (h := d) hq ht hδ
  have q3 := s3.symm.trans q2
  obtain ⟨F, f1, f2⟩ := follow_cases hd (hq.nonneg t ht) q3
  exact ⟨p, _, F, q1, (reached_total h e).eval, f1, f2⟩

/-! ### C57 -/

/-- **C57**: whatever the trained model answers, if the full-net predictors return a prediction then every output edge has a
physical queue and every other edge the queue 0. -/
theorem C57_full_net (h : Reached net s) (c : Setup) (model : List (List ℚ) → Py (List (List ℚ))) (hl : LoadsApart c.edges s) (hi : 0 < c.interval)
    (hc : ∀ e < c.edges, c.capacity e = net.capacity e) {t : ℚ} (ht : t ≤ s.phi) {ps : List PL} (hp : (fullNet c model).predict t s = .ok ps) :
    ps.length = c.edges ∧ ∀ e < c.edges, ∃ p cur F, ps[e]? = some p ∧ (s.queues e).eval t = .ok cur ∧ Evals p F ∧
      (c.output e = true → Physical (net.capacity e) t cur F) ∧ (c.output e = false → ∀ x, F x = 0) := by
  obtain ⟨L, hL⟩ := reached_sees h hl
  rw [fullNet_eq hL (le_of_lt hi)] at hp
  obtain ⟨out, _, hp⟩ := bind_eq_ok.mp hp
  obtain ⟨raw, _, hp⟩ := bind_eq_ok.mp hp
  obtain ⟨p1, p2⟩ := Builder.mapPy_range hp
  refine ⟨p1, fun e he => ?_⟩
  obtain ⟨p, q1, q2⟩ := p2 e he
  have hq := reached_facts h e
  cases ho : c.output e with
  | false =>
    rw [ho, if_neg (by simp), py_pure] at q2
    injection q2 with q2; subst q2
    exact ⟨_, _, fun _ => 0, q1, hq.eval t, fun x => PL.eval_const t 0 x, (fun h => by cases h), fun _ _ => rfl⟩
  | true =>
    rw [ho, if_pos rfl] at q2
    obtain ⟨a1, a2, a3, _, a5⟩ := edgeFn_spec q2 hi (mul_nonneg (le_of_lt hi) (by rw [hc e he]; exact le_of_lt (h.1.cap e))) (hq.nonneg t ht)
      (slice_nonneg (clip_nonneg raw) _ _)
    refine ⟨p, _, p.fn, q1, hq.eval t, PL.evals a1 a2 a3, fun _ => ?_, fun h => by cases h⟩
    have e1 : c.interval * c.capacity e / c.interval = net.capacity e := by rw [mul_div_cancel_left₀ _ (ne_of_gt hi), hc e he]
    rw [e1] at a5
    exact a5

/-- **C57**: the full-net predictors return when the model answers the row of inputs with enough numbers. -/
theorem C57_full_net_returns (h : Reached net s) (c : Setup) (model : List (List ℚ) → Py (List (List ℚ))) (hl : LoadsApart c.edges s) (hi : eps < c.interval)
    (t : ℚ) (hm : ∀ row, ∃ raw rest, model [row] = .ok (raw :: rest) ∧ raw.length = countMask c.output c.edges * c.future) :
    ∃ ps, (fullNet c model).predict t s = .ok ps := by
  have h0 := eps_pos
  obtain ⟨L, hL⟩ := reached_sees h hl
  rw [fullNet_eq hL (by linarith)]
  obtain ⟨raw, rest, m1, m2⟩ := hm (t :: (rowOf (fun e => (s.queues e).fn) (pastTimes t c.interval c.past) ((List.range c.edges).filter c.input) ++
        rowOf (fun e => (L e).fn) (pastTimes t c.interval c.past) ((List.range c.edges).filter c.input)))
  rw [m1, ok_bind, rd_lt _ 0 (by simp), ok_bind]
  refine Builder.mapPy_range_ok _ _ (fun e he => ?_)
  split
  · next ho =>
    refine edgeFn_ok hi (slice_length (m := countMask c.output c.edges) ?_ (by unfold clip; rw [List.length_map, List.getElem_cons_zero, m2]))
    unfold countMask
    have h1 : (List.range (e + 1)).Sublist (List.range c.edges) := List.range_sublist.mpr he
    have h2 := (h1.filter c.output).length_le
    rw [List.range_succ, List.filter_append, List.length_append] at h2
    simp [ho] at h2
    omega
  · exact ⟨_, rfl⟩

/-- **C57**, neighbourhood predictors, for prediction intervals of at most 1 (the points of the prediction are 1 apart, whatever
the interval). -/
theorem C57_neighborhood_partial (h : Reached net s) (c : Setup) (near : Nat → Nat → Bool) (models : Nat → List (List ℚ) → Py (List (List ℚ)))
    (hl : LoadsApart c.edges s) (hi : 0 < c.interval) (hi1 : c.interval ≤ 1)
    (hc : ∀ e < c.edges, c.capacity e = net.capacity e) {t : ℚ} (ht : t ≤ s.phi) {ps : List PL} (hp : (neighborhood c near models).predict t s = .ok ps) :
    ps.length = c.edges ∧ ∀ e < c.edges, ∃ p cur F, ps[e]? = some p ∧ (s.queues e).eval t = .ok cur ∧ Evals p F ∧
      (c.output e = true → Physical (net.capacity e) t cur F) ∧ (c.output e = false → ∀ x, F x = 0) := by
  obtain ⟨L, hL⟩ := reached_sees h hl
  rw [neighborhood_eq hL (le_of_lt hi)] at hp
  obtain ⟨p1, p2⟩ := Builder.mapPy_range hp
  refine ⟨p1, fun e he => ?_⟩
  obtain ⟨p, q1, q2⟩ := p2 e he
  have hq := reached_facts h e
  cases ho : c.output e with
  | false =>
    rw [ho, if_neg (by simp), py_pure] at q2
    injection q2 with q2; subst q2
    exact ⟨_, _, fun _ => 0, q1, hq.eval t, fun x => PL.eval_const t 0 x, (fun h => by cases h), fun _ _ => rfl⟩
  | true =>
    rw [ho, if_pos rfl] at q2
    obtain ⟨out, _, q2⟩ := bind_eq_ok.mp q2
    obtain ⟨raw, _, q2⟩ := bind_eq_ok.mp q2
    have hcap := h.1.cap e
    obtain ⟨a1, a2, a3, _, a5⟩ := edgeFn_spec q2 one_pos (mul_nonneg (le_of_lt hi) (by rw [hc e he]; exact le_of_lt hcap)) (hq.nonneg t ht)
      (clip_nonneg raw)
    refine ⟨p, _, p.fn, q1, hq.eval t, PL.evals a1 a2 a3, fun _ => ⟨a5.start, a5.nonneg, fun x y hx hxy => ?_⟩, fun h => by cases h⟩
    have := a5.drain x y hx hxy
    rw [div_one, hc e he] at this
    have h2 : c.interval * net.capacity e ≤ 1 * net.capacity e := mul_le_mul_of_nonneg_right hi1 (le_of_lt hcap)
    have := mul_le_mul_of_nonneg_right h2 (sub_nonneg.mpr hxy)
    linarith

theorem two_range {P : Nat → PL → PL → Prop} {f g : Nat → Py PL} {m : Nat} {ps qs : List PL} (h1 : Builder.mapPy f (List.range m) = .ok ps)
    (h2 : Builder.mapPy g (List.range m) = .ok qs) (h : ∀ e < m, ∀ p q, f e = .ok p → g e = .ok q → P e p q) :
    ps.length = qs.length ∧ ∀ (e : Nat) (p q : PL), ps[e]? = some p → qs[e]? = some q → P e p q := by
  obtain ⟨a1, a2⟩ := Builder.mapPy_range h1
  obtain ⟨b1, b2⟩ := Builder.mapPy_range h2
  refine ⟨by rw [a1, b1], fun e p q hp hq => ?_⟩
  have he : e < m := by rw [← a1]; exact (List.getElem?_eq_some_iff.mp hp).1
  obtain ⟨p', x1, x2⟩ := a2 e he
  obtain ⟨q', y1, y2⟩ := b2 e he
  rw [hp] at x1; injection x1 with x1; subst x1
  rw [hq] at y1; injection y1 with y1; subst y1
  exact h e he p q x2 y2

/-- **C57**: `batch_predict` of the full-net predictors gives for every time the prediction of `predict`, and returns if `predict` does for
all times, for models that answer row by row and output edges that are input edges. -/
theorem C57_batch (h : Reached net s) (c : Setup) {model : List (List ℚ) → Py (List (List ℚ))} {f : List ℚ → List ℚ} (hm : RowWise model f)
    (hl : LoadsApart c.edges s) (hi : 0 < c.interval) (hpast : 1 ≤ c.past) (hout : ∀ e < c.edges, c.output e = true → c.input e = true) (ts : List ℚ) :
    (∀ pss, fullNetBatch c model ts s = .ok pss → pss.length = ts.length ∧ ∀ (k : Nat) (t : ℚ) (ps : List PL), ts[k]? = some t → pss[k]? = some ps →
      ∃ qs, (fullNet c model).predict t s = .ok qs ∧ SamePrediction t ps qs) ∧
    ((∀ t ∈ ts, ∃ qs, (fullNet c model).predict t s = .ok qs) → ∃ pss, fullNetBatch c model ts s = .ok pss) := by
  obtain ⟨L, hL⟩ := reached_sees h hl
  have hpr : ∀ t, (fullNet c model).predict t s = Builder.mapPy (fun e =>
      if c.output e then edgeFn c c.interval t ((s.queues e).fn t) (slice (countMask c.output e) c.future (clip (f (inputRow c s L c.input t)))) e
      else pure ⟨[t], [0], 0, 0, ⊥, ⊤⟩) (List.range c.edges) := by
    intro t
    rw [fullNet_eq hL (le_of_lt hi), hm, ok_bind]
    rfl
  rw [fullNetBatch_eq hm hL hpast hout]
  constructor
  · intro pss hb
    obtain ⟨b1, b2⟩ := Builder.mapPy_inv hb
    refine ⟨b1, fun k t ps hk hps => ?_⟩
    obtain ⟨ps', x1, x2⟩ := b2 k t hk
    rw [hps] at x1; injection x1 with x1; subst x1
    obtain ⟨y1, y2⟩ := Builder.mapPy_range x2
    obtain ⟨qs, hqs⟩ := Builder.mapPy_range_ok (fun e =>
      if c.output e then edgeFn c c.interval t ((s.queues e).fn t) (slice (countMask c.output e) c.future (clip (f (inputRow c s L c.input t)))) e
      else pure ⟨[t], [0], 0, 0, ⊥, ⊤⟩) c.edges (by
        intro e he
        obtain ⟨p, _, hp⟩ := y2 e he
        by_cases ho : c.output e = true
        · rw [if_pos ho] at hp ⊢; exact ⟨p, hp⟩
        · rw [if_neg ho]; exact ⟨_, rfl⟩)
    refine ⟨qs, by rw [hpr]; exact hqs, ?_⟩
    refine two_range (P := fun e p q => ∀ x, t ≤ x → p.eval x = q.eval x) x2 hqs ?_
    intro e he p q hp hq x _
    by_cases ho : c.output e = true
    · rw [if_pos ho] at hp hq
      rw [hp] at hq; injection hq with hq; rw [hq]
    · rw [if_neg ho, py_pure] at hp hq
      injection hp with hp; injection hq with hq
      rw [← hp, ← hq, PL.eval_const, PL.eval_const]
  · intro hall
    obtain ⟨pss, hb, _⟩ := Builder.mapPy_ok (fun t => Builder.mapPy (fun e =>
      if c.output e then edgeFn c c.interval t ((s.queues e).fn t) (slice (countMask c.output e) c.future (clip (f (inputRow c s L c.input t)))) e
      else pure ⟨[0], [0], 0, 0, ⊥, ⊤⟩) (List.range c.edges)) ts (by
        intro t ht
        obtain ⟨qs, hqs⟩ := hall t ht
        rw [hpr] at hqs
        obtain ⟨y1, y2⟩ := Builder.mapPy_range hqs
        refine Builder.mapPy_range_ok _ _ (fun e he => ?_)
        obtain ⟨p, _, hp⟩ := y2 e he
        by_cases ho : c.output e = true
        · rw [if_pos ho] at hp ⊢; exact ⟨p, hp⟩
        · rw [if_neg ho]; exact ⟨_, rfl⟩)
    exact ⟨pss, hb⟩

/-- **C57**, neighbourhood predictors with prediction interval 1: the `k`-th function of an edge is that of `predict` at the `k`-th time. -/
theorem C57_neighborhood_batch_partial (h : Reached net s) (c : Setup) (near : Nat → Nat → Bool) {models : Nat → List (List ℚ) → Py (List (List ℚ))}
    {f : Nat → List ℚ → List ℚ} (hm : ∀ e < c.edges, RowWise (models e) (f e)) (hl : LoadsApart c.edges s) (hi : c.interval = 1) (hpast : 1 ≤ c.past)
    (hout : ∀ e < c.edges, c.output e = true → c.input e = true) (ts : List ℚ) {pss : List (List PL)}
    (hb : neighborhoodBatch c near models ts s = .ok pss) {k : Nat} {t : ℚ} (hk : ts[k]? = some t) :
    ∃ qs, (neighborhood c near models).predict t s = .ok qs ∧ qs.length = c.edges ∧ pss.length = c.edges ∧
      ∀ e < c.edges, ∃ l p q, pss[e]? = some l ∧ l[k]? = some p ∧ qs[e]? = some q ∧ ∀ x, t ≤ x → p.eval x = q.eval x := by
  obtain ⟨L, hL⟩ := reached_sees h hl
  have hpr : (neighborhood c near models).predict t s = Builder.mapPy (fun e =>
      if c.output e then edgeFn c 1 t ((s.queues e).fn t) (clip (f e (inputRow c s L (fun j => near e j && c.input j) t))) e
      else pure ⟨[t], [0], 0, 0, ⊥, ⊤⟩) (List.range c.edges) := by
    rw [neighborhood_eq hL (by rw [hi]; exact zero_le_one)]
    refine Builder.mapPy_congr (fun e he => ?_)
    split
    · rw [hm e (List.mem_range.mp he), ok_bind]; rfl
    · rfl
  rw [neighborhoodBatch_eq hm hL hpast hout] at hb
  obtain ⟨b1, b2⟩ := Builder.mapPy_range hb
  have hedge : ∀ e < c.edges, ∃ l p q, pss[e]? = some l ∧ l[k]? = some p ∧
      (if c.output e then edgeFn c 1 t ((s.queues e).fn t) (clip (f e (inputRow c s L (fun j => near e j && c.input j) t))) e
      else pure ⟨[t], [0], 0, 0, ⊥, ⊤⟩ : Py PL) = .ok q ∧ ∀ x, t ≤ x → p.eval x = q.eval x := by
    intro e he
    obtain ⟨l, l1, l2⟩ := b2 e he
    by_cases ho : c.output e = true
    · rw [if_pos ho] at l2 ⊢
      obtain ⟨p, p1, p2⟩ := (Builder.mapPy_inv l2).2 k t hk
      rw [hi] at p2
      exact ⟨l, p, p, l1, p1, p2, fun _ _ => rfl⟩
    · rw [if_neg ho, py_pure] at l2 ⊢
      injection l2 with l2
      refine ⟨l, ⟨[0], [0], 0, 0, ⊥, ⊤⟩, _, l1, ?_, rfl, fun x _ => by rw [PL.eval_const, PL.eval_const]⟩
      rw [← l2, List.getElem?_map, hk]; rfl
  obtain ⟨qs, hqs⟩ := Builder.mapPy_range_ok (fun e =>
      if c.output e then edgeFn c 1 t ((s.queues e).fn t) (clip (f e (inputRow c s L (fun j => near e j && c.input j) t))) e
      else pure ⟨[t], [0], 0, 0, ⊥, ⊤⟩) c.edges (fun e he => by obtain ⟨_, _, q, _, _, hq, _⟩ := hedge e he; exact ⟨q, hq⟩)
  obtain ⟨q1, q2⟩ := Builder.mapPy_range hqs
  refine ⟨qs, by rw [hpr]; exact hqs, q1, b1, fun e he => ?_⟩
  obtain ⟨l, p, q, a1, a2, a3, a4⟩ := hedge e he
  obtain ⟨q', c1, c2⟩ := q2 e he
  rw [a3] at c2; injection c2 with c2; subst c2
  exact ⟨l, p, q, a1, a2, c1, a4⟩

/-! ### Cases

All on the run of `sampleNet` (C28–C36): the queue of edge 0 grows from 0 to 3 until time 1 and is empty again at 7. -/

/-- The value at `x` of the `e`-th function of a result. -/
def valueAt (r : Py (List PL)) (e : Nat) (x : ℚ) : Option ℚ := do
  let ps ← r.toOption
  let p ← ps[e]?
  (p.eval x).toOption

theorem valueAt_some {r : Py (List PL)} {e : Nat} {x v : ℚ} (h : valueAt r e x = some v) : ∃ ps p, r = .ok ps ∧ ps[e]? = some p ∧ p.eval x = .ok v := by
  unfold valueAt at h
  cases r with
  | error e => cases h
  | ok ps =>
    cases hp : ps[e]? with
    | none => simp [hp, Except.toOption] at h
    | some p =>
      cases hv : p.eval x with
      | error e => simp [hp, hv, Except.toOption] at h
      | ok w =>
        simp [hp, hv, Except.toOption] at h
        exact ⟨ps, p, rfl, hp, by rw [hv, h]⟩

theorem reached_of {calls : List FlowCall} {post : DFlow → Bool} (h : runB sampleNet calls post = true) : ∃ s, Reached sampleNet s ∧ post s = true := by
  obtain ⟨s0, s, h0, h1, h2, h3⟩ := runB_sound h
  exact ⟨s, ⟨sampleNet_ok, s0, calls, h0, h1, h2⟩, h3⟩

/-- Separation of the loads, as a check. -/
def apartB (m : Nat) (s : DFlow) : Bool := (List.range m).all (fun e =>
  ((s.inflow e).acc.times ++ (s.outflow e).acc.times).all (fun a => ((s.inflow e).acc.times ++ (s.outflow e).acc.times).all (fun b => !decide (a < b) || decide (eps < b - a))))

theorem apartB_sound {m : Nat} {s : DFlow} (h : apartB m s = true) : LoadsApart m s := by
  unfold apartB at h
  intro e he a ha b hb hab
  have := List.all_eq_true.mp (List.all_eq_true.mp (List.all_eq_true.mp h e (List.mem_range.mpr he)) a ha) b hb
  simpa [hab] using this

/-- The hypotheses of `C54_constant` and `C55_linear_any`, `C56_regularized_any` are met, with a queue that is not empty: at time 3 it is 2 and drains with slope 1/2. -/
example : ∃ s, Reached sampleNet s ∧ 3 ≤ s.phi ∧ (∃ ps p, (const 2).predict 3 s = .ok ps ∧ ps[0]? = some p ∧ p.eval 20 = .ok 2) ∧
    (∃ ps p, (linear 2 10).predict 3 s = .ok ps ∧ ps[0]? = some p ∧ p.eval 5 = .ok 1) ∧
    ∃ ps p, (regLinear 2 10 1).predict 3 s = .ok ps ∧ ps[0]? = some p ∧ p.eval 5 = .ok 1 := by
  obtain ⟨s, h, hp⟩ := reached_of (calls := sampleCalls) (post := fun s => decide (3 ≤ s.phi) && (decide (valueAt ((const 2).predict 3 s) 0 20 = some 2) &&
    (decide (valueAt ((linear 2 10).predict 3 s) 0 5 = some 1) && decide (valueAt ((regLinear 2 10 1).predict 3 s) 0 5 = some 1)))) (by decide +kernel)
  simp only [Bool.and_eq_true, decide_eq_true_eq] at hp
  exact ⟨s, h, hp.1, valueAt_some hp.2.1, valueAt_some hp.2.2.1, valueAt_some hp.2.2.2⟩

/-- The hypotheses of `C55_linear_partial` and `C56_regularized_partial` are met at time 3. -/
example : ∃ s, Reached sampleNet s ∧ 3 ≤ s.phi ∧
    (∀ e < 1, ∀ Q σ, Evals (s.queues e) Q → LeftSlope Q 3 σ → 0 ≤ Q 3 + σ * 10 ∨ (eps < Q 3 ∧ eps < Q 3 / (-σ))) ∧
    ∀ e < 1, ∀ Q, Evals (s.queues e) Q → 0 ≤ Q 3 + (Q 3 - Q (3 - 1)) / 1 * 10 ∨ (eps < Q 3 ∧ eps < Q 3 / (-((Q 3 - Q (3 - 1)) / 1))) := by
  obtain ⟨s, h, hp⟩ := reached_of (calls := sampleCalls) (post := fun s => decide (3 ≤ s.phi) && (decide (((s.queues 0).eval 3).toOption = some 2) &&
    (decide (((s.queues 0).eval 2).toOption = some (5/2)) && (decide ((s.queues 0).times = [0, 1, 7]))))) (by decide +kernel)
  simp only [Bool.and_eq_true, decide_eq_true_eq] at hp
  obtain ⟨h1, h2, h3, h4⟩ := hp
  have hfn := reached_total h 0
  rw [hfn.eval] at h2 h3
  have h2 : (s.queues 0).fn 3 = 2 := by simpa [Except.toOption] using h2
  have h3 : (s.queues 0).fn 2 = 5/2 := by simpa [Except.toOption] using h3
  refine ⟨s, h, h1, ?_, ?_⟩
  · intro e he Q σ hQ hσ
    have : e = 0 := by omega
    subst this
    have hQ' : Q = (s.queues 0).fn := PL.evals_unique hQ hfn.eval
    subst hQ'
    have hs : LeftSlope (s.queues 0).fn 3 (-1/2) := by
      refine ⟨2, by norm_num, fun x hx1 hx2 => ?_⟩
      obtain ⟨m, hm⟩ := PL.fn_affine hfn.wf (a := 2) (b := 3) (by
        rw [h4]; intro t ht; simp only [List.mem_cons, List.not_mem_nil, or_false] at ht
        rcases ht with rfl | rfl | rfl <;> norm_num)
      have e1 := hm 3 (by norm_num) le_rfl
      rw [hm x hx1 hx2, h2, h3]
      rw [h2, h3] at e1
      linarith [show m = -1/2 by linarith, mul_comm m (x - 2), show m * (x - 2) = -1/2 * (x - 2) by rw [show m = -1/2 by linarith]]
    rw [PL.leftSlope_unique hσ hs, h2]
    right; unfold eps; norm_num
  · intro e he Q hQ
    have : e = 0 := by omega
    subst this
    have hQ' : Q = (s.queues 0).fn := PL.evals_unique hQ hfn.eval
    subst hQ'
    right
    rw [show (3:ℚ) - 1 = 2 by norm_num, h2, h3]; unfold eps; norm_num

/-- The property fails without the condition of `C55_linear_partial`: when the queue has just become empty, a negative queue is predicted. -/
theorem C55_negative : ∃ s, Reached sampleNet s ∧ 7 ≤ s.phi ∧ (s.queues 0).eval 7 = .ok 0 ∧
    ∃ ps p, (linear 2 10).predict 7 s = .ok ps ∧ ps[0]? = some p ∧ p.eval 9 = .ok (-1) := by
  obtain ⟨s, h, hp⟩ := reached_of (calls := sampleCalls) (post := fun s => decide (7 ≤ s.phi) && (decide (((s.queues 0).eval 7).toOption = some 0) &&
    decide (valueAt ((linear 2 10).predict 7 s) 0 9 = some (-1)))) (by decide +kernel)
  simp only [Bool.and_eq_true, decide_eq_true_eq] at hp
  refine ⟨s, h, hp.1, ?_, valueAt_some hp.2.2⟩
  have := hp.2.1
  rw [(reached_total h 0).eval] at this ⊢
  simpa [Except.toOption] using this

/-- The run used for the next case: the queue of edge 1 is 3 at time 1 and drains with slope 2 until 5/2. -/
def steepCalls : List FlowCall := [.extend [(1, [(0, 5)])] 1, .extend [(1, [])] 10, .extend [] 10]

/-- The property fails also when the queue is more than `eps` but empty within `eps`: nothing is predicted, an assertion fails. -/
theorem C55_raises : ∃ s, Reached sampleNet s ∧ 5 / 2 ≤ s.phi ∧ (linear 2 10).predict (5 / 2 - 3 / 4 * eps) s = .error .assertion := by
  obtain ⟨s, h, hp⟩ := reached_of (calls := steepCalls) (post := fun s => decide (5 / 2 ≤ s.phi) &&
    decide (((linear 2 10).predict (5 / 2 - 3 / 4 * eps) s).map (fun _ => ()) = .error .assertion)) (by unfold eps; decide +kernel)
  simp only [Bool.and_eq_true, decide_eq_true_eq] at hp
  refine ⟨s, h, hp.1, ?_⟩
  cases hr : (linear 2 10).predict (5 / 2 - 3 / 4 * eps) s with
  | error e => rw [hr] at hp; cases hp.2; rfl
  | ok ps => rw [hr] at hp; cases hp.2

/-- **C56** fails without the condition of `C56_regularized_partial`: when the queue is empty but was not `δ` ago, a negative queue
is predicted. -/
theorem C56_negative : ∃ s, Reached sampleNet s ∧ 15 / 2 ≤ s.phi ∧ (s.queues 0).eval (15 / 2) = .ok 0 ∧
    ∃ ps p, (regLinear 2 10 1).predict (15 / 2) s = .ok ps ∧ ps[0]? = some p ∧ p.eval (23 / 2) = .ok (-1) := by
  obtain ⟨s, h, hp⟩ := reached_of (calls := sampleCalls) (post := fun s => decide (15 / 2 ≤ s.phi) && (decide (((s.queues 0).eval (15 / 2)).toOption = some 0) &&
    decide (valueAt ((regLinear 2 10 1).predict (15 / 2) s) 0 (23 / 2) = some (-1)))) (by decide +kernel)
  simp only [Bool.and_eq_true, decide_eq_true_eq] at hp
  refine ⟨s, h, hp.1, ?_, valueAt_some hp.2.2⟩
  have := hp.2.1
  rw [(reached_total h 0).eval] at this ⊢
  simpa [Except.toOption] using this

/-- Both edges in, edge 0 out; two future values, `interval` apart. -/
def sampleSetup (interval : ℚ) : Setup := ⟨2, sampleNet.capacity, fun _ => true, fun e => e == 0, 2, 2, interval⟩

/-- A model that answers every row with two numbers; the first one is negative, the second one depends on the row. -/
def sampleModel : List (List ℚ) → Py (List (List ℚ)) := fun rows => .ok (rows.map (fun r => [-5, r.sum]))

/-- The hypotheses of `C57_full_net`, `C57_full_net_returns` and `C57_neighborhood_partial` are met: at time 1 the queue is 3 and the
prediction drains with the capacity 1 and grows afterwards. -/
example : ∃ s, Reached sampleNet s ∧ 1 ≤ s.phi ∧ LoadsApart 2 s ∧ RowWise sampleModel (fun r => [-5, r.sum]) ∧
    (∃ ps p, (fullNet (sampleSetup 1) sampleModel).predict 1 s = .ok ps ∧ ps[0]? = some p ∧ p.eval 2 = .ok 2 ∧ p.eval 3 = .ok 8) ∧
    ∃ ps p, (neighborhood (sampleSetup (1 / 2)) (fun _ _ => true) (fun _ => sampleModel)).predict 1 s = .ok ps ∧ ps[0]? = some p ∧ p.eval 2 = .ok (5 / 2) := by
  obtain ⟨s, h, hp⟩ := reached_of (calls := sampleCalls) (post := fun s => decide (1 ≤ s.phi) && (apartB 2 s &&
    (decide (valueAt ((fullNet (sampleSetup 1) sampleModel).predict 1 s) 0 2 = some 2) && (decide (valueAt ((fullNet (sampleSetup 1) sampleModel).predict 1 s) 0 3 = some 8) &&
    decide (valueAt ((neighborhood (sampleSetup (1 / 2)) (fun _ _ => true) (fun _ => sampleModel)).predict 1 s) 0 2 = some (5 / 2)))))) (by decide +kernel)
  simp only [Bool.and_eq_true, decide_eq_true_eq] at hp
  refine ⟨s, h, hp.1, apartB_sound hp.2.1, fun _ => rfl, ?_, valueAt_some hp.2.2.2.2⟩
  obtain ⟨ps, p, a1, a2, a3⟩ := valueAt_some hp.2.2.1
  obtain ⟨ps', p', b1, b2, b3⟩ := valueAt_some hp.2.2.2.1
  rw [a1] at b1; injection b1 with b1; subst b1
  rw [a2] at b2; injection b2 with b2; subst b2
  exact ⟨ps, p, a1, a2, a3, b3⟩

/-- The property fails for the neighbourhood predictors with prediction interval 2: the predicted queue drains with twice the capacity. -/
theorem C57_neighborhood_too_fast : ∃ s, Reached sampleNet s ∧ 1 ≤ s.phi ∧ (s.queues 0).eval 1 = .ok 3 ∧ sampleNet.capacity 0 = 1 ∧
    ∃ ps p, (neighborhood (sampleSetup 2) (fun _ _ => true) (fun _ => sampleModel)).predict 1 s = .ok ps ∧ ps[0]? = some p ∧ p.eval 2 = .ok 1 := by
  obtain ⟨s, h, hp⟩ := reached_of (calls := sampleCalls) (post := fun s => decide (1 ≤ s.phi) && (decide (((s.queues 0).eval 1).toOption = some 3) &&
    decide (valueAt ((neighborhood (sampleSetup 2) (fun _ _ => true) (fun _ => sampleModel)).predict 1 s) 0 2 = some 1))) (by decide +kernel)
  simp only [Bool.and_eq_true, decide_eq_true_eq] at hp
  refine ⟨s, h, hp.1, ?_, rfl, valueAt_some hp.2.2⟩
  have := hp.2.1
  rw [(reached_total h 0).eval] at this ⊢
  simpa [Except.toOption] using this

/-- The value at `x` of the `k`-th function of the `i`-th list of a batch. -/
def valueInBatch (r : Py (List (List PL))) (i k : Nat) (x : ℚ) : Option ℚ := do
  let pss ← r.toOption
  valueAt (.ok (← pss[i]?)) k x

theorem valueInBatch_some {r : Py (List (List PL))} {i k : Nat} {x v : ℚ} (h : valueInBatch r i k x = some v) :
    ∃ pss ps p, r = .ok pss ∧ pss[i]? = some ps ∧ ps[k]? = some p ∧ p.eval x = .ok v := by
  unfold valueInBatch at h
  cases r with
  | error e => cases h
  | ok pss =>
    cases hp : pss[i]? with
    | none => simp [hp, Except.toOption] at h
    | some ps =>
      simp [hp, Except.toOption] at h
      obtain ⟨ps', p, a1, a2, a3⟩ := valueAt_some h
      injection a1 with a1; subst a1
      exact ⟨pss, ps, p, rfl, hp, a2, a3⟩

/-- The hypotheses of `C57_batch` and `C57_neighborhood_batch_partial` are met, with two times and one past value. -/
example : ∃ s, Reached sampleNet s ∧ LoadsApart 2 s ∧
    (∃ pss ps p, fullNetBatch (sampleSetup 1) sampleModel [3, 1] s = .ok pss ∧ pss[1]? = some ps ∧ ps[0]? = some p ∧ p.eval 3 = .ok 8) ∧
    ∃ pss ps p, neighborhoodBatch (sampleSetup 1) (fun _ _ => true) (fun _ => sampleModel) [3, 1] s = .ok pss ∧ pss[0]? = some ps ∧ ps[1]? = some p ∧
      p.eval 2 = .ok 2 := by
  obtain ⟨s, h, hp⟩ := reached_of (calls := sampleCalls) (post := fun s => apartB 2 s &&
    (decide (valueInBatch (fullNetBatch (sampleSetup 1) sampleModel [3, 1] s) 1 0 3 = some 8) &&
    decide (valueInBatch (neighborhoodBatch (sampleSetup 1) (fun _ _ => true) (fun _ => sampleModel) [3, 1] s) 0 1 2 = some 2))) (by decide +kernel)
  simp only [Bool.and_eq_true, decide_eq_true_eq] at hp
  exact ⟨s, h, apartB_sound hp.1, valueInBatch_some hp.2.1, valueInBatch_some hp.2.2⟩

/-- The property fails for the neighbourhood predictors with prediction interval 2: `batch_predict` puts the values at times 2 apart. -/
theorem C57_neighborhood_batch_differs : ∃ s, Reached sampleNet s ∧
    (∃ ps p, (neighborhood (sampleSetup 2) (fun _ _ => true) (fun _ => sampleModel)).predict 1 s = .ok ps ∧ ps[0]? = some p ∧ p.eval 2 = .ok 1) ∧
    ∃ pss ps p, neighborhoodBatch (sampleSetup 2) (fun _ _ => true) (fun _ => sampleModel) [1] s = .ok pss ∧ pss[0]? = some ps ∧ ps[0]? = some p ∧
      p.eval 2 = .ok 2 := by
  obtain ⟨s, h, hp⟩ := reached_of (calls := sampleCalls) (post := fun s =>
    decide (valueAt ((neighborhood (sampleSetup 2) (fun _ _ => true) (fun _ => sampleModel)).predict 1 s) 0 2 = some 1) &&
    decide (valueInBatch (neighborhoodBatch (sampleSetup 2) (fun _ _ => true) (fun _ => sampleModel) [1] s) 0 0 2 = some 2)) (by decide +kernel)
  simp only [Bool.and_eq_true, decide_eq_true_eq] at hp
  exact ⟨s, h, valueAt_some hp.1, valueInBatch_some hp.2⟩

/-- Why `C57_batch` asks for output edges that are input edges: otherwise `batch_predict` raises, though `predict` returns. -/
theorem C57_batch_key_error : ∃ s, Reached sampleNet s ∧
    (∃ ps p, (fullNet { sampleSetup 1 with input := fun e => e == 1 } sampleModel).predict 1 s = .ok ps ∧ ps[0]? = some p ∧ p.eval 2 = .ok 2) ∧
    fullNetBatch { sampleSetup 1 with input := fun e => e == 1 } sampleModel [1] s = .error .key := by
  obtain ⟨s, h, hp⟩ := reached_of (calls := sampleCalls) (post := fun s =>
    decide (valueAt ((fullNet { sampleSetup 1 with input := fun e => e == 1 } sampleModel).predict 1 s) 0 2 = some 2) &&
    decide ((fullNetBatch { sampleSetup 1 with input := fun e => e == 1 } sampleModel [1] s).map (fun _ => ()) = .error .key)) (by decide +kernel)
  simp only [Bool.and_eq_true, decide_eq_true_eq] at hp
  refine ⟨s, h, valueAt_some hp.1, ?_⟩
  cases hr : fullNetBatch { sampleSetup 1 with input := fun e => e == 1 } sampleModel [1] s with
  | error e => rw [hr] at hp; cases hp.2; rfl
  | ok ps => rw [hr] at hp; cases hp.2

/-- The same for the neighbourhood predictors: the prediction of `batch_predict` starts at the queue of another edge. -/
theorem C57_neighborhood_batch_wrong_edge : ∃ s, Reached sampleNet s ∧ (s.queues 0).eval 1 = .ok 3 ∧
    ∃ pss ps p, neighborhoodBatch { sampleSetup 1 with input := fun e => e == 1 } (fun _ _ => true) (fun _ => sampleModel) [1] s = .ok pss ∧
      pss[0]? = some ps ∧ ps[0]? = some p ∧ p.eval 1 = .ok 0 := by
  obtain ⟨s, h, hp⟩ := reached_of (calls := sampleCalls) (post := fun s => decide (((s.queues 0).eval 1).toOption = some 3) &&
    decide (valueInBatch (neighborhoodBatch { sampleSetup 1 with input := fun e => e == 1 } (fun _ _ => true) (fun _ => sampleModel) [1] s) 0 0 1 = some 0)) (by decide +kernel)
  simp only [Bool.and_eq_true, decide_eq_true_eq] at hp
  refine ⟨s, h, ?_, valueInBatch_some hp.2⟩
  have := hp.1
  rw [(reached_total h 0).eval] at this ⊢
  simpa [Except.toOption] using this

end Verif.Props
