import Verif.Proofs.DFlowRun
import Verif.Proofs.DFlowLoad
import Verif.Proofs.DFlowPast
import Verif.Proofs.DFlowCheck
import Mathlib.Order.Bounds.Basic

/-! Property theorems C28–C36 and C67 (src/core/dynamic_flow.py). -/

namespace Verif.Props
open Verif Verif.Spec

/-- Every outflow record and the time of a flow after any calls that returned. -/
theorem reach {net : EdgeData} (hn : NetOk net) {s0 s : DFlow} {calls : List FlowCall} (h0 : DFlow.init = .ok s0)
    (ht : TimesOk net s0 calls) (hr : runFlow net s0 calls = .ok s) : (∃ P C, DFlow.Safe net s P C) ∧ s.HeadOk := by
  obtain ⟨s1, e1, _, _, h2⟩ := DFlow.init_ok hn
  rw [h0] at e1; injection e1 with e1; subst e1
  obtain ⟨a, b, _⟩ := DFlow.run_safe hn calls ⟨_, _, h2⟩ (DFlow.init_head h0) ht hr
  exact ⟨a, b⟩

/-- C28: after any calls that returned, a call `extend(new_inflow, T)` with `T ≥ phi` that returns does not
move the time back nor beyond `T`; unless it reaches `T` it stops exactly at a recorded change of the
outflow of a reported edge; and it skips no recorded change of an outflow: none lies strictly between
the old and the new time. -/
theorem C28_time (net : EdgeData) (hn : NetOk net) (s0 s s' : DFlow) (calls : List FlowCall) (l : List (Nat × Rates)) (T : ℚ) (ch : List Nat)
    (h0 : DFlow.init = .ok s0) (ht : TimesOk net s0 calls) (hr : runFlow net s0 calls = .ok s) (hT : s.phi ≤ T)
    (he : s.extend net l T = .ok (s', ch)) :
    s.phi ≤ s'.phi ∧ s'.phi ≤ T ∧
    (s'.phi = T ∨ ∃ e ∈ ch, ∃ it ∈ (s'.outflow e).queue, it.time = s'.phi) ∧
    ∀ e, ∀ it ∈ (s'.outflow e).queue, ¬ (s.phi < it.time ∧ it.time < s'.phi) := by
  obtain ⟨⟨P, C, hs⟩, _⟩ := reach hn h0 ht hr
  obtain ⟨_, a, b, c, d, f⟩ := DFlow.extend_safe hn hs hT he
  refine ⟨b, a, ?_, ?_⟩
  · rcases c with c | c
    · exact Or.inl c
    · right
      obtain ⟨e, he⟩ := List.exists_mem_of_ne_nil _ c
      exact ⟨e, he, f e he⟩
  · intro e it hit ⟨h1, h2⟩
    obtain ⟨new, _, d2⟩ := d e
    exact absurd h2 (not_lt.mpr (d2 it hit (Or.inl h1)).1)

theorem advanceHead_congr {t u : ℚ} : ∀ (q : List FRItem), (∀ x ∈ q, x.time ≤ t ↔ x.time ≤ u) → FRC.advanceHead t q = FRC.advanceHead u q := by
  intro q
  induction q with
  | nil => intro _; rfl
  | cons a q ih =>
    intro h
    cases q with
    | nil => rfl
    | cons b l =>
      unfold FRC.advanceHead
      have hb := h b (by simp)
      have := ih (fun x hx => h x (by simp [hx]))
      by_cases c : b.time ≤ t
      · rw [if_pos c, if_pos (hb.mp c), this]
      · rw [if_neg c, if_neg (fun hc => c (hb.mpr hc))]

theorem advanceHead_append {t : ℚ} {new : List FRItem} (hnew : ∀ x ∈ new, ¬ x.time ≤ t) :
    ∀ (q : List FRItem), q ≠ [] → FRC.advanceHead t (q ++ new) = FRC.advanceHead t q ++ new := by
  intro q
  induction q with
  | nil => intro h; exact absurd rfl h
  | cons a q ih =>
    intro _
    cases q with
    | nil =>
      cases new with
      | nil => rfl
      | cons b l =>
        show FRC.advanceHead t (a :: b :: l) = _
        unfold FRC.advanceHead
        rw [if_neg (hnew b (by simp))]; rfl
    | cons b l =>
      show FRC.advanceHead t (a :: b :: (l ++ new)) = _
      unfold FRC.advanceHead
      by_cases c : b.time ≤ t
      · rw [if_pos c, if_pos c]; exact ih (by simp)
      · rw [if_neg c, if_neg c]; rfl

/-- The values read from an outflow record at time `t`. -/
def readAt (c : FRC) (t : ℚ) : Py Rates := (c.getValuesAtTime t).map Prod.fst

/-- C34 (what is reported changes): every reported edge has a recorded outflow change at the new time. -/
theorem C34_reported (net : EdgeData) (hn : NetOk net) (s0 s s' : DFlow) (calls : List FlowCall) (l : List (Nat × Rates)) (T : ℚ) (ch : List Nat)
    (h0 : DFlow.init = .ok s0) (ht : TimesOk net s0 calls) (hr : runFlow net s0 calls = .ok s) (hT : s.phi ≤ T)
    (he : s.extend net l T = .ok (s', ch)) :
    ∀ e ∈ ch, ∃ it ∈ (s'.outflow e).queue, it.time = s'.phi := by
  obtain ⟨⟨P, C, hs⟩, _⟩ := reach hn h0 ht hr
  exact (DFlow.extend_safe hn hs hT he).2.2.2.2.2

/-- C34 (what changes is reported): reading the outflow of an edge after the call gives at every time
between the old and the new one the rates that were in force before the call; and at the new time too,
unless the edge is reported. -/
theorem C34_unreported (net : EdgeData) (hn : NetOk net) (s0 s s' : DFlow) (calls : List FlowCall) (l : List (Nat × Rates)) (T : ℚ) (ch : List Nat)
    (h0 : DFlow.init = .ok s0) (ht : TimesOk net s0 calls) (hr : runFlow net s0 calls = .ok s) (hT : s.phi ≤ T)
    (he : s.extend net l T = .ok (s', ch)) (e : Nat) (t : ℚ) (h1 : s.phi ≤ t) (h2 : t < s'.phi ∨ (t = s'.phi ∧ e ∉ ch)) :
    ∃ v, readAt (s.outflow e) s.phi = .ok v ∧ readAt (s'.outflow e) t = .ok v := by
  obtain ⟨⟨P, C, hs⟩, hh⟩ := reach hn h0 ht hr
  obtain ⟨_, a, b, c, d, f⟩ := DFlow.extend_safe hn hs hT he
  obtain ⟨h, g1, g2⟩ := hh e
  obtain ⟨new, d1, d2⟩ := d e
  have hiff : ∀ x ∈ (s'.outflow e).queue, x.time ≤ t ↔ x.time ≤ s.phi := by
    intro x hx
    constructor
    · intro hxt
      by_contra hc
      obtain ⟨k1, k2⟩ := d2 x hx (Or.inl (not_le.mp hc))
      rcases h2 with h2 | ⟨h2, h3⟩
      · linarith
      · exact h3 (k2 (by linarith))
    · intro hx; linarith
  have hnew : ∀ x ∈ new, ¬ x.time ≤ t := by
    intro x hx hxt
    have hm : x ∈ (s'.outflow e).queue := by rw [d1]; exact List.mem_append_right _ hx
    obtain ⟨k1, k2⟩ := d2 x hm (Or.inr hx)
    rcases h2 with h2 | ⟨h2, h3⟩
    · linarith
    · exact h3 (k2 (by linarith))
  obtain ⟨pre, h', r', x1, x2, x3, x4⟩ := FRC.query_cut g1 g2
  have hadv : FRC.advanceHead s.phi (s.outflow e).queue = h' :: r' := by
    have hne : (s.outflow e).queue ≠ [] := by intro hc; rw [hc] at g1; cases g1
    unfold FRC.getValuesAtTime at x1
    cases hq : (s.outflow e).queue with
    | nil => exact absurd hq hne
    | cons q0 ql =>
      rw [hq] at x1 g1
      simp at g1
      subst g1
      simp only at x1
      rw [if_neg (not_lt.mpr g2)] at x1
      cases hadv : FRC.advanceHead s.phi (q0 :: ql) with
      | nil =>
        obtain ⟨_, _, _, y1, _⟩ := FRC.advanceHead_cut s.phi (q0 :: ql) q0 rfl g2
        rw [hadv] at y1; cases y1
      | cons z zs =>
        rw [hadv] at x1
        simp only at x1
        injection x1 with x1; injection x1 with _ x1
        injection x1 with _ x1 _
  refine ⟨h'.values, by unfold readAt; rw [x1]; rfl, ?_⟩
  have hne : (s.outflow e).queue ≠ [] := by intro hc; rw [hc] at g1; cases g1
  have hnew' : ∀ x ∈ new, ¬ x.time ≤ s.phi := fun x hx hxt => hnew x hx (by linarith)
  have hadv' : FRC.advanceHead t (s'.outflow e).queue = h' :: (r' ++ new) := by
    rw [advanceHead_congr _ hiff, d1, advanceHead_append hnew' _ hne, hadv]; rfl
  unfold readAt FRC.getValuesAtTime
  cases hq : (s'.outflow e).queue with
  | nil => rw [d1] at hq; simp [hne] at hq
  | cons q0 ql =>
    simp only
    have : q0 = h := by
      rw [d1] at hq
      cases hq2 : (s.outflow e).queue with
      | nil => exact absurd hq2 hne
      | cons q1 qs =>
        rw [hq2] at hq g1
        simp at g1 hq
        rw [← hq.1, g1]
    rw [if_neg (by rw [this]; intro hc; exact absurd g2 (not_le.mpr (lt_of_le_of_lt h1 hc))), ← hq, hadv']
    rfl

/-- C31: after any calls that returned, the cumulative outflow of every edge never grows by more than the
capacity per unit of time, and never falls. -/
theorem C31_capacity (net : EdgeData) (hn : NetOk net) (s0 s : DFlow) (calls : List FlowCall)
    (h0 : DFlow.init = .ok s0) (ht : TimesOk net s0 calls) (hr : runFlow net s0 calls = .ok s) (e : Nat) (x y : ℚ) (hx : 0 ≤ x) (hxy : x ≤ y) :
    ∃ A B, (s.outflow e).acc.eval x = .ok A ∧ (s.outflow e).acc.eval y = .ok B ∧ 0 ≤ B - A ∧ B - A ≤ net.capacity e * (y - x) := by
  obtain ⟨⟨P, C, hs⟩, _⟩ := reach hn h0 ht hr
  have hd : ∀ z, 0 ≤ z → (s.outflow e).acc.inDom z := by
    intro z hz
    unfold PL.inDom; rw [hs.lo0, hs.hi]
    exact ⟨WithBot.coe_le_coe.mpr hz, le_top⟩
  exact ⟨_, _, PL.eval_eq (hs.wf e) (hd x hx), PL.eval_eq (hs.wf e) (hd y (le_trans hx hxy)), hs.lip e x y hxy⟩

/-- C35: valid calls never raise. -/
theorem C35_no_error (net : EdgeData) (hn : NetOk net) (s0 : DFlow) (calls : List FlowCall) (h0 : DFlow.init = .ok s0)
    (hc : CallsOk net s0 calls) : ∃ s, runFlow net s0 calls = .ok s := by
  obtain ⟨s1, e1, _, h1, h2⟩ := DFlow.init_ok hn
  rw [h0] at e1; injection e1 with e1; subst e1
  obtain ⟨s', r1, _⟩ := DFlow.run_exact hn calls (fun _ => []) ⟨_, _, h2⟩ (DFlow.init_head h0) ⟨_, _, h1⟩ (DFlow.init_recorded h0) hc
  exact ⟨s', r1⟩

/-- The exact state after valid calls. -/
theorem exact_reach {net : EdgeData} (hn : NetOk net) {s0 s : DFlow} {calls : List FlowCall} (h0 : DFlow.init = .ok s0)
    (hc : CallsOk net s0 calls) (hr : runFlow net s0 calls = .ok s) :
    (∃ P C, DFlow.Exact net s P C) ∧ DFlow.Recorded s (fun e => given net e s0 calls) := by
  obtain ⟨s1, e1, _, h1, h2⟩ := DFlow.init_ok hn
  rw [h0] at e1; injection e1 with e1; subst e1
  obtain ⟨s', r1, _, _, r2, r3⟩ := DFlow.run_exact hn calls (fun _ => []) ⟨_, _, h2⟩ (DFlow.init_head h0) ⟨_, _, h1⟩ (DFlow.init_recorded h0) hc
  rw [hr] at r1; injection r1 with r1; subst r1
  exact ⟨r2, by simpa using r3⟩

theorem acc_eval {c : FRC} {L R : ℚ} {V : Rates} (h : c.Good L V R) {x : ℚ} (hx : 0 ≤ x) : c.acc.eval x = .ok (c.acc.fn x) := by
  refine PL.eval_eq h.acc.wf ?_
  unfold PL.inDom; rw [h.accLo, h.acc.hi]
  exact ⟨WithBot.coe_le_coe.mpr hx, le_top⟩

theorem rateAt_eval {c : FRC} {L R : ℚ} {V : Rates} (h : c.Good L V R) (i : Nat) {x : ℚ} (hx : 0 ≤ x) : c.rateAt i x = .ok (FRC.rate c.funs i x) := by
  unfold FRC.rateAt FRC.rate
  cases hd : c.funs i with
  | none => rfl
  | some f =>
    have hg := (h.funs i).1 f hd
    exact RC.eval_eq hg.wf (hg.inDom hx)

section
variable (net : EdgeData) (hn : NetOk net) (s0 s : DFlow) (calls : List FlowCall) (h0 : DFlow.init = .ok s0)
  (hc : CallsOk net s0 calls) (hr : runFlow net s0 calls = .ok s)
include hn h0 hc hr

/-- C67: the recorded inflow of every edge is the given one: at every time `t ≥ 0` the rate of every
commodity is that of the last call not later than `t` that names the edge, and the cumulative inflow is the
total given up to `t`. -/
theorem C67_recorded (e : Nat) (t : ℚ) (ht : 0 ≤ t) :
    (∀ i, (s.inflow e).rateAt i t = .ok (givenRate (given net e s0 calls) i t)) ∧
    (s.inflow e).acc.eval t = .ok (givenTotal (given net e s0 calls) t) := by
  obtain ⟨⟨P, C, hx⟩, hrec⟩ := exact_reach hn h0 hc hr
  obtain ⟨_, _, _, _, _, h⟩ := hx.edge e
  obtain ⟨a, b⟩ := hrec e
  refine ⟨fun i => by rw [rateAt_eval h.gin i ht, b i t ht], by rw [acc_eval h.gin ht, a t]⟩

/-- C29: after valid calls every queue is `≥ 0` at every time up to `phi`, and 0 at all times `≤ 0`. -/
theorem C29_queue_nonneg (e : Nat) (t : ℚ) (ht : t ≤ s.phi) :
    ∃ q, (s.queues e).eval t = .ok q ∧ 0 ≤ q ∧ (t ≤ 0 → q = 0) := by
  obtain ⟨⟨P, C, hx⟩, _⟩ := exact_reach hn h0 hc hr
  obtain ⟨_, _, _, _, _, h⟩ := hx.edge e
  refine ⟨_, PL.eval_eq h.qwf (DFlow.inDom_all h.qlo h.qhi t), ?_, h.qneg t⟩
  rcases le_total t 0 with h1 | h1
  · rw [h.qneg t h1]
  · exact h.laws.q_nonneg t (h.dom h1 ht)

/-- C30: after valid calls, at every time `t` in `[0, phi]` the queue is the cumulative inflow up to `t` minus the
cumulative outflow up to `t` plus the travel time; and it is the greatest of the excesses
`inflow during [r, t] - capacity * (t - r)` over `r` in `[0, t]`, which is the fluid queue that grows at
rate inflow minus capacity and is held at 0. -/
theorem C30_fluid_law (e : Nat) (t : ℚ) (h1 : 0 ≤ t) (h2 : t ≤ s.phi) :
    ∃ (Fin : ℚ → ℚ) (q out : ℚ), (∀ r, 0 ≤ r → (s.inflow e).acc.eval r = .ok (Fin r)) ∧ (s.queues e).eval t = .ok q ∧
      (s.outflow e).acc.eval (t + net.travelTime e) = .ok out ∧ q = Fin t - out ∧
      IsGreatest {x | ∃ r, 0 ≤ r ∧ r ≤ t ∧ x = Fin t - Fin r - net.capacity e * (t - r)} q := by
  obtain ⟨⟨P, C, hx⟩, _⟩ := exact_reach hn h0 hc hr
  obtain ⟨_, _, _, _, _, h⟩ := hx.edge e
  have hd := h.dom h1 h2
  refine ⟨(s.inflow e).acc.fn, _, _, fun r hr => acc_eval h.gin hr, PL.eval_eq h.qwf (DFlow.inDom_all h.qlo h.qhi t),
    acc_eval h.gout (by have := hn.tt e; linarith), h.laws.bal t hd, ?_, ?_⟩
  · obtain ⟨r, a, b, c⟩ := h.laws.sk t hd
    exact ⟨r, a, b, c⟩
  · rintro x ⟨r, a, b, rfl⟩
    have hdr := h.dom a (le_trans b h2)
    have k1 := h.laws.bal t hd
    have k2 := h.laws.bal r hdr
    have k3 := h.laws.q_nonneg r hdr
    have k4 := (h.laws.fm_lip (r + net.travelTime e) (t + net.travelTime e) (by linarith)).2
    have : t + net.travelTime e - (r + net.travelTime e) = t - r := by ring
    rw [this] at k4
    linarith

/-- C32: after valid calls, what has entered an edge up to `t` in `[0, phi]` has left it exactly by `t + travel time +
queue(t) / capacity`; and these exit times do not decrease. -/
theorem C32_fifo (e : Nat) (t : ℚ) (h1 : 0 ≤ t) (h2 : t ≤ s.phi) :
    ∃ q x, (s.queues e).eval t = .ok q ∧ (s.inflow e).acc.eval t = .ok x ∧
      (s.outflow e).acc.eval (t + net.travelTime e + q / net.capacity e) = .ok x ∧
      ∀ t', t ≤ t' → t' ≤ s.phi → ∃ q', (s.queues e).eval t' = .ok q' ∧
        t + net.travelTime e + q / net.capacity e ≤ t' + net.travelTime e + q' / net.capacity e := by
  obtain ⟨⟨P, C, hx⟩, _⟩ := exact_reach hn h0 hc hr
  obtain ⟨_, _, _, _, _, h⟩ := hx.edge e
  have hd := h.dom h1 h2
  have hq := div_nonneg (h.laws.q_nonneg t hd) (le_of_lt (hn.cap e))
  have htt := hn.tt e
  refine ⟨_, _, PL.eval_eq h.qwf (DFlow.inDom_all h.qlo h.qhi t), acc_eval h.gin h1, ?_, ?_⟩
  · rw [acc_eval h.gout (by linarith), h.laws.conserve (hn.cap e) hd]
  · intro t' a b
    exact ⟨_, PL.eval_eq h.qwf (DFlow.inDom_all h.qlo h.qhi t'), h.laws.exit_mono (hn.cap e) hd (h.dom (le_trans h1 a) b) a⟩

/-- C33: after valid calls, for every entry time `t` in `[0, phi]` the inflow rates of all commodities at `t` are the
same multiple `k` of their outflow rates at the exit time of `t`, and `k` is the rate at which exit times
move just after `t` (as far as the flow is built). So the commodities leave in the proportions in which they
entered, and none is lost or made on the way. -/
theorem C33_proportions (e : Nat) (t : ℚ) (h1 : 0 ≤ t) (h2 : t ≤ s.phi) :
    ∃ (q k : ℚ) (rin rout : Nat → ℚ), (s.queues e).eval t = .ok q ∧ (∀ i, (s.inflow e).rateAt i t = .ok (rin i)) ∧
      (∀ i, (s.outflow e).rateAt i (t + net.travelTime e + q / net.capacity e) = .ok (rout i)) ∧
      0 ≤ k ∧ (∀ i, rin i = k * rout i) ∧
      ∃ δ, 0 < δ ∧ ∀ u, t ≤ u → u ≤ t + δ → u ≤ s.phi → ∃ q', (s.queues e).eval u = .ok q' ∧
        u + net.travelTime e + q' / net.capacity e = t + net.travelTime e + q / net.capacity e + k * (u - t) := by
  obtain ⟨⟨P, C, hx⟩, _⟩ := exact_reach hn h0 hc hr
  obtain ⟨_, _, _, _, _, h⟩ := hx.edge e
  have hd := h.dom h1 h2
  have hq := div_nonneg (h.laws.q_nonneg t hd) (le_of_lt (hn.cap e))
  have htt := hn.tt e
  obtain ⟨k, m1, m2, δ, m3, m4⟩ := h.mix t hd
  exact ⟨_, k, _, _, PL.eval_eq h.qwf (DFlow.inDom_all h.qlo h.qhi t), fun i => rateAt_eval h.gin i h1,
    fun i => rateAt_eval h.gout i (by linarith), m1, m2, δ, m3, fun u u1 u2 u3 =>
      ⟨_, PL.eval_eq h.qwf (DFlow.inDom_all h.qlo h.qhi u), m4 u u1 u2 (h.dom (le_trans h1 u1) u3)⟩⟩

/-- C36: after valid calls, if the break points of cumulative in- and outflow of an edge are more than eps apart, the edge load
is defined everywhere, equals cumulative inflow minus cumulative outflow from 0 on, is 0 before, and is
`≥ 0` up to `phi`. -/
theorem C36_loads (e : Nat) (hsep : Apart eps ((s.inflow e).acc.times ++ (s.outflow e).acc.times)) :
    ∃ g, s.edgeLoad e = .ok g ∧
      (∀ t, 0 ≤ t → ∃ a b, (s.inflow e).acc.eval t = .ok a ∧ (s.outflow e).acc.eval t = .ok b ∧ g.eval t = .ok (a - b)) ∧
      (∀ t, t ≤ 0 → g.eval t = .ok 0) ∧
      ∀ t, t ≤ s.phi → ∃ x, g.eval t = .ok x ∧ 0 ≤ x := by
  obtain ⟨⟨P, C, hx⟩, _⟩ := exact_reach hn h0 hc hr
  obtain ⟨_, _, _, _, _, h⟩ := hx.edge e
  obtain ⟨g, g1, g2, g3, g4, g5, g6⟩ := DFlow.edgeLoad_ok h hsep
  have hev : ∀ t, g.eval t = .ok (g.fn t) := fun t => PL.eval_eq g2 (DFlow.inDom_all g3 g4 t)
  refine ⟨g, g1, ?_, ?_, ?_⟩
  · intro t ht
    exact ⟨_, _, acc_eval h.gin ht, acc_eval h.gout ht, by rw [hev, g6 t ht]⟩
  · intro t ht
    rw [hev, g5 t ht]
  · intro t ht
    refine ⟨_, hev t, ?_⟩
    rcases le_total t 0 with h1 | h1
    · rw [g5 t h1]
    · have hd := h.dom h1 ht
      rw [g6 t h1]
      have k1 := h.laws.bal t hd
      have k2 := h.laws.q_nonneg t hd
      have k3 := (h.laws.fm_lip t (t + net.travelTime e) (by have := hn.tt e; linarith)).1
      linarith

end

/-- **C69**: what is recorded is never rewritten. After valid calls and then more valid calls, at all times before the `phi` in between, the
rates are as they were, and up to this `phi` the cumulative flows and queues are. -/
theorem C69_past (net : EdgeData) (hn : NetOk net) (s0 s s' : DFlow) (calls more : List FlowCall) (h0 : DFlow.init = .ok s0) (hc : CallsOk net s0 calls)
    (hr : runFlow net s0 calls = .ok s) (hc' : CallsOk net s more) (hr' : runFlow net s more = .ok s') :
    s.phi ≤ s'.phi ∧ ∀ e, (∀ i t, 0 ≤ t → t < s.phi → (s'.inflow e).rateAt i t = (s.inflow e).rateAt i t ∧ (s'.outflow e).rateAt i t = (s.outflow e).rateAt i t) ∧
      (∀ t, 0 ≤ t → t ≤ s.phi → (s'.inflow e).acc.eval t = (s.inflow e).acc.eval t ∧ (s'.outflow e).acc.eval t = (s.outflow e).acc.eval t) ∧
      ∀ t, t ≤ s.phi → (s'.queues e).eval t = (s.queues e).eval t := by
  obtain ⟨s1, e1, _, h1, h2⟩ := DFlow.init_ok hn
  rw [h0] at e1; injection e1 with e1; subst e1
  obtain ⟨sa, r1, _, ra, rb, rc, _⟩ := DFlow.run_past hn calls ⟨_, _, h2⟩ (DFlow.init_head h0) ⟨_, _, h1⟩ hc
  rw [hr] at r1; injection r1 with r1; subst r1
  obtain ⟨sb, t1, t2, _, _, ⟨P', C', tc⟩, td⟩ := DFlow.run_past hn more ra rb rc hc'
  rw [hr'] at t1; injection t1 with t1; subst t1
  obtain ⟨P, C, rc⟩ := rc
  refine ⟨t2, fun e => ?_⟩
  obtain ⟨_, _, _, _, _, ho⟩ := rc.edge e
  obtain ⟨_, _, _, _, _, hn'⟩ := tc.edge e
  refine ⟨fun i t h0 ht => ⟨?_, ?_⟩, fun t h0 ht => ⟨?_, ?_⟩, fun t ht => ?_⟩
  · rw [rateAt_eval ho.gin i h0, rateAt_eval hn'.gin i h0, (td.inflow e).1 i t h0 ht]
  · rw [rateAt_eval ho.gout i h0, rateAt_eval hn'.gout i h0, (td.outflow e).1 i t h0 ht]
  · rw [acc_eval ho.gin h0, acc_eval hn'.gin h0, (td.inflow e).2 t ht]
  · rw [acc_eval ho.gout h0, acc_eval hn'.gout h0, (td.outflow e).2 t ht]
  · rw [PL.eval_eq ho.qwf (DFlow.inDom_all ho.qlo ho.qhi t), PL.eval_eq hn'.qwf (DFlow.inDom_all hn'.qlo hn'.qhi t), td.queue e t ht]

/-! Non-vacuity: a run in which a queue builds up, starts to drain, empties (a planned outflow change),
and in which a second edge is used and the first inflow is taken back to nothing. -/

/-- Two edges, with capacities 1 and 2 and travel time 1. -/
def sampleNet : EdgeData := ⟨fun e => if e = 0 then 1 else 2, fun _ => 1⟩

theorem sampleNet_ok : NetOk sampleNet :=
  ⟨fun e => by unfold sampleNet; simp only; split <;> norm_num, fun e => by unfold sampleNet; norm_num⟩

/-- The calls of the run. -/
def sampleCalls : List FlowCall :=
  [.extend [(0, [(0, 3), (1, 1)])] 1, .look 0, .extend [(0, [(0, 1/2)])] 10, .look 0,
   .extend [(1, [(0, 3/4), (1, 1/4)])] 10, .extend [] 10, .extend [] 10, .look 0, .extend [(0, [])] 12]

/-- The run is valid and returns; the queue of edge 0 was 3 at time 1 and has been empty since 7; its outflow
changed at 8; the time is 11; the break points of the cumulative flows of edge 1 are apart. -/
theorem sample_run : ∃ s0 s, DFlow.init = .ok s0 ∧ CallsOk sampleNet s0 sampleCalls ∧ runFlow sampleNet s0 sampleCalls = .ok s ∧
    s.phi = 11 ∧ (s.queues 0).times = [0, 1, 7] ∧ (s.queues 0).values = [0, 3, 0] ∧
    (s.outflow 0).queue.map FRItem.time = [8, 11] ∧ (s.inflow 1).acc.times = [0, 5] ∧ (s.outflow 1).acc.times = [0, 6] := by
  obtain ⟨s0, s, h0, h1, h2, h3⟩ := runB_sound (net := sampleNet) (calls := sampleCalls)
    (post := fun s => decide (s.phi = 11) && (decide ((s.queues 0).times = [0, 1, 7]) && (decide ((s.queues 0).values = [0, 3, 0]) &&
      (decide ((s.outflow 0).queue.map FRItem.time = [8, 11]) && (decide ((s.inflow 1).acc.times = [0, 5]) && decide ((s.outflow 1).acc.times = [0, 6]))))))
    (by decide +kernel)
  simp only [Bool.and_eq_true, decide_eq_true_eq] at h3
  exact ⟨s0, s, h0, h1, h2, h3⟩

theorem callsOk_times {net : EdgeData} : ∀ {calls : List FlowCall} {s : DFlow}, CallsOk net s calls → TimesOk net s calls := by
  intro calls
  induction calls with
  | nil => intros; trivial
  | cons c calls ih => intro s h; exact ⟨fun l T he => (h.1 l T he).time, fun s' hs => ih (h.2 s' hs)⟩

/-- The hypotheses of C29, C30, C32, C33, C35, C67 (and of C28, C31, C34) are met by the run. -/
example : ∃ s0 s, NetOk sampleNet ∧ DFlow.init = .ok s0 ∧ CallsOk sampleNet s0 sampleCalls ∧ TimesOk sampleNet s0 sampleCalls ∧
    runFlow sampleNet s0 sampleCalls = .ok s ∧ s.phi = 11 := by
  obtain ⟨s0, s, h0, h1, h2, h3, _⟩ := sample_run
  exact ⟨s0, s, sampleNet_ok, h0, h1, callsOk_times h1, h2, h3⟩

/-- The further hypothesis of C36 is met by the run. -/
example : ∃ s0 s, DFlow.init = .ok s0 ∧ CallsOk sampleNet s0 sampleCalls ∧ runFlow sampleNet s0 sampleCalls = .ok s ∧
    Apart eps ((s.inflow 1).acc.times ++ (s.outflow 1).acc.times) := by
  obtain ⟨s0, s, h0, h1, h2, _, _, _, _, h3, h4⟩ := sample_run
  refine ⟨s0, s, h0, h1, h2, ?_⟩
  rw [h3, h4]
  intro a ha b hb hab
  simp only [List.cons_append, List.nil_append, List.mem_cons, List.not_mem_nil, or_false] at ha hb
  unfold eps
  rcases ha with rfl | rfl | rfl | rfl <;> rcases hb with rfl | rfl | rfl | rfl <;> revert hab <;> norm_num

/-- The hypotheses of C69 are met: the run in two parts. -/
example : ∃ s0 s s', DFlow.init = .ok s0 ∧ CallsOk sampleNet s0 (sampleCalls.take 3) ∧ runFlow sampleNet s0 (sampleCalls.take 3) = .ok s ∧
    CallsOk sampleNet s (sampleCalls.drop 3) ∧ runFlow sampleNet s (sampleCalls.drop 3) = .ok s' ∧ s.phi < s'.phi := by
  obtain ⟨s0, s', h0, h1, h2, h3⟩ := runB_sound (net := sampleNet) (calls := sampleCalls) (post := fun s => decide (s.phi = 11)) (by decide +kernel)
  obtain ⟨s1, s, h0', g1, g2, g3⟩ := runB_sound (net := sampleNet) (calls := sampleCalls.take 3)
    (post := fun s => callsB sampleNet s (sampleCalls.drop 3) && decide (s.phi < 11)) (by decide +kernel)
  rw [h0] at h0'; injection h0' with h0'; subst h0'
  simp only [Bool.and_eq_true, decide_eq_true_eq] at g3 h3
  have e : runFlow sampleNet s (sampleCalls.drop 3) = .ok s' := by
    rw [← runFlow_append _ _ g2, List.take_append_drop]; exact h2
  exact ⟨s0, s, s', h0, g1, g2, callsB_sound g3.1, e, by rw [h3]; exact g3.2⟩

/-- Why C35 asks for rates that are equal or more than eps apart: with rates that differ by exactly eps on a
long queue, `extend` fails its own assertion. -/
theorem C35_needs_separation :
    (DFlow.init.bind (fun s0 => runFlow sampleNet s0
      [.extend [(0, [(0, 1001)])] 1, .extend [(0, [(0, 1/2)])] 2, .extend [(0, [(0, 1/2 - eps)])] 3])).map (fun _ => ()) =
      .error .assertion := by
  unfold eps; decide +kernel

end Verif.Props
