import Verif.Props.Predictors
import Verif.Spec.Compare

/-! Property theorems C118 to C120: what two edges, of the same flow or of two flows on two networks, have to do with each other. Everything is
said about the functions that a user reads off a flow: cumulative inflow and outflow and the queue. -/

namespace Verif.Props
open Verif Verif.Spec

variable {net net' : EdgeData} {s s' : DFlow}

/-- What is read off is there: from time 0 on the cumulative flows, and at every time the queue. -/
theorem compare_reads (h : Reached net s) (e : Nat) (t : ℚ) :
    (0 ≤ t → (s.inflow e).acc.eval t = .ok (cumIn s e t) ∧ (s.outflow e).acc.eval t = .ok (cumOut s e t)) ∧
    (s.queues e).eval t = .ok (queueLen s e t) := by
  obtain ⟨hn, s0, calls, h0, h1, h2⟩ := h
  obtain ⟨⟨P, C, hx⟩, _⟩ := exact_reach hn h0 h1 h2
  obtain ⟨_, _, _, _, _, hh⟩ := hx.edge e
  refine ⟨fun ht => ?_, ?_⟩
  · unfold cumIn cumOut
    rw [acc_eval hh.gin ht, acc_eval hh.gout ht]
    exact ⟨rfl, rfl⟩
  · unfold queueLen
    rw [PL.eval_eq hh.qwf (DFlow.inDom_all hh.qlo hh.qhi t)]

/-- C30, in terms of `cumIn`, `cumOut` and `queueLen`. -/
theorem compare_law (h : Reached net s) (e : Nat) {t : ℚ} (h1 : 0 ≤ t) (h2 : t ≤ s.phi) :
    passed net s e t = cumIn s e t - queueLen s e t ∧
    (∃ r, 0 ≤ r ∧ r ≤ t ∧ queueLen s e t = cumIn s e t - cumIn s e r - net.capacity e * (t - r)) ∧
    ∀ r, 0 ≤ r → r ≤ t → cumIn s e t - cumIn s e r - net.capacity e * (t - r) ≤ queueLen s e t := by
  have hr := compare_reads h e
  obtain ⟨hn, s0, calls, i1, i2, i3⟩ := h
  obtain ⟨Fin, q, out, a, b, c, d, ⟨r, r1, r2, r3⟩, m⟩ := C30_fluid_law net hn s0 s calls i1 i2 i3 e t h1 h2
  have hF : ∀ r, 0 ≤ r → Fin r = cumIn s e r := fun r hr0 => by
    have := a r hr0; rw [((hr r).1 hr0).1] at this; injection this with this; exact this.symm
  have hq : q = queueLen s e t := by rw [(hr t).2] at b; injection b with b; exact b.symm
  have ho : out = passed net s e t := by
    have := hn.tt e
    rw [((hr (t + net.travelTime e)).1 (by linarith)).2] at c; injection c with c; exact c.symm
  rw [hF t h1] at d r3
  rw [hF r r1] at r3
  refine ⟨by rw [← ho, ← hq]; linarith, ⟨r, r1, r2, by rw [← hq]; exact r3⟩, fun x x1 x2 => ?_⟩
  rw [← hq]
  exact m ⟨x, x1, x2, by rw [hF t h1, hF x x1]⟩

/-- An edge is empty at time 0, and its cumulative inflow starts at 0. -/
theorem compare_start (h : Reached net s) (e : Nat) : cumIn s e 0 = 0 ∧ queueLen s e 0 = 0 := by
  obtain ⟨hn, s0, calls, i1, i2, i3⟩ := h
  obtain ⟨⟨P, C, hx⟩, hrec⟩ := exact_reach hn i1 i2 i3
  obtain ⟨_, _, _, _, _, hh⟩ := hx.edge e
  refine ⟨?_, ?_⟩
  · unfold cumIn
    rw [acc_eval hh.gin (le_refl _)]
    exact hh.gin.accZero
  · unfold queueLen
    rw [PL.eval_eq hh.qwf (DFlow.inDom_all hh.qlo hh.qhi 0)]
    exact hh.qneg 0 (le_refl _)

section
variable (h : Reached net s) (h' : Reached net' s') (e e' : Nat) (t : ℚ) (t0 : 0 ≤ t) (t1 : t ≤ s.phi) (t2 : t ≤ s'.phi)
include h h' t0 t1 t2

/-- **C118**: two edges with the same capacity that have received the same up to every time until `t` have the same queue at `t` and have let the
same pass. How the inflow was divided into calls and commodities, what the other edges do and how long the edges are makes no difference. -/
theorem C118_same (hc : net.capacity e = net'.capacity e') (hF : ∀ r, 0 ≤ r → r ≤ t → cumIn s e r = cumIn s' e' r) :
    queueLen s e t = queueLen s' e' t ∧ passed net s e t = passed net' s' e' t := by
  obtain ⟨a, ⟨r, r1, r2, r3⟩, m⟩ := compare_law h e t0 t1
  obtain ⟨a', ⟨r', r1', r2', r3'⟩, m'⟩ := compare_law h' e' t0 t2
  have k := hF t t0 (le_refl _)
  have k1 := m' r r1 r2
  have k2 := m r' r1' r2'
  rw [← hF r r1 r2, ← hc, ← k] at k1
  rw [← hF r' r1' r2', ← hc, ← k] at r3'
  have : queueLen s e t = queueLen s' e' t := by linarith
  exact ⟨this, by rw [a, a', this, k]⟩

/-- **C118**: if an edge receives at least as much as another in every period ending at `t`, and its capacity is not greater, then at
`t` its queue is not shorter, and the flow entering it at `t` does not wait less. -/
theorem C118_more (hc : net'.capacity e' ≤ net.capacity e)
    (hF : ∀ r, 0 ≤ r → r ≤ t → cumIn s e t - cumIn s e r ≤ cumIn s' e' t - cumIn s' e' r) :
    queueLen s e t ≤ queueLen s' e' t ∧ waitAt net s e t ≤ waitAt net' s' e' t := by
  obtain ⟨a, ⟨r, r1, r2, r3⟩, m⟩ := compare_law h e t0 t1
  obtain ⟨a', _, m'⟩ := compare_law h' e' t0 t2
  have k1 := m' r r1 r2
  have k2 := hF r r1 r2
  have k3 := mul_le_mul_of_nonneg_right hc (sub_nonneg.mpr r2)
  have hq : queueLen s e t ≤ queueLen s' e' t := by linarith
  have hq0 : 0 ≤ queueLen s' e' t := by have := m' t t0 (le_refl _); simpa using this
  refine ⟨hq, ?_⟩
  unfold waitAt
  exact div_le_div₀ hq0 hq (h'.1.cap e') hc

/-- **C118**: an edge that has received at least as much as another at every time until `t`, and whose capacity is not smaller, has let at
least as much pass. -/
theorem C118_through (hc : net.capacity e ≤ net'.capacity e') (hF : ∀ r, 0 ≤ r → r ≤ t → cumIn s e r ≤ cumIn s' e' r) :
    passed net s e t ≤ passed net' s' e' t := by
  obtain ⟨a, _, m⟩ := compare_law h e t0 t1
  obtain ⟨a', ⟨r, r1, r2, r3⟩, _⟩ := compare_law h' e' t0 t2
  have k1 := m r r1 r2
  have k2 := hF r r1 r2
  have k3 := mul_le_mul_of_nonneg_right hc (sub_nonneg.mpr r2)
  linarith

/-- **C119**: flow has no unit. If an edge with `c` times the capacity has received `c` times as much at every time until `t`, its queue is `c` times
as long, `c` times as much has passed, and waiting takes as long. -/
theorem C119_units (c : ℚ) (c0 : 0 < c) (hc : net'.capacity e' = c * net.capacity e) (hF : ∀ r, 0 ≤ r → r ≤ t → cumIn s' e' r = c * cumIn s e r) :
    queueLen s' e' t = c * queueLen s e t ∧ passed net' s' e' t = c * passed net s e t ∧ waitAt net' s' e' t = waitAt net s e t := by
  obtain ⟨a, ⟨r, r1, r2, r3⟩, m⟩ := compare_law h e t0 t1
  obtain ⟨a', ⟨r', r1', r2', r3'⟩, m'⟩ := compare_law h' e' t0 t2
  have k1 := m' r r1 r2
  have k2 := mul_le_mul_of_nonneg_left (m r' r1' r2') c0.le
  rw [hF t t0 (le_refl _), hF r r1 r2, hc] at k1
  rw [hF t t0 (le_refl _), hF r' r1' r2', hc] at r3'
  have k3 : c * queueLen s e t ≤ queueLen s' e' t := by rw [r3]; linarith
  have hq : queueLen s' e' t = c * queueLen s e t := le_antisymm (by rw [r3']; linarith) k3
  refine ⟨hq, by rw [a, a', hF t t0 (le_refl _), hq]; ring, ?_⟩
  unfold waitAt
  rw [hq, hc, mul_div_mul_left _ _ c0.ne']

/-- **C120**: queues depend continuously on what is received. If what two edges have received until any time up to `t` differs by at most `δ`, and their
capacities by at most `κ`, then what has passed differs by at most `δ + κ t` and the queues by at most `2 δ + κ t`. -/
theorem C120_close (δ κ : ℚ) (hc : |net.capacity e - net'.capacity e'| ≤ κ) (hF : ∀ r, 0 ≤ r → r ≤ t → |cumIn s e r - cumIn s' e' r| ≤ δ) :
    |passed net s e t - passed net' s' e' t| ≤ δ + κ * t ∧ |queueLen s e t - queueLen s' e' t| ≤ 2 * δ + κ * t := by
  obtain ⟨a, ⟨r, r1, r2, r3⟩, m⟩ := compare_law h e t0 t1
  obtain ⟨a', ⟨r', r1', r2', r3'⟩, m'⟩ := compare_law h' e' t0 t2
  have k0 := abs_le.mp (hF t t0 (le_refl _))
  have k1 := m' r r1 r2
  have k2 := m r' r1' r2'
  have k3 := abs_le.mp (hF r r1 r2)
  have k4 := abs_le.mp (hF r' r1' r2')
  have c1 := abs_le.mp hc
  have hκ : 0 ≤ κ := le_trans (abs_nonneg _) hc
  have key : ∀ x, 0 ≤ x → x ≤ t → net.capacity e * (t - x) - net'.capacity e' * (t - x) ≤ κ * t ∧
      net'.capacity e' * (t - x) - net.capacity e * (t - x) ≤ κ * t := fun x x0 x1 => by
    have w1 := mul_le_mul_of_nonneg_right c1.2 (sub_nonneg.mpr x1)
    have w2 := mul_le_mul_of_nonneg_right c1.1 (sub_nonneg.mpr x1)
    have w3 : 0 ≤ κ * x := mul_nonneg hκ x0
    constructor <;> nlinarith
  have e1 := key r r1 r2
  have e2 := key r' r1' r2'
  rw [a, a']
  refine ⟨abs_le.mpr ⟨?_, ?_⟩, abs_le.mpr ⟨?_, ?_⟩⟩ <;> linarith
end

/-- **C119**: the clock has no zero. If an edge with the same capacity receives nothing until `d`, and from then on what the other receives `d` earlier, its
queue at `t + d` is that of the other at `t`, and the same has passed. -/
theorem C119_shift (h : Reached net s) (h' : Reached net' s') (e e' : Nat) (t d : ℚ) (t0 : 0 ≤ t) (d0 : 0 ≤ d) (t1 : t ≤ s.phi) (t2 : t + d ≤ s'.phi)
    (hc : net.capacity e = net'.capacity e') (hz : ∀ r, 0 ≤ r → r ≤ d → cumIn s' e' r = 0) (hF : ∀ r, 0 ≤ r → r ≤ t → cumIn s' e' (r + d) = cumIn s e r) :
    queueLen s' e' (t + d) = queueLen s e t ∧ passed net' s' e' (t + d) = passed net s e t := by
  obtain ⟨a, ⟨r, r1, r2, r3⟩, m⟩ := compare_law h e t0 t1
  obtain ⟨a', ⟨r', r1', r2', r3'⟩, m'⟩ := compare_law h' e' (add_nonneg t0 d0) t2
  have z := (compare_start h e).1
  have k1 := m' (r + d) (by linarith) (by linarith)
  rw [hF t t0 (le_refl _), hF r r1 r2, ← hc] at k1
  rw [hF t t0 (le_refl _), ← hc] at r3'
  have k2 : t + d - (r + d) = t - r := by ring
  rw [k2] at k1
  have hq : queueLen s' e' (t + d) = queueLen s e t := by
    refine le_antisymm ?_ (by linarith)
    rcases le_total d r' with hd | hd
    · have k3 := hF (r' - d) (by linarith) (by linarith)
      rw [sub_add_cancel] at k3
      have k4 := m (r' - d) (by linarith) (by linarith)
      have k5 : t - (r' - d) = t + d - r' := by ring
      rw [k5] at k4
      rw [r3', k3]; exact k4
    · have k3 := hz r' r1' hd
      have k4 := m 0 (le_refl _) t0
      rw [z] at k4
      have k5 := mul_le_mul_of_nonneg_left (show t - 0 ≤ t + d - r' by linarith) (h.1.cap e).le
      rw [r3', k3]; linarith
  exact ⟨hq, by rw [a, a', hF t t0 (le_refl _), hq]⟩

/-! ### Concrete cases

Edge 0 of `sampleNet` has capacity 1, edge 1 capacity 2; both have travel time 1. -/

/-- The cumulative inflow after one call at time 0 and one that only lets time pass (`extend` stops when an outflow changes, here at time 1). -/
theorem compare_one {e : Nat} {v : Rates} {T : ℚ} {post : DFlow → Bool} (h : runB sampleNet [.extend [(e, v)] T, .extend [] T] post = true) :
    ∃ s, Reached sampleNet s ∧ post s = true ∧ ∀ r, 0 ≤ r → cumIn s e r = v.total * r := by
  obtain ⟨s0, s, h0, h1, h2, h3⟩ := runB_sound h
  refine ⟨s, ⟨sampleNet_ok, s0, _, h0, h1, h2⟩, h3, fun r hr => ?_⟩
  have hphi : s0.phi = 0 := by
    have hi : (match DFlow.init with | .ok s => decide (s.phi = 0) | .error _ => false) = true := by decide +kernel
    rw [h0] at hi; simpa using hi
  have hg : given sampleNet e s0 [.extend [(e, v)] T, .extend [] T] = [(0, v)] := by
    simp only [given, List.lookup_cons, beq_self_eq_true, hphi, List.lookup_nil]
    cases h4 : stepFlow sampleNet s0 (.extend [(e, v)] T) with
    | error err => rfl
    | ok s1 =>
      simp only
      cases stepFlow sampleNet s1 (.extend [] T) <;> rfl
  unfold cumIn
  rw [(C67_recorded sampleNet sampleNet_ok s0 s _ h0 h1 h2 e r hr).2, hg]
  simp only [givenTotal, List.foldl_cons, List.foldl_nil]
  split
  · have : r = 0 := le_antisymm (by assumption) hr
    subst this; simp
  · simp

/-- The hypotheses of `C118_same` are met with two commodities instead of one; the queue at time 3 is 6. -/
example : ∃ s s', Reached sampleNet s ∧ Reached sampleNet s' ∧ 3 ≤ s.phi ∧ 3 ≤ s'.phi ∧ (∀ r, 0 ≤ r → r ≤ 3 → cumIn s 0 r = cumIn s' 0 r) ∧ queueLen s 0 3 = 6 := by
  obtain ⟨s, h, hp, hF⟩ := compare_one (e := 0) (v := [(0, 3)]) (T := 3) (post := fun s => decide (3 ≤ s.phi) && decide (queueLen s 0 3 = 6)) (by decide +kernel)
  obtain ⟨s', h', hp', hF'⟩ := compare_one (e := 0) (v := [(0, 2), (1, 1)]) (T := 5) (post := fun s => decide (3 ≤ s.phi)) (by decide +kernel)
  simp only [Bool.and_eq_true, decide_eq_true_eq] at hp hp'
  refine ⟨s, s', h, h', hp.1, hp', fun r r1 _ => ?_, hp.2⟩
  have e1 : Rates.total [(0, 3)] = Rates.total [(0, 2), (1, 1)] := by decide +kernel
  rw [hF r r1, hF' r r1, e1]

/-- The hypotheses of `C118_more` are met: inflow 3 instead of 2, queues 3 and 6 at time 3. -/
example : ∃ s s', Reached sampleNet s ∧ Reached sampleNet s' ∧ 3 ≤ s.phi ∧ 3 ≤ s'.phi ∧
    (∀ r, 0 ≤ r → r ≤ 3 → cumIn s 0 3 - cumIn s 0 r ≤ cumIn s' 0 3 - cumIn s' 0 r) ∧ queueLen s 0 3 = 3 ∧ queueLen s' 0 3 = 6 := by
  obtain ⟨s, h, hp, hF⟩ := compare_one (e := 0) (v := [(0, 2)]) (T := 3) (post := fun s => decide (3 ≤ s.phi) && decide (queueLen s 0 3 = 3)) (by decide +kernel)
  obtain ⟨s', h', hp', hF'⟩ := compare_one (e := 0) (v := [(0, 3)]) (T := 5) (post := fun s => decide (3 ≤ s.phi) && decide (queueLen s 0 3 = 6)) (by decide +kernel)
  simp only [Bool.and_eq_true, decide_eq_true_eq] at hp hp'
  refine ⟨s, s', h, h', hp.1, hp'.1, fun r r1 r2 => ?_, hp.2, hp'.2⟩
  have e1 : Rates.total [(0, 2)] = 2 := by decide +kernel
  have e2 : Rates.total [(0, 3)] = 3 := by decide +kernel
  rw [hF r r1, hF 3 (by norm_num), hF' r r1, hF' 3 (by norm_num), e1, e2]
  linarith

/-- The hypotheses of `C118_through` and of `C119_units` (with `c = 2`) are met by edges 0 and 1; the queues at time 3 are 3 and 6. -/
example : ∃ s s', Reached sampleNet s ∧ Reached sampleNet s' ∧ 3 ≤ s.phi ∧ 3 ≤ s'.phi ∧ sampleNet.capacity 1 = 2 * sampleNet.capacity 0 ∧
    (∀ r, 0 ≤ r → r ≤ 3 → cumIn s' 1 r = 2 * cumIn s 0 r) ∧ (∀ r, 0 ≤ r → r ≤ 3 → cumIn s 0 r ≤ cumIn s' 1 r) ∧ queueLen s 0 3 = 3 ∧ queueLen s' 1 3 = 6 ∧
    passed sampleNet s 0 3 = 3 := by
  obtain ⟨s, h, hp, hF⟩ := compare_one (e := 0) (v := [(0, 2)]) (T := 3) (post := fun s => decide (3 ≤ s.phi) && (decide (queueLen s 0 3 = 3) && decide (passed sampleNet s 0 3 = 3)))
    (by decide +kernel)
  obtain ⟨s', h', hp', hF'⟩ := compare_one (e := 1) (v := [(0, 4)]) (T := 5) (post := fun s => decide (3 ≤ s.phi) && decide (queueLen s 1 3 = 6)) (by decide +kernel)
  simp only [Bool.and_eq_true, decide_eq_true_eq] at hp hp'
  have e1 : Rates.total [(0, 2)] = 2 := by decide +kernel
  have e2 : Rates.total [(0, 4)] = 4 := by decide +kernel
  refine ⟨s, s', h, h', hp.1, hp'.1, by decide +kernel, fun r r1 r2 => ?_, fun r r1 r2 => ?_, hp.2.1, hp'.2, hp.2.2⟩
  · rw [hF r r1, hF' r r1, e1, e2]; ring
  · rw [hF r r1, hF' r r1, e1, e2]; linarith

/-- The hypotheses of `C120_close` are met with `δ = 3`, `κ = 0`: the queues at time 3 are 3 and 6. -/
example : ∃ s s', Reached sampleNet s ∧ Reached sampleNet s' ∧ 3 ≤ s.phi ∧ 3 ≤ s'.phi ∧
    (∀ r, 0 ≤ r → r ≤ 3 → |cumIn s 0 r - cumIn s' 0 r| ≤ 3) ∧ queueLen s 0 3 = 3 ∧ queueLen s' 0 3 = 6 := by
  obtain ⟨s, h, hp, hF⟩ := compare_one (e := 0) (v := [(0, 2)]) (T := 3) (post := fun s => decide (3 ≤ s.phi) && decide (queueLen s 0 3 = 3)) (by decide +kernel)
  obtain ⟨s', h', hp', hF'⟩ := compare_one (e := 0) (v := [(0, 3)]) (T := 5) (post := fun s => decide (3 ≤ s.phi) && decide (queueLen s 0 3 = 6)) (by decide +kernel)
  simp only [Bool.and_eq_true, decide_eq_true_eq] at hp hp'
  refine ⟨s, s', h, h', hp.1, hp'.1, fun r r1 r2 => ?_, hp.2, hp'.2⟩
  have e1 : Rates.total [(0, 2)] = 2 := by decide +kernel
  have e2 : Rates.total [(0, 3)] = 3 := by decide +kernel
  rw [hF r r1, hF' r r1, e1, e2, abs_le]
  constructor <;> linarith

/-- The hypotheses of `C119_shift` are met with `d = 2`: nothing is done until 2, then the inflow is 2; the queue at `3 + 2` is 3. -/
example : ∃ s s', Reached sampleNet s ∧ Reached sampleNet s' ∧ 3 ≤ s.phi ∧ 3 + 2 ≤ s'.phi ∧ (∀ r, 0 ≤ r → r ≤ 2 → cumIn s' 0 r = 0) ∧
    (∀ r, 0 ≤ r → r ≤ 3 → cumIn s' 0 (r + 2) = cumIn s 0 r) ∧ queueLen s' 0 (3 + 2) = 3 := by
  obtain ⟨s, h, hp, hF⟩ := compare_one (e := 0) (v := [(0, 2)]) (T := 3) (post := fun s => decide (3 ≤ s.phi)) (by decide +kernel)
  obtain ⟨s0, s', h0, h1, h2, h3⟩ := runB_sound (net := sampleNet) (calls := [.extend [] 2, .extend [(0, [(0, 2)])] 5, .extend [] 5])
    (post := fun s => decide (3 + 2 ≤ s.phi) && decide (queueLen s 0 (3 + 2) = 3)) (by decide +kernel)
  simp only [Bool.and_eq_true, decide_eq_true_eq] at hp h3
  have hg : given sampleNet 0 s0 [.extend [] 2, .extend [(0, [(0, 2)])] 5, .extend [] 5] = [(2, [(0, 2)])] := by
    have : (match DFlow.init with | .ok s => decide (given sampleNet 0 s [.extend [] 2, .extend [(0, [(0, 2)])] 5, .extend [] 5] = [(2, [(0, 2)])]) | .error _ => false) = true := by
      decide +kernel
    rw [h0] at this; simpa using this
  have e1 : Rates.total [(0, 2)] = 2 := by decide +kernel
  have hF' : ∀ r, 0 ≤ r → cumIn s' 0 r = if r ≤ 2 then 0 else 2 * (r - 2) := fun r hr => by
    unfold cumIn
    rw [(C67_recorded sampleNet sampleNet_ok s0 s' _ h0 h1 h2 0 r hr).2, hg]
    simp only [givenTotal, List.foldl_cons, List.foldl_nil, e1, zero_add]
  refine ⟨s, s', h, ⟨sampleNet_ok, s0, _, h0, h1, h2⟩, hp, h3.1, fun r r1 r2 => ?_, fun r r1 r2 => ?_, h3.2⟩
  · rw [hF' r r1, if_pos r2]
  · rw [hF' _ (by linarith), hF r r1, e1]
    split
    · linarith
    · ring

end Verif.Props
