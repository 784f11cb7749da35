import Verif.Proofs.BuilderCosts
import Verif.Proofs.BuilderBase
import Verif.Proofs.DFlowRun
import Verif.Model.Predictors
import Verif.Spec.FlowBuilder

/-! Proofs on predictors. -/

namespace Verif
open Spec

/-- Valid queue functions give valid predictions. -/
theorem predictionOk_of {P : Type} {n : Network P} (hn : InputOk n) {t : ℚ} {ps : List PL} (hl : ps.length = n.graph.edges.length)
    (h : ∀ (i : Nat) (p : PL) (cap : ℚ), ps[i]? = some p → n.capacity[i]? = some cap → p.WF ∧ (∀ x ∈ p.times, t ≤ x) ∧ (∀ x, t ≤ x → 0 ≤ p.fn x) ∧
      ∀ x y, t ≤ x → x ≤ y → p.fn x - p.fn y ≤ cap * (y - x)) : PredictionOk n t ps := by
  have hcap : ∀ (i : Nat) (p : PL), ps[i]? = some p → ∃ cap, n.capacity[i]? = some cap := by
    intro i p hp
    have := (List.getElem?_eq_some_iff.mp hp).1
    exact ⟨_, List.getElem?_eq_getElem (by rw [hn.capLen, ← hl]; exact this)⟩
  refine ⟨hl, ?_, ?_, ?_⟩
  · intro p hp
    obtain ⟨i, hi⟩ := List.mem_iff_getElem?.mp hp
    obtain ⟨cap, hc⟩ := hcap i p hi
    obtain ⟨a, b, _⟩ := h i p cap hi hc
    exact ⟨a.len, a.ne, a.gap, b⟩
  · intro c hc e he x hx
    obtain ⟨p, tt, cap, F, h1, h2, h3, h4, h5⟩ := hc e he
    obtain ⟨a, _, b, _⟩ := h _ p cap h1 h3
    have ht := hn.tt tt (List.mem_of_getElem? h2)
    have hc := hn.cap cap (List.mem_of_getElem? h3)
    rw [h5, PL.interpolates_unique a h4]
    exact add_nonneg ht (div_nonneg (b x hx) (le_of_lt hc))
  · intro c hc e he x y hx hxy
    obtain ⟨p, tt, cap, F, h1, h2, h3, h4, h5⟩ := hc e he
    obtain ⟨a, _, _, b⟩ := h _ p cap h1 h3
    have hc := hn.cap cap (List.mem_of_getElem? h3)
    rw [h5, h5, PL.interpolates_unique a h4, PL.interpolates_unique a h4]
    have := b x y hx hxy
    have e1 : (p.fn x - p.fn y) / cap ≤ y - x := by
      rw [div_le_iff₀ hc]; linarith [mul_comm cap (y - x)]
    rw [sub_div] at e1
    linarith

namespace PL

theorem wf_const (t v : ℚ) : WF ⟨[t], [v], 0, 0, ⊥, ⊤⟩ :=
  ⟨rfl, by simp, by simp, fun _ _ => ⟨bot_le, le_top⟩⟩

theorem fn_const (t v x : ℚ) : fn ⟨[t], [v], 0, 0, ⊥, ⊤⟩ x = v := by
  have hw := wf_const t v
  have h0 : fn ⟨[t], [v], 0, 0, ⊥, ⊤⟩ t = v := (interpolates hw).at_break 0 t v rfl rfl
  rcases le_total x t with h | h
  · have := (interpolates hw).before t rfl x h
    rw [this, h0]; simp
  · have := (interpolates hw).after t rfl x h
    rw [this, h0]; simp

theorem eval_const (t v x : ℚ) : eval ⟨[t], [v], 0, 0, ⊥, ⊤⟩ x = .ok v := by
  rw [eval_eq (wf_const t v) ⟨bot_le, le_top⟩, fn_const]

end PL

/-- What holds of the queue of an edge of a reached flow. -/
structure QueueFacts (cap φ : ℚ) (q : PL) : Prop where
  wf : q.WF
  lo : q.lo = ⊥
  hi : q.hi = ⊤
  last : ∀ b, q.times.getLast? = some b → b ≤ φ
  nonneg : ∀ x, x ≤ φ → 0 ≤ q.fn x
  start : ∀ x, x ≤ 0 → q.fn x = 0
  drain : ∀ x y, x ≤ y → y ≤ φ → q.fn x - q.fn y ≤ cap * (y - x)

theorem QueueFacts.eval {cap φ : ℚ} {q : PL} (h : QueueFacts cap φ q) (x : ℚ) : q.eval x = .ok (q.fn x) :=
  PL.eval_eq h.wf ⟨by rw [h.lo]; exact bot_le, by rw [h.hi]; exact le_top⟩

theorem queueFacts {net : EdgeData} (hn : NetOk net) {s0 s : DFlow} {calls : List FlowCall} (h0 : DFlow.init = .ok s0)
    (hc : CallsOk net s0 calls) (hr : runFlow net s0 calls = .ok s) (e : Nat) : QueueFacts (net.capacity e) s.phi (s.queues e) ∧ 0 ≤ s.phi := by
  obtain ⟨s1, e1, _, h1, h2⟩ := DFlow.init_ok hn
  rw [h0] at e1; injection e1 with e1; subst e1
  obtain ⟨s', r1, _, _, ⟨P, C, r2⟩, _⟩ := DFlow.run_exact hn calls (fun _ => []) ⟨_, _, h2⟩ (DFlow.init_head h0) ⟨_, _, h1⟩ (DFlow.init_recorded h0) hc
  rw [hr] at r1; injection r1 with r1; subst r1
  obtain ⟨Lin, Vin, Lout, Vout, r, he⟩ := r2.edge e
  have hcap := hn.cap e
  have hnn : ∀ x, x ≤ s.phi → 0 ≤ (s.queues e).fn x := by
    intro x hx
    rcases le_total x 0 with h | h
    · rw [he.qneg x h]
    · exact he.laws.q_nonneg x (he.dom h hx)
  have hdr : ∀ x y, 0 ≤ x → x ≤ y → y ≤ s.phi → (s.queues e).fn x - (s.queues e).fn y ≤ net.capacity e * (y - x) := by
    intro x y hx hxy hy
    have b1 := he.laws.bal x (he.dom hx (le_trans hxy hy))
    have b2 := he.laws.bal y (he.dom (le_trans hx hxy) hy)
    have b3 := he.laws.fp_mono x y hxy
    have b4 := (he.laws.fm_lip (x + net.travelTime e) (y + net.travelTime e) (by linarith)).2
    have : y + net.travelTime e - (x + net.travelTime e) = y - x := by ring
    rw [this] at b4
    linarith
  refine ⟨⟨he.qwf, he.qlo, he.qhi, he.qlast, hnn, he.qneg, ?_⟩, he.phi⟩
  intro x y hxy hy
  have hm : 0 ≤ net.capacity e * (y - x) := mul_nonneg (le_of_lt hcap) (by linarith)
  rcases le_total y 0 with h | h
  · rw [he.qneg y h, he.qneg x (le_trans hxy h)]; linarith
  · rcases le_total x 0 with h' | h'
    · rw [he.qneg x h']
      have := hnn y hy
      linarith
    · exact hdr x y h' hxy hy

namespace Predictors

theorem zero_spec (m : Nat) (t : ℚ) (f : DFlow) : (zero m).predict t f = .ok ((List.range m).map (fun _ => ⟨[t], [0], 0, 0, ⊥, ⊤⟩)) := by
  unfold zero
  simp only
  rw [PL.new_ok (PL.wf_const t 0), ok_bind]
  rfl

theorem const_spec (m : Nat) {t : ℚ} {f : DFlow} (h : ∀ e < m, ∃ v, (f.queues e).eval t = .ok v) :
    ∃ ps, (const m).predict t f = .ok ps ∧ ps.length = m ∧ ∀ e < m, ∃ v, (f.queues e).eval t = .ok v ∧ ps[e]? = some ⟨[t], [v], 0, 0, ⊥, ⊤⟩ := by
  obtain ⟨ps, h1, h2, h3⟩ := Builder.mapPy_ok (fun i => do
    let cur ← (f.queues i).eval t
    PL.new [t] [cur] 0 0 ⊥ ⊤) (List.range m) (by
      intro e he
      obtain ⟨v, hv⟩ := h e (List.mem_range.mp he)
      exact ⟨_, by rw [hv, ok_bind]; exact PL.new_ok (PL.wf_const t v)⟩)
  refine ⟨ps, h1, by rw [h2, List.length_range], ?_⟩
  intro e he
  obtain ⟨p, p1, p2⟩ := h3 e e (by rw [List.getElem?_range he])
  obtain ⟨v, hv⟩ := h e he
  rw [hv, ok_bind, PL.new_ok (PL.wf_const t v)] at p2
  injection p2 with p2
  exact ⟨v, hv, by rw [p1, ← p2]⟩

variable {P : Type} {n : Network P}

theorem zero_ok (hn : InputOk n) (t : ℚ) (f : DFlow) : ∃ ps, (zero n.graph.edges.length).predict t f = .ok ps ∧ PredictionOk n t ps := by
  refine ⟨_, zero_spec _ t f, predictionOk_of hn (by simp) ?_⟩
  intro i p cap hp hc
  have hcap := hn.cap cap (List.mem_of_getElem? hc)
  rw [List.getElem?_map] at hp
  obtain ⟨_, _, rfl⟩ := Option.map_eq_some_iff.mp hp
  refine ⟨PL.wf_const t 0, by simp, fun x _ => by rw [PL.fn_const], fun x y _ hxy => ?_⟩
  rw [PL.fn_const, PL.fn_const, sub_self]
  exact mul_nonneg (le_of_lt hcap) (by linarith)

theorem const_ok (hn : InputOk n) {f0 f : DFlow} {calls : List FlowCall} (h0 : DFlow.init = .ok f0)
    (hc : CallsOk n.data f0 calls) (hr : runFlow n.data f0 calls = .ok f) {t : ℚ} (ht : t ≤ f.phi) :
    ∃ ps, (const n.graph.edges.length).predict t f = .ok ps ∧ PredictionOk n t ps := by
  have hq : ∀ e, QueueFacts (n.data.capacity e) f.phi (f.queues e) := fun e => (queueFacts (Builder.netOk hn) h0 hc hr e).1
  obtain ⟨ps, h1, h2, h3⟩ := const_spec n.graph.edges.length (t := t) (f := f) (fun e _ => ⟨_, (hq e).eval t⟩)
  refine ⟨ps, h1, predictionOk_of hn h2 ?_⟩
  intro i p cap hp hc
  have hcap := hn.cap cap (List.mem_of_getElem? hc)
  obtain ⟨v, v1, v2⟩ := h3 i (by rw [← h2]; exact (List.getElem?_eq_some_iff.mp hp).1)
  rw [hp] at v2; injection v2 with v2; subst v2
  rw [(hq i).eval t] at v1; injection v1 with v1
  refine ⟨PL.wf_const t v, by simp, fun x _ => by rw [PL.fn_const, ← v1]; exact (hq i).nonneg t ht, fun x y _ hxy => ?_⟩
  rw [PL.fn_const, PL.fn_const, sub_self]
  exact mul_nonneg (le_of_lt hcap) (by linarith)

end Predictors
end Verif
