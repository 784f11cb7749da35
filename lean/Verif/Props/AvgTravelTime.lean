import Verif.Proofs.AvgTravelTime
import Verif.Props.PredictedDelay

/-! Property theorems C64: the average travel time. -/

namespace Verif.Props
open Verif Verif.Spec Verif.AvgTravelTime

variable {P : Type} {n : Network P}

/-- Recorded outflow functions are step functions on `[0, ∞)`. -/
theorem outflow_ok {net : EdgeData} {s : DFlow} (h : Reached net s) {e i : Nat} {f : RC} (hf : (s.outflow e).funs i = some f) :
    InflowOk f ∧ ∀ t, 0 ≤ t → outRate s e i t = f.fn t := by
  obtain ⟨hn, s0, calls, h0, h1, h2⟩ := h
  obtain ⟨⟨P', C', hx⟩, _⟩ := exact_reach hn h0 h1 h2
  obtain ⟨_, _, _, _, _, hh⟩ := hx.edge e
  have hg := (hh.gout.funs i).1 _ hf
  obtain ⟨H, _, _, _, hW⟩ := hh.gout.chain
  refine ⟨⟨hg.wf.len, hg.wf.ne, hg.wf.lt, fun t ht => ?_, hg.lo, hg.hi, (hW.2 _ _ hf).2⟩, fun t ht => ?_⟩
  · have := (hg.wf.dom t ht).1
    rw [hg.lo] at this
    exact WithBot.coe_le_coe.mp this
  · unfold outRate
    rw [rateAt_eval hh.gout i ht]
    simp only
    unfold FRC.rate
    rw [hf]

theorem outflow_none {net : EdgeData} {s : DFlow} (h : Reached net s) {e i : Nat} (hf : (s.outflow e).funs i = none) (t : ℚ) (ht : 0 ≤ t) : outRate s e i t = 0 := by
  obtain ⟨hn, s0, calls, h0, h1, h2⟩ := h
  obtain ⟨⟨P', C', hx⟩, _⟩ := exact_reach hn h0 h1 h2
  obtain ⟨_, _, _, _, _, hh⟩ := hx.edge e
  unfold outRate
  rw [rateAt_eval hh.gout i ht]
  simp only
  unfold FRC.rate
  rw [hf]

theorem arrivals_eq {s : DFlow} (h : Reached n.data s) (i : Nat) (c : Commodity P) {t : ℚ} (ht : 0 ≤ t) :
    ((sinkOutflows n s i c).map (fun f => f.fn t)).sum = arrivals n s i c t := by
  unfold sinkOutflows arrivals
  generalize n.graph.incoming c.sink = l
  induction l with
  | nil => rfl
  | cons e l ih =>
    rw [List.map_cons, List.sum_cons, ← ih]
    cases hf : (s.outflow (n.graph.edge e).id).funs i with
    | none => rw [List.filterMap_cons_none (f := fun e => (s.outflow (n.graph.edge e).id).funs i) (a := e) hf, outflow_none h hf t ht, zero_add]
    | some f => rw [List.filterMap_cons_some (f := fun e => (s.outflow (n.graph.edge e).id).funs i) (a := e) hf, List.map_cons, List.sum_cons, (outflow_ok h hf).2 t ht]

/-- **C64.** For every reached flow, commodity and horizon, if the break points of its inflow functions, and those of its recorded outflow functions at
its sink, are more than `eps` apart: `avg_travel_time` returns the area between cumulative inflow `In` and cumulative arrivals `Out` up to the horizon, divided by
all that entered up to the horizon; if nothing entered, it raises `ZeroDivisionError`. -/
theorem C64_avg (hn : InputOk n) {s : DFlow} (h : Reached n.data s) {i : Nat} {c : Commodity P} (hc : n.commodities[i]? = some c) {horizon : ℚ} (hh : 0 < horizon)
    (hin : Apart eps (0 :: (c.sources.map (fun s => s.2.times)).flatten)) (hout : Apart eps (0 :: ((sinkOutflows n s i c).map RC.times).flatten)) :
    ∃ In Out A, StepArea (enters c) In ∧ StepArea (arrivals n s i c) Out ∧ LinArea (fun x => In x - Out x) A ∧
      avgTravelTime n s i horizon = if In horizon = 0 then .error .zeroDiv else .ok (A horizon / In horizon) := by
  have hcm := List.mem_of_getElem? hc
  have hs : ∀ f ∈ c.sources.map Prod.snd, InflowOk f := by
    intro f hf
    obtain ⟨p, hp, rfl⟩ := List.mem_map.mp hf
    exact (hn.source c hcm p hp).2.2
  have ho : ∀ f ∈ sinkOutflows n s i c, InflowOk f := by
    intro f hf
    unfold sinkOutflows at hf
    obtain ⟨e, _, he⟩ := List.mem_filterMap.mp hf
    exact (outflow_ok h he).1
  obtain ⟨Fo, o1, o2, o3, o4, o5, o6⟩ := accumulate_spec ho hout
  obtain ⟨Fi, i1, i2, i3, i4, i5, i6⟩ := accumulate_spec hs (by rw [List.map_map]; exact hin)
  refine ⟨Fi.fn, Fo.fn, _, StepArea.congr i5 (fun x hx => ?_), StepArea.congr o5 (fun x hx => arrivals_eq h i c hx), LinArea.sub i6 o6, ?_⟩
  · unfold enters
    rw [List.map_map]
    congr 1
    refine List.map_congr_left (fun p hp => ?_)
    exact (Builder.stepValue_fn (hn.source c hcm p hp).2.2 hx).symm
  · unfold avgTravelTime
    rw [rd_eq_ok.mpr hc, ok_bind, o1, ok_bind, i1, ok_bind, PL.integrate_eq i2 i4 (i3 0 le_rfl) (i3 _ hh.le) hh, ok_bind,
      PL.integrate_eq o2 o4 (o3 0 le_rfl) (o3 _ hh.le) hh, ok_bind, PL.eval_eq i2 (i3 _ hh.le), ok_bind]
    rfl

/-- The areas of **C64** are determined by the rates. -/
theorem C64_unique : (∀ {f F G : ℚ → ℚ}, StepArea f F → StepArea f G → ∀ x, 0 ≤ x → F x = G x) ∧
    ∀ {F A B : ℚ → ℚ}, LinArea F A → LinArea F B → ∀ x, 0 ≤ x → A x = B x :=
  ⟨fun h k x hx => StepArea.unique h k x hx, fun h k x hx => LinArea.unique h k x hx⟩

/-- **C64**: an index without a commodity raises `IndexError`; a horizon that is not positive is refused. -/
theorem C64_refused (hn : InputOk n) {s : DFlow} (h : Reached n.data s) {i : Nat} {horizon : ℚ} :
    (n.commodities[i]? = none → avgTravelTime n s i horizon = .error .index) ∧
    ∀ c, n.commodities[i]? = some c → Apart eps (0 :: (c.sources.map (fun s => s.2.times)).flatten) → Apart eps (0 :: ((sinkOutflows n s i c).map RC.times).flatten) →
      horizon ≤ 0 → avgTravelTime n s i horizon = .error .assertion := by
  constructor
  · intro hc
    unfold avgTravelTime
    have : rd n.commodities i = .error .index := by unfold rd; rw [hc]
    rw [this]; rfl
  · intro c hc hin hout hh
    have hcm := List.mem_of_getElem? hc
    have hs : ∀ f ∈ c.sources.map Prod.snd, InflowOk f := by
      intro f hf
      obtain ⟨p, hp, rfl⟩ := List.mem_map.mp hf
      exact (hn.source c hcm p hp).2.2
    have ho : ∀ f ∈ sinkOutflows n s i c, InflowOk f := by
      intro f hf
      unfold sinkOutflows at hf
      obtain ⟨e, _, he⟩ := List.mem_filterMap.mp hf
      exact (outflow_ok h he).1
    obtain ⟨Fo, o1, o2, o3, o4, o5, o6⟩ := accumulate_spec ho hout
    obtain ⟨Fi, i1, i2, i3, i4, i5, i6⟩ := accumulate_spec hs (by rw [List.map_map]; exact hin)
    unfold avgTravelTime
    rw [rd_eq_ok.mpr hc, ok_bind, o1, ok_bind, i1, ok_bind]
    have : Fi.integrate 0 horizon = .error .assertion := by
      unfold PL.integrate
      rw [pyAssert_false (fun hc => absurd hc.2.1 (not_lt.mpr hh))]; rfl
    rw [this]; rfl

/-- Decides `Apart`. -/
def apartListB (e : ℚ) (L : List ℚ) : Bool := L.all (fun a => L.all (fun b => decide (a < b → e < b - a)))

theorem apartListB_sound {e : ℚ} {L : List ℚ} (h : apartListB e L = true) : Apart e L := by
  intro a ha b hb
  exact of_decide_eq_true (List.all_eq_true.mp (List.all_eq_true.mp h a ha) b hb)

/-- **C64**, hypotheses met: in the built example the second commodity arrives over two edges; 23/6 up to time 6. -/
example : ∃ s c, InputOk buildNet ∧ Reached buildNet.data s ∧ buildNet.commodities[1]? = some c ∧ Apart eps (0 :: (c.sources.map (fun s => s.2.times)).flatten) ∧
    Apart eps (0 :: ((sinkOutflows buildNet s 1 c).map RC.times).flatten) ∧ (sinkOutflows buildNet s 1 c).length = 2 ∧ avgTravelTime buildNet s 1 6 = .ok (23 / 6) := by
  obtain ⟨b0, h1, h2, b, h3, h4⟩ := Builder.buildB_sound (show Builder.buildB List.dedup buildPreds buildNet 2 7 (fun b =>
    apartListB eps (0 :: ((buildNet.commodities[1]).sources.map (fun s => s.2.times)).flatten) &&
    (apartListB eps (0 :: ((sinkOutflows buildNet b.flow 1 (buildNet.commodities[1])).map RC.times).flatten) &&
    (decide ((sinkOutflows buildNet b.flow 1 (buildNet.commodities[1])).length = 2) && decide ((avgTravelTime buildNet b.flow 1 6).toOption = some (23 / 6))))) = true by
      unfold eps; decide +kernel)
  simp only [Bool.and_eq_true, decide_eq_true_eq] at h4
  have hB : Building buildNet List.dedup buildPreds 2 { b0 with built := true } 7 := ⟨buildNet_ok, dedup_order, buildPreds_ok, by norm_num, ⟨b0, h1, rfl⟩, h2⟩
  obtain ⟨b', hb', f0, cs, _, hf0, hcs, hrun, _⟩ := C43_conservation hB
  rw [h3] at hb'; injection hb' with hb'; subst hb'
  refine ⟨b.flow, buildNet.commodities[1], buildNet_ok, ⟨Builder.netOk buildNet_ok, f0, cs, hf0, hcs, hrun⟩, rfl, apartListB_sound h4.1, apartListB_sound h4.2.1, h4.2.2.1, ?_⟩
  have := h4.2.2.2
  cases he : avgTravelTime buildNet b.flow 1 6 with
  | error e => rw [he] at this; cases this
  | ok v => rw [he] at this; injection this with this; rw [this]

end Verif.Props
