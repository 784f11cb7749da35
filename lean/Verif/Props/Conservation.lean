import Verif.Proofs.Conservation
import Verif.Props.AvgTravelTime

/-! Property theorems C72 and C73: no flow of any commodity is made or lost, on an edge and in the network; C64: the range of the average travel time. -/

namespace Verif.Props
open Verif Verif.Spec Verif.AvgTravelTime Verif.Conservation

variable {P : Type} {n : Network P}

/-- The cumulative in- and outflow of one commodity on one edge. -/
theorem edge_areas {net : EdgeData} {s : DFlow} (h : Reached net s) (e i : Nat) :
    (∀ x, 0 ≤ x → 0 ≤ inRate s e i x ∧ 0 ≤ outRate s e i x) ∧ ∃ In Out : ℚ → ℚ, StepArea (inRate s e i) In ∧ StepArea (outRate s e i) Out ∧
      ∀ t, 0 ≤ t → t ≤ s.phi → (∃ q, (s.queues e).eval t = .ok q ∧ Out (t + net.travelTime e + q / net.capacity e) = In t) ∧ Out t ≤ In t := by
  obtain ⟨hn, s0, calls, h0, h1, h2⟩ := h
  obtain ⟨⟨P', C', hx⟩, _⟩ := exact_reach hn h0 h1 h2
  obtain ⟨_, _, _, _, _, hh⟩ := hx.edge e
  obtain ⟨⟨I, hI⟩, pI⟩ := DFlow.area_rate hh.gin i
  obtain ⟨⟨O, hO⟩, pO⟩ := DFlow.area_rate hh.gout i
  have rI : ∀ x, 0 ≤ x → FRC.rate (s.inflow e).funs i x = inRate s e i x := fun x hx => by unfold inRate; rw [rateAt_eval hh.gin i hx]
  have rO : ∀ x, 0 ≤ x → FRC.rate (s.outflow e).funs i x = outRate s e i x := fun x hx => by unfold outRate; rw [rateAt_eval hh.gout i hx]
  refine ⟨fun x hx => ⟨by rw [← rI x hx]; exact pI x, by rw [← rO x hx]; exact pO x⟩, I, O, hI.congr rI, hO.congr rO, fun t ht ht' => ?_⟩
  have hc := hh.carried (hn.cap e) (hn.tt e) hI hO ht ht'
  refine ⟨⟨_, PL.eval_eq hh.qwf (DFlow.inDom_all hh.qlo hh.qhi t), hc⟩, ?_⟩
  rw [← hc]
  refine hO.mono (fun x _ => pO x) ht ?_
  have := div_nonneg (hh.laws.q_nonneg t (hh.dom ht ht')) (hn.cap e).le
  have := hn.tt e
  linarith

/-- **C72.** On every edge, of every commodity, what has entered up to a time `t` up to `phi` has left exactly by `t + travel time + queue(t) / capacity`:
nothing of it is lost, made, or overtaken by later flow of its kind; and no more has ever left than entered. -/
theorem C72_carried {net : EdgeData} {s : DFlow} (h : Reached net s) (e i : Nat) : ∃ In Out, StepArea (inRate s e i) In ∧ StepArea (outRate s e i) Out ∧
    ∀ t, 0 ≤ t → t ≤ s.phi → (∃ q, (s.queues e).eval t = .ok q ∧ Out (t + net.travelTime e + q / net.capacity e) = In t) ∧ Out t ≤ In t :=
  (edge_areas h e i).2

/-- **C72**: nothing leaves an edge before its travel time has passed. -/
theorem C72_travel_time {net : EdgeData} {s : DFlow} (h : Reached net s) (e i : Nat) {x : ℚ} (hx : 0 ≤ x) (hx' : x < net.travelTime e) : outRate s e i x = 0 := by
  obtain ⟨hn, s0, calls, h0, h1, h2⟩ := h
  obtain ⟨⟨P', C', hxx⟩, _⟩ := exact_reach hn h0 h1 h2
  obtain ⟨_, _, _, _, _, hh⟩ := hxx.edge e
  unfold outRate
  rw [rateAt_eval hh.gout i hx]
  exact hh.quiet i x hx hx'

section
variable [DecidableEq P] {ord : List Nat → List Nat} {preds : P → Predictor} {d : ℚ} {b0 : Builder P} {k : Nat}

theorem building_reached (h : Building n ord preds d b0 k) {b : Builder P} (hb : rounds ord preds k b0 = .ok b) : Reached n.data b.flow := by
  obtain ⟨b', hb', f0, cs, _, hf0, hcs, hrun, _⟩ := C43_conservation h
  rw [hb] at hb'; injection hb' with hb'; subst hb'
  exact ⟨Builder.netOk h.input, f0, cs, hf0, hcs, hrun⟩

theorem sink_iff {i : Nat} {c : Commodity P} (hc : n.commodities[i]? = some c) (v : Nat) : IsSink n i v ↔ v = c.sink := by
  unfold IsSink
  constructor
  · rintro ⟨c', h1, h2⟩
    rw [hc] at h1; injection h1 with h1; subst h1; exact h2.symm
  · rintro rfl; exact ⟨c, hc, rfl⟩

theorem networkRate_nonneg (hn : InputOk n) (v i : Nat) {t : ℚ} (ht : 0 ≤ t) : 0 ≤ networkRate n v i t := by
  unfold networkRate
  cases hc : n.commodities[i]? with
  | none => exact le_rfl
  | some c =>
    simp only
    cases hl : c.sources.lookup v with
    | none => exact le_rfl
    | some f =>
      simp only
      have hok := (hn.source c (List.mem_of_getElem? hc) _ (Combine.lookup_mem' hl)).2.2
      rw [Builder.stepValue_fn hok ht]
      exact inflow_nonneg hok t

/-- The balance of the rates of one commodity over the whole network. -/
theorem rate_balance (h : Building n ord preds d b0 k) {b : Builder P} (hb : rounds ord preds k b0 = .ok b) {i : Nat} {c : Commodity P}
    (hc : n.commodities[i]? = some c) {t : ℚ} (ht : 0 ≤ t) (ht' : t < b.flow.phi) :
    (n.graph.edges.map (fun e => inRate b.flow (n.graph.edge e).id i t)).sum - (n.graph.edges.map (fun e => outRate b.flow (n.graph.edge e).id i t)).sum + arrivals n b.flow i c t
      ≤ enters c t ∧
    (c.sink ∉ c.sources.map Prod.fst → (∀ v ∈ n.graph.nodes, v ≠ c.sink → arriving n b.flow v i t = 0 ∨ eps ≤ arriving n b.flow v i t) →
      (n.graph.edges.map (fun e => inRate b.flow (n.graph.edge e).id i t)).sum - (n.graph.edges.map (fun e => outRate b.flow (n.graph.edge e).id i t)).sum + arrivals n b.flow i c t
        = enters c t) := by
  have hg := h.input.graph
  have hcm := List.mem_of_getElem? hc
  have hr := building_reached h hb
  obtain ⟨b', hb', f0, cs, hist, _, _, _, _, hroute⟩ := C43_conservation h
  rw [hb] at hb'; injection hb' with hb'; subst hb'
  have hsink := h.input.sink c hcm
  have s1 : (n.graph.edges.map (fun e => inRate b.flow (n.graph.edge e).id i t)).sum =
      (n.graph.nodes.map (fun v => ((n.graph.outgoing v).map (fun e => inRate b.flow (n.graph.edge e).id i t)).sum)).sum := by
    rw [← sum_fibers hg.nodes n.graph.nodeFrom (fun e => inRate b.flow (n.graph.edge e).id i t) _ (fun e he => (hg.ends e he).1)]
    congr 1
    refine List.map_congr_left (fun v hv => ?_)
    rw [hg.out v hv]
  have s2 : (n.graph.edges.map (fun e => outRate b.flow (n.graph.edge e).id i t)).sum =
      (n.graph.nodes.map (fun v => ((n.graph.incoming v).map (fun e => outRate b.flow (n.graph.edge e).id i t)).sum)).sum := by
    rw [← sum_fibers hg.nodes n.graph.nodeTo (fun e => outRate b.flow (n.graph.edge e).id i t) _ (fun e he => (hg.ends e he).2)]
    congr 1
    refine List.map_congr_left (fun v hv => ?_)
    rw [hg.inc v hv]
  have s3 : (n.graph.nodes.map (fun v => networkRate n v i t)).sum = enters c t := by
    unfold enters
    rw [← sum_sources hg.nodes (fun f => stepValue f t) c.sources (h.input.keys c hcm) (fun p hp => (h.input.source c hcm p hp).1)]
    congr 1
    refine List.map_congr_left (fun v _ => ?_)
    unfold networkRate
    rw [hc]
    simp only
    cases c.sources.lookup v <;> rfl
  have s4 : (n.graph.nodes.map (fun v => if v = c.sink then 0 else arriving n b.flow v i t)).sum =
      (n.graph.edges.map (fun e => outRate b.flow (n.graph.edge e).id i t)).sum + enters c t - (arrivals n b.flow i c t + networkRate n c.sink i t) := by
    rw [sum_ite_ne hg.nodes hsink (fun v => arriving n b.flow v i t)]
    unfold arriving
    rw [List.sum_map_add, s2, s3]
    rfl
  have anonneg : ∀ v, 0 ≤ arriving n b.flow v i t := by
    intro v
    unfold arriving
    exact add_nonneg (sum_nonneg _ (fun e _ => ((edge_areas hr _ i).1 t ht).2)) (networkRate_nonneg h.input v i ht)
  have stop : ∀ v ∈ n.graph.nodes, IsSink n i v ∨ arriving n b.flow v i t < eps → ((n.graph.outgoing v).map (fun e => inRate b.flow (n.graph.edge e).id i t)).sum = 0 := by
    intro v hv hs
    obtain ⟨K, _, _, hrt⟩ := hroute v hv i t ht ht'
    rw [List.map_congr_left (hrt.stop hs)]
    simp
  have pass : ∀ v ∈ n.graph.nodes, v ≠ c.sink → eps ≤ arriving n b.flow v i t →
      ((n.graph.outgoing v).map (fun e => inRate b.flow (n.graph.edge e).id i t)).sum = arriving n b.flow v i t :=
    fun v hv hne he => C43_balance h hb hv ht ht' (fun hs => hne ((sink_iff hc v).mp hs)) he
  have nr := networkRate_nonneg h.input c.sink i ht
  constructor
  · have hle := sum_le_sum (f := fun v => ((n.graph.outgoing v).map (fun e => inRate b.flow (n.graph.edge e).id i t)).sum)
      (g := fun v => if v = c.sink then 0 else arriving n b.flow v i t) n.graph.nodes (by
        intro v hv
        by_cases hs : v = c.sink
        · simp only [if_pos hs]
          exact le_of_eq (stop v hv (.inl ((sink_iff hc v).mpr hs)))
        · simp only [if_neg hs]
          rcases lt_or_ge (arriving n b.flow v i t) eps with he | he
          · rw [stop v hv (.inr he)]; exact anonneg v
          · exact le_of_eq (pass v hv hs he))
    rw [s4, ← s1] at hle
    linarith
  · intro hns hall
    have hz : networkRate n c.sink i t = 0 := by
      unfold networkRate
      rw [hc]
      simp only
      have : c.sources.lookup c.sink = none := List.lookup_eq_none_iff.mpr (fun q hq => by
        have : c.sink ≠ q.1 := fun e => hns (by rw [e]; exact List.mem_map.mpr ⟨q, hq, rfl⟩)
        simpa using this)
      rw [this]
    have heq : (n.graph.nodes.map (fun v => ((n.graph.outgoing v).map (fun e => inRate b.flow (n.graph.edge e).id i t)).sum)).sum =
        (n.graph.nodes.map (fun v => if v = c.sink then 0 else arriving n b.flow v i t)).sum := by
      congr 1
      refine List.map_congr_left (fun v hv => ?_)
      by_cases hs : v = c.sink
      · rw [if_pos hs, stop v hv (.inl ((sink_iff hc v).mpr hs))]
      · rw [if_neg hs]
        rcases hall v hv hs with he | he
        · rw [stop v hv (.inr (by rw [he]; exact eps_pos)), he]
        · exact pass v hv hs he
    rw [← s1, s4] at heq
    linarith

/-- **C73.** Whatever the builder has built, of every commodity and up to every time `t ≤ phi`: what arrived at the sink plus what is on the edges is at most what
entered the network, and all of it, if no source is at the sink and no node ever dropped an inflow below `eps`. So no flow is made anywhere. -/
theorem C73_network (h : Building n ord preds d b0 k) {b : Builder P} (hb : rounds ord preds k b0 = .ok b) {i : Nat} {c : Commodity P}
    (hc : n.commodities[i]? = some c) :
    ∃ (In Out : ℚ → ℚ) (I O : Nat → ℚ → ℚ), StepArea (enters c) In ∧ StepArea (arrivals n b.flow i c) Out ∧
      (∀ e, StepArea (inRate b.flow (n.graph.edge e).id i) (I e) ∧ StepArea (outRate b.flow (n.graph.edge e).id i) (O e)) ∧
      ∀ t, 0 ≤ t → t ≤ b.flow.phi → (∀ e, O e t ≤ I e t) ∧ Out t + (n.graph.edges.map (fun e => I e t - O e t)).sum ≤ In t ∧
        (c.sink ∉ c.sources.map Prod.fst →
          (∀ x, 0 ≤ x → x < t → ∀ v ∈ n.graph.nodes, v ≠ c.sink → arriving n b.flow v i x = 0 ∨ eps ≤ arriving n b.flow v i x) →
          Out t + (n.graph.edges.map (fun e => I e t - O e t)).sum = In t) := by
  have hcm := List.mem_of_getElem? hc
  have hr := building_reached h hb
  have hsrc : ∀ p : Nat × RC, ∃ F, p ∈ c.sources → StepArea (fun x => stepValue p.2 x) F := by
    intro p
    by_cases hp : p ∈ c.sources
    · have hok := (h.input.source c hcm p hp).2.2
      obtain ⟨c', hc', s', hs', e1, e2⟩ := h.input.start c hcm p hp
      obtain ⟨F, _, _, _, _, a5, _⟩ := accumulate_spec (fs := [p.2]) (by simpa using hok) (by
        simp only [List.map_cons, List.map_nil, List.flatten_cons, List.flatten_nil, List.append_nil]
        intro x hx y hy hxy
        rcases List.mem_cons.mp hx with rfl | hx
        · rcases List.mem_cons.mp hy with rfl | hy
          · exact absurd hxy (lt_irrefl _)
          · exact h.input.apart c' hc' s' hs' c hcm p hp e1.symm 0 e2 y hy hxy
        · rcases List.mem_cons.mp hy with rfl | hy
          · exact h.input.apart c hcm p hp c' hc' s' hs' e1 x hx 0 e2 hxy
          · exact h.input.apart c hcm p hp c hcm p hp rfl x hx y hy hxy)
      exact ⟨F.fn, fun _ => a5.congr (fun x hx => by simp [Builder.stepValue_fn hok hx])⟩
    · exact ⟨fun _ => 0, fun h => absurd h hp⟩
  choose S hS using hsrc
  have hIn : StepArea (enters c) (fun x => (c.sources.map (fun p => S p x)).sum) := StepArea.sum c.sources (fun p hp => hS p hp)
  choose I O hI hO hIO using fun e : Nat => (edge_areas hr (n.graph.edge e).id i).2
  have hOut : StepArea (arrivals n b.flow i c) (fun x => ((n.graph.incoming c.sink).map (fun e => O e x)).sum) := StepArea.sum _ (fun e _ => hO e)
  have hAll : StepArea (fun x => arrivals n b.flow i c x + (n.graph.edges.map (fun e => inRate b.flow (n.graph.edge e).id i x - outRate b.flow (n.graph.edge e).id i x)).sum)
      (fun x => ((n.graph.incoming c.sink).map (fun e => O e x)).sum + (n.graph.edges.map (fun e => I e x - O e x)).sum) :=
    StepArea.add hOut (StepArea.sum n.graph.edges (fun e _ => StepArea.sub (hI e) (hO e)))
  have hsplit : ∀ x, (n.graph.edges.map (fun e => inRate b.flow (n.graph.edge e).id i x - outRate b.flow (n.graph.edge e).id i x)).sum =
      (n.graph.edges.map (fun e => inRate b.flow (n.graph.edge e).id i x)).sum - (n.graph.edges.map (fun e => outRate b.flow (n.graph.edge e).id i x)).sum := by
    intro x
    generalize n.graph.edges = l
    induction l with
    | nil => simp
    | cons e l ih => simp only [List.map_cons, List.sum_cons, ih]; ring
  refine ⟨_, _, I, O, hIn, hOut, fun e => ⟨hI e, hO e⟩, fun t ht ht' => ⟨fun e => (hIO e t ht ht').2, ?_, ?_⟩⟩
  · have := StepArea.le hAll hIn ht (fun x hx hx' => by
      have := (rate_balance h hb hc hx (lt_of_lt_of_le hx' ht')).1
      rw [hsplit]; linarith) 0 t le_rfl ht le_rfl
    have z1 := hAll.1
    have z2 := hIn.1
    simp only at this z1 z2
    linarith
  · intro hns hdrop
    have h1 := StepArea.le hAll hIn ht (fun x hx hx' => by
      have := (rate_balance h hb hc hx (lt_of_lt_of_le hx' ht')).1
      rw [hsplit]; linarith) 0 t le_rfl ht le_rfl
    have h2 := StepArea.le hIn hAll ht (fun x hx hx' => by
      have := (rate_balance h hb hc hx (lt_of_lt_of_le hx' ht')).2 hns (hdrop x hx hx')
      rw [hsplit]; linarith) 0 t le_rfl ht le_rfl
    have z1 := hAll.1
    have z2 := hIn.1
    simp only at h1 h2 z1 z2
    linarith

/-- **C64**: on a built flow, up to the time it is built, the average travel time is between 0 and the horizon. -/
theorem C64_range (h : Building n ord preds d b0 k) {b : Builder P} (hb : rounds ord preds k b0 = .ok b) {i : Nat} {c : Commodity P}
    (hc : n.commodities[i]? = some c) {horizon : ℚ} (hh : 0 < horizon) (hphi : horizon ≤ b.flow.phi)
    (hin : Apart eps (0 :: (c.sources.map (fun s => s.2.times)).flatten)) (hout : Apart eps (0 :: ((sinkOutflows n b.flow i c).map RC.times).flatten))
    {a : ℚ} (ha : avgTravelTime n b.flow i horizon = .ok a) : 0 ≤ a ∧ a ≤ horizon := by
  obtain ⟨In, Out, A, h1, h2, h3, h4⟩ := C64_avg h.input (building_reached h hb) hc hh hin hout
  obtain ⟨In', Out', I, O, k1, k2, _, k4⟩ := C73_network h hb hc
  have hr := building_reached h hb
  have hcm := List.mem_of_getElem? hc
  have pos1 : ∀ x, 0 ≤ x → 0 ≤ enters c x := by
    intro x hx
    refine sum_nonneg _ (fun p hp => ?_)
    have hok := (h.input.source c hcm p hp).2.2
    rw [Builder.stepValue_fn hok hx]; exact inflow_nonneg hok x
  have pos2 : ∀ x, 0 ≤ x → 0 ≤ arrivals n b.flow i c x := fun x hx => sum_nonneg _ (fun e _ => ((edge_areas hr _ i).1 x hx).2)
  rw [h4] at ha
  split at ha
  · cases ha
  · rename_i hne
    injection ha with ha
    have hpos : 0 < In horizon := lt_of_le_of_ne (by have := h1.mono pos1 le_rfl hh.le; rwa [h1.1] at this) (Ne.symm hne)
    obtain ⟨r1, r2⟩ := h3.range (c := In horizon) hh.le (by
      intro x hx hx'
      have e1 := h1.unique k1 x hx
      have e2 := h2.unique k2 x hx
      obtain ⟨k5, k6, _⟩ := k4 x hx (le_trans hx' hphi)
      have e3 : 0 ≤ (n.graph.edges.map (fun e => I e x - O e x)).sum := sum_nonneg _ (fun e _ => sub_nonneg.mpr (k5 e))
      have e4 := h1.mono pos1 hx hx'
      have e5 := h2.mono pos2 le_rfl hx
      rw [h2.1] at e5
      constructor <;> linarith)
    rw [← ha]
    refine ⟨div_nonneg r1 hpos.le, ?_⟩
    rw [div_le_iff₀ hpos]
    linarith

end

/-- **C72**, hypotheses met: of the sample flow (two commodities, a queue of 3 on edge 0 at time 1), at time 1. -/
example : ∃ s, Reached sampleNet s ∧ 1 ≤ s.phi ∧ (s.queues 0).eval 1 = .ok 3 ∧ inRate s 0 0 (1 / 2) = 3 := by
  obtain ⟨s, hs, hp⟩ := reached_of (calls := sampleCalls) (post := fun s => decide (1 ≤ s.phi) && (decide (((s.queues 0).eval 1).toOption = some 3) &&
    decide (inRate s 0 0 (1 / 2) = 3))) (by unfold sampleCalls; decide +kernel)
  simp only [Bool.and_eq_true, decide_eq_true_eq] at hp
  refine ⟨s, hs, hp.1, ?_, hp.2.2⟩
  cases he : (s.queues 0).eval 1 with
  | error e => rw [he] at hp; cases hp.2.1
  | ok v => rw [he] at hp; injection hp.2.1 with h; rw [h]

/-- **C73** and **C64_range**, hypotheses met: the first commodity of the built example, also those of the exact balance up to time 1, when 3 have entered. -/
example : ∃ b0 b c, Building buildNet List.dedup buildPreds 2 b0 7 ∧ rounds List.dedup buildPreds 7 b0 = .ok b ∧ 6 ≤ b.flow.phi ∧ buildNet.commodities[0]? = some c ∧
    c.sink ∉ c.sources.map Prod.fst ∧ (∀ x, 0 ≤ x → x < 1 → ∀ v ∈ buildNet.graph.nodes, v ≠ c.sink → arriving buildNet b.flow v 0 x = 0 ∨ eps ≤ arriving buildNet b.flow v 0 x) ∧
    enters c (1 / 2) = 3 ∧ avgTravelTime buildNet b.flow 0 6 = .ok 4 := by
  obtain ⟨b0, h1, h2, b, h3, h4⟩ := Builder.buildB_sound (show Builder.buildB List.dedup buildPreds buildNet 2 7 (fun b => decide (6 ≤ b.flow.phi) &&
    decide ((avgTravelTime buildNet b.flow 0 6).toOption = some 4)) = true by decide +kernel)
  simp only [Bool.and_eq_true, decide_eq_true_eq] at h4
  have hB : Building buildNet List.dedup buildPreds 2 { b0 with built := true } 7 := ⟨buildNet_ok, dedup_order, buildPreds_ok, by norm_num, ⟨b0, h1, rfl⟩, h2⟩
  have hr := building_reached hB h3
  refine ⟨_, b, buildNet.commodities[0], hB, h3, h4.1, rfl, by decide +kernel, ?_, by decide +kernel, ?_⟩
  · intro x hx hx' v hv hne
    have hq : ((buildNet.graph.incoming v).map (fun e => outRate b.flow (buildNet.graph.edge e).id 0 x)).sum = 0 := by
      have : ∀ e ∈ buildNet.graph.incoming v, outRate b.flow (buildNet.graph.edge e).id 0 x = 0 := by
        intro e he
        refine C72_travel_time hr _ 0 hx (lt_of_lt_of_le hx' ?_)
        have hall : ∀ v ∈ buildNet.graph.nodes, ∀ e ∈ buildNet.graph.incoming v, 1 ≤ buildNet.data.travelTime (buildNet.graph.edge e).id := by decide +kernel
        exact hall v hv e he
      rw [List.map_congr_left this]; simp
    unfold arriving
    rw [hq, zero_add]
    have hnodes : v = 0 ∨ v = 1 ∨ v = 2 := by
      have : ∀ v ∈ buildNet.graph.nodes, v = 0 ∨ v = 1 ∨ v = 2 := by decide +kernel
      exact this v hv
    rcases hnodes with rfl | rfl | rfl
    · right
      have : networkRate buildNet 0 0 x = 3 := by
        have hok : InflowOk ⟨[0, 2], [3, 0], ((0 : ℚ) : WithBot ℚ), ⊤⟩ := ⟨rfl, by simp, by decide +kernel, by decide +kernel, rfl, rfl, by decide +kernel⟩
        show stepValue ⟨[0, 2], [3, 0], ((0 : ℚ) : WithBot ℚ), ⊤⟩ x = 3
        rw [Builder.stepValue_fn hok hx, RC.fn_cons2 (Builder.inflowOk_wf hok), if_pos (by linarith)]
      rw [this]; unfold eps; norm_num
    · left; rfl
    · exact absurd rfl hne
  · cases he : avgTravelTime buildNet b.flow 0 6 with
    | error e => rw [he] at h4; cases h4.2
    | ok v => rw [he] at h4; injection h4.2 with h; rw [h]

end Verif.Props
