import Verif.Proofs.Earliest
import Verif.Spec.Earliest
import Verif.Proofs.EarliestAverage
import Verif.Props.Conservation
import Verif.Props.Evaluate

/-! Property theorems C92: nobody arrives earlier than it is possible in the flow; C93: the optimal average travel time is a lower bound. -/

namespace Verif.Props
open Verif Verif.Spec Verif.AvgTravelTime Verif.Conservation Verif.Evaluate

variable {P : Type} {n : Network P}

/-- The cumulative inflow of every source. -/
theorem source_areas (hn : InputOk n) {c : Commodity P} (hcm : c ∈ n.commodities) : ∀ p : Nat × RC, ∃ F, p ∈ c.sources → StepArea (fun x => stepValue p.2 x) F := by
  intro p
  by_cases hp : p ∈ c.sources
  · have hok := (hn.source c hcm p hp).2.2
    obtain ⟨c', hc', s', hs', e1, e2⟩ := hn.start c hcm p hp
    obtain ⟨F, _, _, _, _, a5, _⟩ := accumulate_spec (fs := [p.2]) (by simpa using hok) (by
      simp only [List.map_cons, List.map_nil, List.flatten_cons, List.flatten_nil, List.append_nil]
      intro x hx y hy hxy
      rcases List.mem_cons.mp hx with rfl | hx
      · rcases List.mem_cons.mp hy with rfl | hy
        · exact absurd hxy (lt_irrefl _)
        · exact hn.apart c' hc' s' hs' c hcm p hp e1.symm 0 e2 y hy hxy
      · rcases List.mem_cons.mp hy with rfl | hy
        · exact hn.apart c hcm p hp c' hc' s' hs' e1 x hx 0 e2 hxy
        · exact hn.apart c hcm p hp c hcm p hp rfl x hx y hy hxy)
    exact ⟨F.fn, fun _ => a5.congr (fun x hx => by simp [Builder.stepValue_fn hok hx])⟩
  · exact ⟨fun _ => 0, fun h => absurd h hp⟩

/-- The time when one is through edge `e`, with the queue of the end from then on. -/
def throughEdge (n : Network P) (s : DFlow) (e : Nat) (t : ℚ) : ℚ :=
  t + n.data.travelTime (n.graph.edge e).id +
    (match (s.queues (n.graph.edge e).id).eval (min t s.phi) with | .ok q => q | .error _ => 0) / n.data.capacity (n.graph.edge e).id

theorem through_fifo (hn : InputOk n) {s : DFlow} (hr : Reached n.data s) : Fifo n.graph 0 (throughEdge n s) ∧
    ∀ e, ∀ t, 0 ≤ t → t ≤ s.phi → ∃ q, (s.queues (n.graph.edge e).id).eval t = .ok q ∧
      throughEdge n s e t = t + n.data.travelTime (n.graph.edge e).id + q / n.data.capacity (n.graph.edge e).id := by
  obtain ⟨hN, s0, calls, h0, h1, h2⟩ := hr
  obtain ⟨⟨P', C', hx⟩, _⟩ := exact_reach hN h0 h1 h2
  have hphi : 0 ≤ s.phi := by
    obtain ⟨_, _, _, _, _, hh⟩ := hx.edge 0
    exact hh.phi
  refine ⟨⟨fun e _ t ht => ?_, fun e _ x y hx' hxy => ?_⟩, fun e t ht ht' => ?_⟩
  · obtain ⟨_, _, _, _, _, hh⟩ := hx.edge (n.graph.edge e).id
    unfold throughEdge
    rw [PL.eval_eq hh.qwf (DFlow.inDom_all hh.qlo hh.qhi _)]
    have := div_nonneg (hh.laws.q_nonneg (min t s.phi) (hh.dom (le_min ht hphi) (min_le_right _ _))) (hN.cap (n.graph.edge e).id).le
    have := hN.tt (n.graph.edge e).id
    simp only
    linarith
  · obtain ⟨_, _, _, _, _, hh⟩ := hx.edge (n.graph.edge e).id
    unfold throughEdge
    rw [PL.eval_eq hh.qwf (DFlow.inDom_all hh.qlo hh.qhi _), PL.eval_eq hh.qwf (DFlow.inDom_all hh.qlo hh.qhi _)]
    have h3 := hh.laws.exit_mono (hN.cap (n.graph.edge e).id) (hh.dom (le_min hx' hphi) (min_le_right x s.phi)) (hh.dom (le_min (le_trans hx' hxy) hphi) (min_le_right y s.phi))
      (min_le_min_right _ hxy)
    have h4 : x - min x s.phi ≤ y - min y s.phi := by
      rcases le_total x s.phi with a | a
      · rw [min_eq_left a]
        have := min_le_left y s.phi
        linarith
      · rw [min_eq_right a, min_eq_right (le_trans a hxy)]; linarith
    simp only
    linarith
  · obtain ⟨_, _, _, _, _, hh⟩ := hx.edge (n.graph.edge e).id
    refine ⟨_, PL.eval_eq hh.qwf (DFlow.inDom_all hh.qlo hh.qhi t), ?_⟩
    unfold throughEdge
    rw [min_eq_left ht', PL.eval_eq hh.qwf (DFlow.inDom_all hh.qlo hh.qhi t)]

section
variable [DecidableEq P] {ord : List Nat → List Nat} {preds : P → Predictor} {d : ℚ} {b0 : Builder P} {k : Nat}

/-- Out of a node that is not the sink at most what arrives there, out of the sink nothing. -/
theorem out_le_arriving (h : Building n ord preds d b0 k) {b : Builder P} (hb : rounds ord preds k b0 = .ok b) {i : Nat} {c : Commodity P}
    (hc : n.commodities[i]? = some c) {v : Nat} (hv : v ∈ n.graph.nodes) {t : ℚ} (ht : 0 ≤ t) (ht' : t < b.flow.phi) :
    ((n.graph.outgoing v).map (fun e => inRate b.flow (n.graph.edge e).id i t)).sum ≤ if v = c.sink then 0 else arriving n b.flow v i t := by
  have hr := building_reached h hb
  obtain ⟨b', hb', f0, cs, hist, _, _, _, _, hroute⟩ := C43_conservation h
  rw [hb] at hb'; injection hb' with hb'; subst hb'
  have anonneg : 0 ≤ arriving n b.flow v i t := by
    unfold arriving
    exact add_nonneg (sum_nonneg _ (fun e _ => ((edge_areas hr _ i).1 t ht).2)) (networkRate_nonneg h.input v i ht)
  have stop : IsSink n i v ∨ arriving n b.flow v i t < eps → ((n.graph.outgoing v).map (fun e => inRate b.flow (n.graph.edge e).id i t)).sum = 0 := by
    intro hs
    obtain ⟨K, _, _, hrt⟩ := hroute v hv i t ht ht'
    rw [List.map_congr_left (hrt.stop hs)]
    simp
  by_cases hs : v = c.sink
  · rw [if_pos hs]; exact le_of_eq (stop (.inl ((sink_iff hc v).mpr hs)))
  · rw [if_neg hs]
    rcases lt_or_ge (arriving n b.flow v i t) eps with he | he
    · rw [stop (.inr he)]; exact anonneg
    · exact le_of_eq (C43_balance h hb hv ht ht' (fun hs' => hs ((sink_iff hc v).mp hs')) he)

/-- **C92.** Let nobody who leaves source `s` of commodity `i` at time `leave s` be able to arrive at the sink before `T` in the flow that was built, whatever way is taken. Then of the
commodity at most as much arrives up to `T` as entered at the sources up to those times: nobody is faster than possible. -/
theorem C92_not_faster (h : Building n ord preds d b0 k) {b : Builder P} (hb : rounds ord preds k b0 = .ok b) {i : Nat} {c : Commodity P}
    (hc : n.commodities[i]? = some c) :
    ∃ (Out : ℚ → ℚ) (In : Nat × RC → ℚ → ℚ), StepArea (arrivals n b.flow i c) Out ∧ (∀ p ∈ c.sources, StepArea (stepValue p.2) (In p)) ∧
      ∀ arr, Travels n b.flow arr → ∀ (leave : Nat → ℚ) (T : ℚ), T ≤ b.flow.phi → (∀ p ∈ c.sources, 0 ≤ leave p.1 ∧ leave p.1 ≤ T) → 0 ≤ T →
        (∀ p ∈ c.sources, ∀ y, GetsTo n.graph arr n.graph.nodes c.sink p.1 (leave p.1) y → T ≤ y) →
        Out T ≤ (c.sources.map (fun p => In p (leave p.1))).sum := by
  have hg := h.input.graph
  have hcm := List.mem_of_getElem? hc
  have hr := building_reached h hb
  have hsink := h.input.sink c hcm
  choose S hS using source_areas h.input hcm
  choose I O hI hO hIO using fun e : Nat => (edge_areas hr (n.graph.edge e).id i).2
  have hOut : StepArea (arrivals n b.flow i c) (fun x => ((n.graph.incoming c.sink).map (fun e => O e x)).sum) := StepArea.sum _ (fun e _ => hO e)
  refine ⟨_, S, hOut, fun p hp => hS p hp, fun arr harr leave T hT hleave hT0 hno => ?_⟩
  obtain ⟨hfifo, hthr⟩ := through_fifo h.input hr
  have hsame : ∀ e ∈ n.graph.edges, ∀ t, 0 ≤ t → t ≤ b.flow.phi → throughEdge n b.flow e t = arr e t := by
    intro e he t ht ht'
    obtain ⟨tt, cap, q, a1, a2, a3, a4⟩ := harr e he t ht ht'
    obtain ⟨q', b1, b2⟩ := hthr e t ht ht'
    rw [a3] at b1; injection b1 with b1
    rw [b2, a4, ← b1]
    unfold Network.data
    simp only [List.getD_eq_getElem?_getD, a1, a2, Option.getD_some]
  obtain ⟨τ, t1, t2, t3, t4⟩ := Earliest.potential (nodes := n.graph.nodes) hfifo (fun e he => (hg.ends e he).1) (c.sources.map (fun p => (p.1, leave p.1))) hT0 (by
    intro p hp
    obtain ⟨q, hq, rfl⟩ := List.mem_map.mp hp
    exact (hleave q hq).1)
  have hτ : ∀ v, 0 ≤ τ v ∧ τ v ≤ b.flow.phi := fun v => ⟨(t1 v).1, le_trans (t1 v).2 hT⟩
  have hsinkT : τ c.sink = T := by
    rcases t4 c.sink with h' | ⟨p, hp, kk, hk⟩
    · exact h'
    · obtain ⟨q, hq, rfl⟩ := List.mem_map.mp hp
      exact le_antisymm (t1 _).2 (hno q hq _ ⟨kk, Earliest.ride_congr hfifo hsame hk (hleave q hq).1 (hτ _).2⟩)
  -- cumulative network inflow of a node
  have hN : ∀ v, StepArea (networkRate n v i) (fun x => match c.sources.lookup v with | none => 0 | some f => S (v, f) x) := by
    intro v
    have : networkRate n v i = fun x => match c.sources.lookup v with | none => 0 | some f => stepValue f x := by
      funext x; unfold networkRate; rw [hc]; rfl
    rw [this]
    cases hl : c.sources.lookup v with
    | none => exact StepArea.zero
    | some f => exact hS (v, f) (Combine.lookup_mem' hl)
  set N : Nat → ℚ → ℚ := fun v x => match c.sources.lookup v with | none => 0 | some f => S (v, f) x with hNdef
  have hnode : ∀ v ∈ n.graph.nodes, ((n.graph.outgoing v).map (fun e => I e (τ v))).sum ≤
      if v = c.sink then 0 else ((n.graph.incoming v).map (fun e => O e (τ v))).sum + N v (τ v) := by
    intro v hv
    have a1 : StepArea (fun x => ((n.graph.outgoing v).map (fun e => inRate b.flow (n.graph.edge e).id i x)).sum) (fun x => ((n.graph.outgoing v).map (fun e => I e x)).sum) :=
      StepArea.sum _ (fun e _ => hI e)
    by_cases hs : v = c.sink
    · rw [if_pos hs]
      have := StepArea.le a1 StepArea.zero (hτ v).1 (fun x hx hx' => by
        have := out_le_arriving h hb hc hv hx (lt_of_lt_of_le hx' (hτ v).2)
        rwa [if_pos hs] at this) 0 (τ v) le_rfl (hτ v).1 le_rfl
      have z := a1.1
      simp only at this z
      linarith
    · rw [if_neg hs]
      have a2 : StepArea (arriving n b.flow v i) (fun x => ((n.graph.incoming v).map (fun e => O e x)).sum + N v x) :=
        StepArea.add (StepArea.sum _ (fun e _ => hO e)) (hN v)
      have := StepArea.le a1 a2 (hτ v).1 (fun x hx hx' => by
        have := out_le_arriving h hb hc hv hx (lt_of_lt_of_le hx' (hτ v).2)
        rwa [if_neg hs] at this) 0 (τ v) le_rfl (hτ v).1 le_rfl
      have z := a1.1
      have z2 := a2.1
      simp only at this z z2
      linarith
  have hsum := sum_le_sum n.graph.nodes hnode
  rw [sum_ite_ne hg.nodes hsink (fun v => ((n.graph.incoming v).map (fun e => O e (τ v))).sum + N v (τ v)), List.sum_map_add] at hsum
  have s1 : (n.graph.nodes.map (fun v => ((n.graph.outgoing v).map (fun e => I e (τ v))).sum)).sum = (n.graph.edges.map (fun e => I e (τ (n.graph.nodeFrom e)))).sum := by
    rw [← sum_fibers hg.nodes n.graph.nodeFrom (fun e => I e (τ (n.graph.nodeFrom e))) _ (fun e he => (hg.ends e he).1)]
    congr 1
    refine List.map_congr_left (fun v hv => ?_)
    rw [hg.out v hv]
    congr 1
    refine List.map_congr_left (fun e he => ?_)
    rw [of_decide_eq_true (List.mem_filter.mp he).2]
  have s2 : (n.graph.nodes.map (fun v => ((n.graph.incoming v).map (fun e => O e (τ v))).sum)).sum = (n.graph.edges.map (fun e => O e (τ (n.graph.nodeTo e)))).sum := by
    rw [← sum_fibers hg.nodes n.graph.nodeTo (fun e => O e (τ (n.graph.nodeTo e))) _ (fun e he => (hg.ends e he).2)]
    congr 1
    refine List.map_congr_left (fun v hv => ?_)
    rw [hg.inc v hv]
    congr 1
    refine List.map_congr_left (fun e he => ?_)
    rw [of_decide_eq_true (List.mem_filter.mp he).2]
  have s3 : (n.graph.nodes.map (fun v => N v (τ v))).sum = (c.sources.map (fun p => S p (τ p.1))).sum :=
    Earliest.sum_sources_at hg.nodes (fun v f => S (v, f) (τ v)) c.sources (h.input.keys c hcm) (fun p hp => (h.input.source c hcm p hp).1)
  have s4 := sum_le_sum n.graph.edges (f := fun e => O e (τ (n.graph.nodeTo e))) (g := fun e => I e (τ (n.graph.nodeFrom e))) (by
    intro e he
    obtain ⟨q, q1, q2⟩ := (hIO e _ (hτ (n.graph.nodeFrom e)).1 (hτ _).2).1
    rw [← q2]
    refine StepArea.mono (hO e) (fun x hx => ((edge_areas hr _ i).1 x hx).2) (hτ _).1 ?_
    have h3 := t3 e he
    obtain ⟨q', r1, r2⟩ := hthr e _ (hτ (n.graph.nodeFrom e)).1 (hτ _).2
    rw [q1] at r1; injection r1 with r1
    rw [r2, ← r1] at h3
    exact h3)
  have s5 : 0 ≤ N c.sink (τ c.sink) := by
    have := (hN c.sink).mono (fun x hx => networkRate_nonneg h.input c.sink i hx) le_rfl (hτ c.sink).1
    have z := (hN c.sink).1
    simp only at this z
    rw [z] at this
    exact this
  have s6 := sum_le_sum c.sources (f := fun p => S p (τ p.1)) (g := fun p => S p (leave p.1)) (by
    intro p hp
    refine (hS p hp).mono (fun x hx => ?_) (hτ _).1 (t2 (p.1, leave p.1) (List.mem_map.mpr ⟨p, hp, rfl⟩))
    have hok := (h.input.source c hcm p hp).2.2
    rw [Builder.stepValue_fn hok hx]; exact inflow_nonneg hok x)
  rw [s1, s2, s3] at hsum
  rw [hsinkT] at hsum s5
  linarith

/-- **C92**, all sources left at the same time: if nobody who leaves a source at time `leave` can arrive before `T`, at most what entered up to `leave` arrives up to `T`. -/
theorem C92_same_time (h : Building n ord preds d b0 k) {b : Builder P} (hb : rounds ord preds k b0 = .ok b) {i : Nat} {c : Commodity P}
    (hc : n.commodities[i]? = some c) {In Out : ℚ → ℚ} (hIn : StepArea (enters c) In) (hOut : StepArea (arrivals n b.flow i c) Out) {arr : Nat → ℚ → ℚ} (harr : Travels n b.flow arr)
    {leave T : ℚ} (h0 : 0 ≤ leave) (h1 : leave ≤ T) (hT : T ≤ b.flow.phi)
    (hno : ∀ p ∈ c.sources, ∀ y, GetsTo n.graph arr n.graph.nodes c.sink p.1 leave y → T ≤ y) : Out T ≤ In leave := by
  obtain ⟨Out', In', h2, h3, h4⟩ := C92_not_faster h hb hc
  have h5 := h4 arr harr (fun _ => leave) T hT (fun _ _ => ⟨h0, h1⟩) (le_trans h0 h1) hno
  rw [hOut.unique h2 T (le_trans h0 h1), hIn.unique (StepArea.sum c.sources (fun p hp => h3 p hp)) leave h0]
  exact h5

/-- **C93.** The average travel time of a commodity with one source and a constant inflow up to `until_` is not less than the average that belongs to any arrival times that are never
later than possible. -/
theorem C93_lower_bound (h : Building n ord preds d b0 k) {b : Builder P} (hb : rounds ord preds k b0 = .ok b) {i : Nat} {c : Commodity P}
    (hc : n.commodities[i]? = some c) {source : Nat} {f : RC} (hsrc : c.sources = [(source, f)]) {horizon until_ r : ℚ} (hu : 0 < until_) (hu' : until_ ≤ horizon)
    (hphi : horizon ≤ b.flow.phi) (hrate : ∀ x, 0 ≤ x → x < until_ → stepValue f x = r) (hstop : ∀ x, until_ ≤ x → x < horizon → stepValue f x = 0)
    {arr : Nat → ℚ → ℚ} (harr : Travels n b.flow arr) {label : PL} (hmono : NonDecreasing label) (hlater : ∀ t v, label.eval t = .ok v → t ≤ v)
    (hlate : NotTooLate n.graph arr source c.sink label horizon until_) {x : ℚ} (hx : AverageTime label horizon until_ x)
    (hin : Apart eps (0 :: (c.sources.map (fun s => s.2.times)).flatten)) (hout : Apart eps (0 :: ((sinkOutflows n b.flow i c).map RC.times).flatten))
    {a : ℚ} (ha : avgTravelTime n b.flow i horizon = .ok a) : x ≤ a := by
  have hcm := List.mem_of_getElem? hc
  have hr := building_reached h hb
  have hH : 0 < horizon := lt_of_lt_of_le hu hu'
  obtain ⟨In, Out, A', hIn, hOut, hA', hav⟩ := C64_avg h.input hr hc hH hin hout
  obtain ⟨h', F, A, g1, g2, g3, g4, g5, g6⟩ := hx
  have hok : InflowOk f := (h.input.source c hcm (source, f) (by rw [hsrc]; simp)).2.2
  have hent : enters c = fun t => stepValue f t := by
    funext t; unfold enters; rw [hsrc]; simp
  have hr0 : 0 ≤ r := by
    rw [← hrate 0 le_rfl hu, Builder.stepValue_fn hok le_rfl]; exact inflow_nonneg hok 0
  -- what has entered
  have hIn1 : ∀ t, 0 ≤ t → t ≤ until_ → In t = r * t := by
    intro t ht ht'
    have := hIn.const (c := r) le_rfl ht (fun y hy hy' => by rw [hent]; exact hrate y hy (lt_of_lt_of_le hy' ht'))
    rw [hIn.1] at this
    linarith
  have hIn2 : ∀ t, until_ ≤ t → t ≤ horizon → In t = r * until_ := by
    intro t ht ht'
    have := hIn.const (c := 0) hu.le ht (fun y hy hy' => by rw [hent]; exact hstop y hy (lt_of_lt_of_le hy' ht'))
    rw [hIn1 until_ hu.le le_rfl] at this
    linarith
  have hP : AreaUpTo horizon In (fun t => if t ≤ until_ then r * t ^ 2 / 2 else r * until_ ^ 2 / 2 + r * until_ * (t - until_)) := by
    refine ⟨by simp [hu.le], [until_], fun p q hp hpq hq hn => ?_⟩
    have hn' := hn until_ (by simp)
    simp only
    rcases le_or_gt q until_ with h1 | h1
    · rw [if_pos h1, if_pos (le_trans hpq h1), hIn1 p hp (le_trans hpq h1), hIn1 q (le_trans hp hpq) h1]; ring
    · have h2 : until_ ≤ p := not_lt.mp (fun h2 => hn' ⟨h2, h1⟩)
      rw [if_neg (not_le.mpr h1), hIn2 p h2 (le_trans hpq hq), hIn2 q h1.le hq]
      rcases eq_or_lt_of_le h2 with rfl | h2
      · rw [if_pos le_rfl]; ring
      · rw [if_neg (not_le.mpr h2)]; ring
  have hB : AreaUpTo horizon Out (fun t => (if t ≤ until_ then r * t ^ 2 / 2 else r * until_ ^ 2 / 2 + r * until_ * (t - until_)) - A' t) :=
    EarliestAverage.AreaUpTo.congr (EarliestAverage.AreaUpTo.sub hP (EarliestAverage.AreaUpTo.of_lin hA' horizon)) (fun x _ _ => by ring)
  set B : ℚ → ℚ := fun t => (if t ≤ until_ then r * t ^ 2 / 2 else r * until_ ^ 2 / 2 + r * until_ * (t - until_)) - A' t with hBdef
  have hOmono : ∀ x y, 0 ≤ x → x ≤ y → Out x ≤ Out y := fun x y hx hxy =>
    hOut.mono (fun t ht => sum_nonneg _ (fun e _ => ((edge_areas hr _ i).1 t ht).2)) hx hxy
  have hF : ∀ t, 0 ≤ t → t ≤ h' → F t ≤ horizon := by
    intro t ht ht'
    obtain ⟨v, v1, v2⟩ := (g3 t ht (le_trans ht' g2)).mpr ht'
    rw [g4 t ht ht'] at v1; injection v1 with v1; rw [v1]; exact v2
  have hFl : ∀ t, 0 ≤ t → t ≤ h' → t ≤ F t := fun t ht ht' => hlater t _ (g4 t ht ht')
  have hcut : ∀ t T, 0 ≤ t → t ≤ until_ → t ≤ T → T ≤ horizon → (∀ y, GetsTo n.graph arr n.graph.nodes c.sink source t y → T ≤ y) → Out T ≤ r * t := by
    intro t T ht htu htT hT hno
    rw [← hIn1 t ht htu]
    refine C92_same_time h hb hc hIn hOut harr ht htT (le_trans hT hphi) ?_
    intro p hp y hy
    rw [hsrc] at hp
    simp only [List.mem_singleton] at hp
    subst hp
    exact hno y hy
  have hOutF : ∀ t, 0 ≤ t → t ≤ h' → Out (F t) ≤ r * t := by
    intro t ht ht'
    refine hcut t _ ht (le_trans ht' g2) (hFl t ht ht') (hF t ht ht') (fun y hy => ?_)
    rcases lt_or_ge y horizon with hlt | hge
    · obtain ⟨v, v1, v2⟩ := hlate t y ht (le_trans ht' g2) hy hlt
      rw [g4 t ht ht'] at v1; injection v1 with v1; rw [v1]; exact v2
    · exact le_trans (hF t ht ht') hge
  have hOutH : Out horizon ≤ r * h' := by
    rcases eq_or_lt_of_le g2 with he | hlt
    · obtain ⟨In', Out', I, O, k1, k2, _, k4⟩ := C73_network h hb hc
      obtain ⟨k5, k6, _⟩ := k4 horizon hH.le hphi
      have e3 : 0 ≤ (n.graph.edges.map (fun e => I e horizon - O e horizon)).sum := sum_nonneg _ (fun e _ => sub_nonneg.mpr (k5 e))
      rw [hOut.unique k2 horizon hH.le, he, ← hIn2 horizon hu' le_rfl, hIn.unique k1 horizon hH.le]
      linarith
    · have hall : ∀ t, h' < t → t ≤ until_ → Out horizon ≤ r * t := by
        intro t ht htu
        refine hcut t horizon (le_trans g1 ht.le) htu (le_trans htu hu') le_rfl (fun y hy => ?_)
        by_contra hy'
        push Not at hy'
        obtain ⟨v, v1, v2⟩ := hlate t y (le_trans g1 ht.le) htu hy hy'
        exact absurd ((g3 t (le_trans g1 ht.le) htu).mp ⟨v, v1, by linarith⟩) (not_le.mpr ht)
      by_contra hgt
      push Not at hgt
      rcases eq_or_lt_of_le hr0 with hz | hrp
      · have := hall until_ hlt le_rfl
        rw [← hz] at this hgt
        linarith
      · have h1 : h' < Out horizon / r := by rw [lt_div_iff₀ hrp]; linarith
        have h2 : h' < min until_ ((h' + Out horizon / r) / 2) := lt_min hlt (by linarith)
        have h3 := hall _ h2 (min_le_left _ _)
        have h4 : min until_ ((h' + Out horizon / r) / 2) ≤ (h' + Out horizon / r) / 2 := min_le_right _ _
        have h5 : (h' + Out horizon / r) / 2 < Out horizon / r := by linarith
        have h6 : r * min until_ ((h' + Out horizon / r) / 2) < r * (Out horizon / r) := mul_lt_mul_of_pos_left (lt_of_le_of_lt h4 h5) hrp
        have h7 : r * (Out horizon / r) = Out horizon := by field_simp
        linarith
  have hb1 := EarliestAverage.area_bound (F := F) (A := A) hr0 g1 hB hOmono
    (fun x y hx hxy hy => hmono x y _ _ hxy (g4 x hx (le_trans hxy hy)) (g4 y (le_trans hx hxy) hy))
    (fun x hx hx' => ⟨le_trans hx (hFl x hx hx'), hF x hx hx'⟩) hOutF g5
  have hb2 := EarliestAverage.AreaUpTo.le hB (c := Out horizon) (le_trans g1 (hFl h' g1 le_rfl)) (hF h' g1 le_rfl) le_rfl (fun t ht hty => hOmono t _ ht hty)
  have hb3 : Out horizon * (horizon - F h') ≤ r * h' * (horizon - F h') := mul_le_mul_of_nonneg_right hOutH (by have := hF h' g1 le_rfl; linarith)
  rw [hav] at ha
  split at ha
  · cases ha
  rename_i hne
  injection ha with ha
  have hInH := hIn2 horizon hu' le_rfl
  rw [hInH] at ha hne
  have hrp : 0 < r := lt_of_le_of_ne hr0 (fun hz => hne (by rw [← hz]; ring))
  have hBH : B horizon = r * until_ ^ 2 / 2 + r * until_ * (horizon - until_) - A' horizon := by
    rw [hBdef]
    simp only
    rcases eq_or_lt_of_le hu' with he | hlt
    · rw [if_pos he.ge, ← he]; ring
    · rw [if_neg (not_le.mpr hlt)]
  rw [← ha, le_div_iff₀ (mul_pos hrp hu)]
  have : x * (r * until_) = r * (A h' + ((horizon - h') + (horizon - until_)) / 2 * (until_ - h')) := by rw [← g6]; ring
  rw [this]
  nlinarith

/-- **C93** for the reported number, as far as it is true: if the label of the source is good and not too late, the optimal average travel time is at most the average travel time of every
commodity with the same source and sink and a constant inflow. Missing: labels can be too late, see `C93_wrong`. -/
theorem C93_reported_partial (h : Building n ord preds d b0 k) {b : Builder P} (hb : rounds ord preds k b0 = .ok b) {i : Nat} {c : Commodity P}
    (hc : n.commodities[i]? = some c) {source : Nat} {f : RC} (hsrc : c.sources = [(source, f)]) {inflowHorizon : WithTop ℚ} {horizon r : ℚ}
    (hu : (0 : WithTop ℚ) < inflowHorizon) (hphi : horizon ≤ b.flow.phi) (hrate : ∀ x, 0 ≤ x → x < capAt inflowHorizon horizon → stepValue f x = r)
    (hstop : ∀ x, capAt inflowHorizon horizon ≤ x → x < horizon → stepValue f x = 0) {arr : Nat → ℚ → ℚ} (harr : Travels n b.flow arr) {c' : Commodity P} {f' : RC}
    (hsrc' : c'.sources = [(source, f')]) (hsink : c'.sink = c.sink) {fuel : Nat} {labels : Nat → Option PL} (hl : optLabels fuel n b.flow horizon source c'.sink = .ok labels)
    {p : PL} (hp : labels source = some p) (hgood : GoodLabel p) {v : ℚ} (hv : p.eval 0 = .ok v) (hlt : v < horizon)
    (hlate : NotTooLate n.graph arr source c.sink p horizon (capAt inflowHorizon horizon))
    (hin : Apart eps (0 :: (c.sources.map (fun s => s.2.times)).flatten)) (hout : Apart eps (0 :: ((sinkOutflows n b.flow i c).map RC.times).flatten))
    {a : ℚ} (ha : avgTravelTime n b.flow i horizon = .ok a) : ∃ x, optimalAverage fuel n b.flow inflowHorizon horizon c' = .ok x ∧ x ≤ a := by
  obtain ⟨x, x1, x2⟩ := C77_optimal_partial fuel n b.flow inflowHorizon horizon c' source f' hsrc' labels hl p hp hgood hu v hv hlt
  have h0 : 0 < horizon := lt_of_le_of_lt (hgood.later 0 v hv) hlt
  have hcap : 0 < capAt inflowHorizon horizon ∧ capAt inflowHorizon horizon ≤ horizon := by
    cases inflowHorizon with
    | top => exact ⟨h0, le_rfl⟩
    | coe q => exact ⟨lt_min (WithTop.coe_lt_coe.mp hu) h0, min_le_right _ _⟩
  exact ⟨x, x1, C93_lower_bound h hb hc hsrc hcap.1 hcap.2 hphi hrate hstop harr hgood.mono hgood.later hlate x2 hin hout ha⟩

end

/-- One road. The first commodity builds up a queue until time 2, the second one goes on slowly. -/
def drainNet : Network (Fin 1) :=
  { ((Network.empty : Network (Fin 1)).addEdge 0 1 1 1) with
    commodities := [⟨[(0, ⟨[0, 2], [3, 0], ((0 : ℚ) : WithBot ℚ), ⊤⟩)], 1, 0⟩, ⟨[(0, ⟨[0], [(1 / 2)], ((0 : ℚ) : WithBot ℚ), ⊤⟩)], 1, 0⟩] }

theorem drainNet_ok : InputOk drainNet := by
  have hg : Consistent drainNet.graph := by
    refine ⟨by decide +kernel, by decide +kernel, by decide +kernel, by decide +kernel, by decide +kernel, by decide +kernel, ?_⟩
    have : ∀ i : Fin 1, (drainNet.graph.edge (drainNet.graph.edges[i.1]'(by have := i.2; exact this))).id = i.1 := by decide +kernel
    intro i h
    exact this ⟨i, h⟩
  have e01 : Path drainNet.graph 0 1 := Relation.ReflTransGen.single ⟨0, by decide +kernel, rfl, rfl⟩
  have i1 : InflowOk ⟨[0, 2], [3, 0], ((0 : ℚ) : WithBot ℚ), ⊤⟩ := ⟨rfl, by simp, by decide +kernel, by decide +kernel, rfl, rfl, by decide +kernel⟩
  have i2 : InflowOk ⟨[0], [(1 / 2)], ((0 : ℚ) : WithBot ℚ), ⊤⟩ := ⟨rfl, by simp, by decide +kernel, by decide +kernel, rfl, rfl, by decide +kernel⟩
  refine ⟨hg, rfl, rfl, by decide +kernel, by decide +kernel, by decide +kernel, by decide +kernel, ?_, ?_, ?_⟩
  · intro c hc s hs
    simp only [drainNet, List.mem_cons, List.not_mem_nil, or_false] at hc
    rcases hc with rfl | rfl <;> simp only [List.mem_cons, List.not_mem_nil, or_false] at hs <;> subst hs
    · exact ⟨by decide +kernel, e01, i1⟩
    · exact ⟨by decide +kernel, e01, i2⟩
  · decide +kernel
  · unfold eps
    intro c hc s hs c' hc' s' hs'
    revert c hc s hs c' hc' s' hs'
    have : ∀ c ∈ drainNet.commodities, ∀ s ∈ c.sources, ∀ c' ∈ drainNet.commodities, ∀ s' ∈ c'.sources,
      ∀ a ∈ s.2.times, ∀ b ∈ s'.2.times, (a < b → (1 : ℚ) / 10000000000 < b - a) := by decide +kernel
    exact fun c hc s hs c' hc' s' hs' _ => this c hc s hs c' hc' s' hs'

/-- The flow built on that road up to time 10: at that time the queue is still being worked off. -/
theorem drainNet_built : ∃ b0 b, Building drainNet List.dedup (fun _ => Predictors.zero 1) 5 b0 5 ∧ rounds List.dedup (fun _ => Predictors.zero 1) 5 b0 = .ok b ∧ b.flow.phi = 10 ∧
    b.flow.queues 0 = ⟨[0, 2], [0, 5], 0, -1 / 2, ⊥, ⊤⟩ ∧ avgTravelTime drainNet b.flow 1 10 = .ok (7 / 2) ∧
    Apart eps (0 :: ((sinkOutflows drainNet b.flow 1 ⟨[(0, ⟨[0], [(1 / 2)], ((0 : ℚ) : WithBot ℚ), ⊤⟩)], 1, 0⟩).map RC.times).flatten) := by
  obtain ⟨b0, h1, h2, b, h3, h4⟩ := Builder.buildB_sound (show Builder.buildB List.dedup (fun _ => Predictors.zero 1) drainNet 5 5 (fun b => decide (b.flow.phi = 10) &&
    (decide (b.flow.queues 0 = ⟨[0, 2], [0, 5], 0, -1 / 2, ⊥, ⊤⟩) && (decide ((avgTravelTime drainNet b.flow 1 10).toOption = some (7 / 2)) &&
      decide (((sinkOutflows drainNet b.flow 1 ⟨[(0, ⟨[0], [(1 / 2)], ((0 : ℚ) : WithBot ℚ), ⊤⟩)], 1, 0⟩).map RC.times).flatten = [0, 1, 8])))) = true by decide +kernel)
  simp only [Bool.and_eq_true, decide_eq_true_eq] at h4
  refine ⟨_, b, ⟨drainNet_ok, dedup_order, ?_, by norm_num, ⟨b0, h1, rfl⟩, h2⟩, h3, h4.1, h4.2.1, ?_, ?_⟩
  · intro p f0 f calls t h0 hc hr _ ht
    exact Predictors.zero_ok drainNet_ok t f
  · cases he : avgTravelTime drainNet b.flow 1 10 with
    | error e => rw [he] at h4; cases h4.2.2.1
    | ok v => rw [he] at h4; injection h4.2.2.1 with h; rw [h]
  · rw [h4.2.2.2]
    unfold Apart eps
    decide +kernel

/-- **C93** is false of the code: on that road everybody takes the only way and the second commodity needs 7/2 on average until time 10, but the "optimal" average is said to be 37/10. The search
lets the cost of every edge grow with slope 1 after its last break point, although the queue is being worked off. So the reported slowdown is negative. -/
theorem C93_wrong : ∃ b0 b c, Building drainNet List.dedup (fun _ => Predictors.zero 1) 5 b0 5 ∧ rounds List.dedup (fun _ => Predictors.zero 1) 5 b0 = .ok b ∧ b.flow.phi = 10 ∧
    drainNet.commodities[1]? = some c ∧ avgTravelTime drainNet b.flow 1 10 = .ok (7 / 2) ∧ optimalAverage 4 drainNet b.flow ⊤ 10 c = .ok (37 / 10) := by
  obtain ⟨b0, b, h1, h2, h3, h4, h5, _⟩ := drainNet_built
  refine ⟨b0, b, ⟨[(0, ⟨[0], [(1 / 2)], ((0 : ℚ) : WithBot ℚ), ⊤⟩)], 1, 0⟩, h1, h2, h3, rfl, h5, ?_⟩
  have hcost : Builder.mapPy (fun e => queueCost drainNet 10 (b.flow.queues e) e) (List.range drainNet.graph.edges.length) =
      .ok [⟨[0, 2], [1, 6], 0, -1 / 2, (0 : ℚ), (10 : ℚ)⟩] := by
    have hr : List.range drainNet.graph.edges.length = [0] := rfl
    rw [hr]
    simp only [Builder.mapPy, h4]
    decide +kernel
  have hrest : (do
      let back ← drainNet.graph.nodesReaching 1
      let fwd ← drainNet.graph.reachableNodes 0
      pure (back.filter (· ∈ fwd))) = (.ok [0, 1] : Py (List Nat)) := by decide +kernel
  have hrun : (searchFew 4 drainNet.graph 1 [⟨[0, 2], [1, 6], 0, -1 / 2, (0 : ℚ), (10 : ℚ)⟩] [0, 1] 0 (10 : ℚ)).map (fun l => l 0) =
      .ok (some ⟨[0, 2], [1, 8], 1, 1, (0 : ℚ), (4 : ℚ)⟩) := by decide +kernel
  rw [searchFew_eq] at hrun
  obtain ⟨back, b1, b2⟩ := bind_eq_ok.mp hrest
  obtain ⟨fwd, b3, b4⟩ := bind_eq_ok.mp b2
  have b5 : back.filter (· ∈ fwd) = [0, 1] := by injection b4
  cases hb : BF.bellmanFord 4 drainNet.graph 1 [⟨[0, 2], [1, 6], 0, -1 / 2, (0 : ℚ), (10 : ℚ)⟩] [0, 1] 0 (10 : ℚ) with
  | error e => rw [hb] at hrun; simp [Except.map] at hrun
  | ok labels =>
    rw [hb] at hrun
    have hl : optLabels 4 drainNet b.flow 10 0 1 = .ok labels := by
      unfold optLabels
      rw [hcost, ok_bind, b1, ok_bind, b3, ok_bind, b5]
      exact hb
    have hs : labels 0 = some ⟨[0, 2], [1, 8], 1, 1, (0 : ℚ), (4 : ℚ)⟩ := by simpa [Except.map] using hrun
    show (do
      let labels ← optLabels 4 drainNet b.flow 10 0 1
      match labels 0 with
      | some p => integrateOpt ⊤ 10 p
      | none => noLabel 10 ⊤) = _
    rw [hl, ok_bind, hs]
    decide +kernel

/-- The true arrival times on that road. -/
theorem drain_label : GoodLabel ⟨[0, 2], [1, 8], 1, 1 / 2, (0 : ℚ), (6 : ℚ)⟩ ∧ ∀ t, 0 ≤ t → t ≤ 6 →
    PL.eval ⟨[0, 2], [1, 8], 1, 1 / 2, (0 : ℚ), (6 : ℚ)⟩ t = .ok (if t ≤ 2 then 1 + 7 / 2 * t else 8 + (t - 2) / 2) := by
  have hw : PL.WF ⟨[0, 2], [1, 8], 1, 1 / 2, (0 : ℚ), (6 : ℚ)⟩ := ⟨rfl, by simp, by unfold eps; decide +kernel, by decide +kernel⟩
  have hev : ∀ t, 0 ≤ t → t ≤ 6 → PL.eval ⟨[0, 2], [1, 8], 1, 1 / 2, (0 : ℚ), (6 : ℚ)⟩ t = .ok (if t ≤ 2 then 1 + 7 / 2 * t else 8 + (t - 2) / 2) := by
    intro t h0 h6
    rw [PL.eval_eq hw ⟨WithBot.coe_le_coe.mpr h0, WithTop.coe_le_coe.mpr h6⟩]
    congr 1
    split
    · rename_i h
      rw [PL.fn_mid hw 0 (by simp) (by simpa using h0) (by simpa using h)]
      simp; ring
    · rename_i h
      rw [PL.fn_right hw (by simpa using (not_le.mp h).le)]
      simp; ring
  have hdom : ∀ t v, PL.eval ⟨[0, 2], [1, 8], 1, 1 / 2, (0 : ℚ), (6 : ℚ)⟩ t = .ok v → 0 ≤ t ∧ t ≤ 6 := by
    intro t v hv
    have := (eval_fn hw hv).1
    exact ⟨WithBot.coe_le_coe.mp this.1, WithTop.coe_le_coe.mp this.2⟩
  refine ⟨⟨hw.valid, rfl, ⟨6, rfl, by unfold eps; norm_num⟩, ?_, ?_, ?_⟩, hev⟩
  · intro x y a b hxy ha hb
    obtain ⟨x0, x6⟩ := hdom x a ha
    obtain ⟨y0, y6⟩ := hdom y b hb
    rw [hev x x0 x6] at ha; rw [hev y y0 y6] at hb
    injection ha with ha; injection hb with hb
    rw [← ha, ← hb]
    split <;> split <;> linarith
  · intro t v hv
    obtain ⟨t0, t6⟩ := hdom t v hv
    rw [hev t t0 t6] at hv
    injection hv with hv
    rw [← hv]
    split <;> linarith
  · intro t ht
    simp only [List.mem_cons, List.not_mem_nil, or_false] at ht
    refine ⟨fun _ => ?_, fun e he _ => ?_⟩
    · unfold eps; rcases ht with rfl | rfl <;> norm_num at *
    · have : (6 : ℚ) = e := WithTop.coe_eq_coe.mp he
      subst this
      unfold eps; rcases ht with rfl | rfl <;> norm_num

/-- **C92** and **C93_lower_bound**, hypotheses met: on that road, where a queue grows and is worked off, with the true arrival times; the bound 7/2 is attained. Leaving at time 2 one cannot arrive
before time 8. -/
example : ∃ b0 b c arr, Building drainNet List.dedup (fun _ => Predictors.zero 1) 5 b0 5 ∧ rounds List.dedup (fun _ => Predictors.zero 1) 5 b0 = .ok b ∧ b.flow.phi = 10 ∧
    drainNet.commodities[1]? = some c ∧ c.sources = [(0, ⟨[0], [(1 / 2)], ((0 : ℚ) : WithBot ℚ), ⊤⟩)] ∧ (∀ x, 0 ≤ x → x < 10 → stepValue ⟨[0], [(1 / 2)], ((0 : ℚ) : WithBot ℚ), ⊤⟩ x = 1 / 2) ∧
    Travels drainNet b.flow arr ∧ NotTooLate drainNet.graph arr 0 c.sink ⟨[0, 2], [1, 8], 1, 1 / 2, (0 : ℚ), (6 : ℚ)⟩ 10 10 ∧
    (∀ y, GetsTo drainNet.graph arr drainNet.graph.nodes c.sink 0 2 y → 8 ≤ y) ∧ AverageTime ⟨[0, 2], [1, 8], 1, 1 / 2, (0 : ℚ), (6 : ℚ)⟩ 10 10 (7 / 2) ∧
    Apart eps (0 :: (c.sources.map (fun s => s.2.times)).flatten) ∧ Apart eps (0 :: ((sinkOutflows drainNet b.flow 1 c).map RC.times).flatten) ∧
    avgTravelTime drainNet b.flow 1 10 = .ok (7 / 2) := by
  obtain ⟨b0, b, h1, h2, h3, h4, h5, h6⟩ := drainNet_built
  obtain ⟨g1, g2⟩ := drain_label
  have hfirst : ∀ t y, GetsTo drainNet.graph (fun _ t => t + 1 + (if t ≤ 2 then 5 / 2 * t else 5 - (t - 2) / 2) / 1) drainNet.graph.nodes 1 0 t y →
      y = t + 1 + (if t ≤ 2 then 5 / 2 * t else 5 - (t - 2) / 2) / 1 := by
    rintro t y ⟨k, hk⟩
    generalize hv : (0 : Nat) = v at hk
    cases hk with
    | here => cases hv
    | drive e he hv' h =>
      have he0 : e = 0 := by
        have : ∀ e ∈ drainNet.graph.edges, e = 0 := by decide +kernel
        exact this e he
      subst he0
      generalize hw : drainNet.graph.nodeTo 0 = w at h
      cases h with
      | here => rfl
      | drive e he hv h =>
        have : ∀ e ∈ drainNet.graph.edges, drainNet.graph.nodeTo 0 ≠ drainNet.graph.nodeFrom e := by decide +kernel
        exact absurd hw (this e he)
  refine ⟨b0, b, ⟨[(0, ⟨[0], [(1 / 2)], ((0 : ℚ) : WithBot ℚ), ⊤⟩)], 1, 0⟩, fun _ t => t + 1 + (if t ≤ 2 then 5 / 2 * t else 5 - (t - 2) / 2) / 1, h1, h2, h3, rfl, rfl, ?_, ?_, ?_, ?_, ?_, ?_, h6, h5⟩
  · intro x hx _
    have i2 : InflowOk ⟨[0], [(1 / 2)], ((0 : ℚ) : WithBot ℚ), ⊤⟩ := ⟨rfl, by simp, by decide +kernel, by decide +kernel, rfl, rfl, by decide +kernel⟩
    rw [Builder.stepValue_fn i2 hx]
    unfold RC.fn RC.idx RC.cnt
    simp [hx]
  · intro e he t ht _
    have he0 : e = 0 := by
      have : ∀ e ∈ drainNet.graph.edges, e = 0 := by decide +kernel
      exact this e he
    subst he0
    have hq : b.flow.queues (drainNet.graph.edge 0).id = ⟨[0, 2], [0, 5], 0, -1 / 2, ⊥, ⊤⟩ := h4
    refine ⟨1, 1, if t ≤ 2 then 5 / 2 * t else 5 - (t - 2) / 2, rfl, rfl, ?_, rfl⟩
    rw [hq]
    have hw : PL.WF ⟨[0, 2], [0, 5], 0, -1 / 2, ⊥, ⊤⟩ := ⟨rfl, by simp, by unfold eps; decide +kernel, by simp [PL.inDom]⟩
    rw [PL.eval_eq hw ⟨bot_le, le_top⟩]
    congr 1
    split
    · rename_i h
      rw [PL.fn_mid hw 0 (by simp) (by simpa using ht) (by simpa using h)]
      simp; ring
    · rename_i h
      rw [PL.fn_right hw (by simpa using (not_le.mp h).le)]
      simp; ring
  · intro t y ht ht' hy hlt
    have := hfirst t y hy
    have h6 : t ≤ 6 := by
      by_contra h6
      push Not at h6
      rw [if_neg (by linarith)] at this
      linarith
    refine ⟨_, g2 t ht h6, ?_⟩
    rw [this]
    split <;> linarith
  · intro y hy
    have := hfirst 2 y hy
    rw [if_pos le_rfl] at this
    linarith
  · obtain ⟨x, x1, x2⟩ := C77_average _ g1 10 ⊤ (by simp) 1 (by rw [g2 0 le_rfl (by norm_num)]; norm_num) (by norm_num)
    have : integrateOpt ⊤ 10 ⟨[0, 2], [1, 8], 1, 1 / 2, (0 : ℚ), (6 : ℚ)⟩ = .ok (7 / 2) := by decide +kernel
    rw [this] at x1
    injection x1 with x1
    rw [x1]
    exact x2
  · unfold Apart eps
    decide +kernel

theorem mapPy_inv {α β : Type} {f : α → Py β} : ∀ {l : List α} {ys : List β}, Builder.mapPy f l = .ok ys → ∀ a ∈ l, ∃ y, f a = .ok y := by
  intro l
  induction l with
  | nil => intro _ _ a ha; cases ha
  | cons b l ih =>
    intro ys h a ha
    unfold Builder.mapPy at h
    obtain ⟨y, h1, h2⟩ := bind_eq_ok.mp h
    obtain ⟨zs, h3, _⟩ := bind_eq_ok.mp h2
    rcases List.mem_cons.mp ha with rfl | ha
    · exact ⟨y, h1⟩
    · exact ih h3 a ha

/-- **C93** is also false of the code if the flow was built beyond the horizon and a queue changes there: then no optimal average is computed at all. -/
theorem C93_behind_horizon (n : Network P) (flow : DFlow) (fuel : Nat) (inflowHorizon : WithTop ℚ) (horizon : ℚ) (c : Commodity P) {e : Nat} (he : e < n.graph.edges.length) {t : ℚ}
    (ht : t ∈ (flow.queues e).times) (hlt : horizon < t) (x : ℚ) : optimalAverage fuel n flow inflowHorizon horizon c ≠ .ok x := by
  intro h
  unfold optimalAverage at h
  split at h
  · obtain ⟨labels, h1, _⟩ := bind_eq_ok.mp h
    unfold optLabels at h1
    obtain ⟨costs, h2, _⟩ := bind_eq_ok.mp h1
    obtain ⟨y, hy⟩ := mapPy_inv h2 e (List.mem_range.mpr he)
    unfold queueCost at hy
    obtain ⟨_, _, hy⟩ := bind_eq_ok.mp hy
    obtain ⟨_, _, hy⟩ := bind_eq_ok.mp hy
    obtain ⟨_, _, hy⟩ := bind_eq_ok.mp hy
    obtain ⟨_, _, hy⟩ := bind_eq_ok.mp hy
    obtain ⟨_, _, hy⟩ := bind_eq_ok.mp hy
    obtain ⟨p, hp, _⟩ := bind_eq_ok.mp hy
    obtain ⟨rfl, hw⟩ := PL.new_eq_ok.mp hp
    have := (hw.dom t ht).2
    exact absurd (WithTop.coe_le_coe.mp this) (not_le.mpr hlt)
  · cases h

/-- **C93_behind_horizon**, hypotheses met: two rounds more on that road, when the queue is empty at time 12. -/
example : ∃ b0 b, Building drainNet List.dedup (fun _ => Predictors.zero 1) 5 b0 7 ∧ rounds List.dedup (fun _ => Predictors.zero 1) 7 b0 = .ok b ∧ (12 : ℚ) ∈ (b.flow.queues 0).times := by
  obtain ⟨b0, h1, h2, b, h3, h4⟩ := Builder.buildB_sound (show Builder.buildB List.dedup (fun _ => Predictors.zero 1) drainNet 5 7 (fun b => decide ((12 : ℚ) ∈ (b.flow.queues 0).times)) = true
    by decide +kernel)
  refine ⟨_, b, ⟨drainNet_ok, dedup_order, ?_, by norm_num, ⟨b0, h1, rfl⟩, h2⟩, h3, of_decide_eq_true h4⟩
  intro p f0 f calls t h0 hc hr _ ht
  exact Predictors.zero_ok drainNet_ok t f

end Verif.Props
