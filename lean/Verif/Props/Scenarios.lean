import Verif.Model.Scenarios
import Verif.Props.Importer
import Verif.Props.Terminates
import Verif.Props.Predictors

/-! Property C123 (src/scenarios/nguyen_scenario.py:24-106, src/slide_examples/example1.py:9-45): the networks of the scripts are valid inputs. -/

namespace Verif.Props
open Verif Verif.Spec Verif.Importer Verif.Scenarios

variable {P : Type}

/-- The 19 roads of the Nguyen network: numbered as in the file, times in minutes, capacities per minute (almost 50). -/
def nguyenRoads : List Road :=
  let c : ℚ := 249999999999 / 5000000000
  [⟨1, 12, 5 / 2, c⟩, ⟨1, 5, 5 / 4, c⟩, ⟨12, 6, 5 / 4, c⟩, ⟨12, 8, 5 / 2, c⟩, ⟨4, 5, 5 / 2, c⟩, ⟨5, 6, 5 / 2, c⟩, ⟨6, 7, 5 / 2, c⟩, ⟨7, 8, 5 / 2, c⟩, ⟨4, 9, 15 / 4, c⟩, ⟨5, 9, 5 / 4, c⟩, ⟨6, 10, 5 / 4, c⟩, ⟨7, 11, 5 / 4, c⟩, ⟨8, 2, 5 / 4, c⟩, ⟨9, 10, 5 / 2, c⟩, ⟨10, 11, 5 / 2, c⟩, ⟨11, 2, 5 / 2, c⟩, ⟨9, 13, 15 / 4, c⟩, ⟨11, 3, 5 / 4, c⟩, ⟨13, 3, 5 / 2, c⟩]

/-- Driving along the places of a list. -/
def driveB (l : List Road) : List Nat → Bool
  | a :: b :: r => l.any (fun q => q.tail == a && q.head == b) && driveB l (b :: r)
  | _ => true

theorem driveB_sound {l : List Road} : ∀ (r : List Nat) {a : Nat}, driveB l (a :: r) = true → Drive l a ((a :: r).getLast (by simp)) := by
  intro r
  induction r with
  | nil => intro a _; exact .refl
  | cons b r ih =>
    intro a h
    unfold driveB at h
    simp only [Bool.and_eq_true, List.any_eq_true, beq_iff_eq] at h
    obtain ⟨⟨q, q1, q2, q3⟩, h⟩ := h
    rw [List.getLast_cons (by simp)]
    exact .head ⟨q, q1, q2, q3⟩ (ih h)

/-- **C123**: for every demand and inflow horizon, the network of the Nguyen scenario has the roads of its file and its four commodities, and is a valid input of the flow
builder, which accepts it. -/
theorem C123_nguyen (constant : P) {demand horizon : ℚ} (hd : 0 ≤ demand) (hh : eps < horizon) (interval : Option ℚ) :
    ∃ n b, nguyen constant demand horizon = .ok n ∧ InputOk n ∧ IsMap n nguyenRoads ∧
      List.Forall₂ (CarriesTrip constant horizon) [(1, 2, demand), (1, 3, demand), (4, 2, demand), (4, 3, demand)] n.commodities ∧
      (∀ t ∈ n.travelTime, 0 < t) ∧ Builder.init n interval = .ok b := by
  let rows : List NetRow := nguyenFile.map (fun r => ⟨r.1, r.2.1, r.2.2.2 / 60, r.2.2.1 * 60⟩)
  have hroads : rows.map netRoad = nguyenRoads := by
    simp only [rows, nguyenRoads, nguyenFile, netRoad, List.map_cons, List.map_nil]
    norm_num
  have hnet : (nguyenNetwork : Network P) = importNetwork rows := by
    have : ∀ (l : List (Nat × Nat × ℚ × ℚ)) (n : Network P), addNguyen l n = addRows (l.map (fun r => ⟨r.1, r.2.1, r.2.2.2 / 60, r.2.2.1 * 60⟩)) n := by
      intro l
      induction l with
      | nil => intro n; rfl
      | cons r l ih => intro n; obtain ⟨u, v, c, t⟩ := r; exact ih _
    exact this _ _
  have hrows : ∀ r ∈ rows, 0 < r.capacity ∧ 0 < r.time := by
    have : ∀ r ∈ nguyenFile, 0 < r.2.2.1 * 60 ∧ 0 < r.2.2.2 / 60 := by decide +kernel
    intro r hr
    obtain ⟨q, q1, rfl⟩ := List.mem_map.mp hr
    exact this q q1
  have on1 : OnRoads nguyenRoads 1 := ⟨_, List.mem_cons_self, .inl rfl⟩
  have on4 : OnRoads nguyenRoads 4 := by
    have : nguyenRoads.any (fun q => q.tail == 4) = true := by decide +kernel
    obtain ⟨q, q1, q2⟩ := List.any_eq_true.mp this
    exact ⟨q, q1, .inl (by simpa using (beq_iff_eq.mp q2).symm)⟩
  have d12 : Drive nguyenRoads 1 2 := driveB_sound (a := 1) [12, 8, 2] (by decide +kernel)
  have d13 : Drive nguyenRoads 1 3 := driveB_sound (a := 1) [5, 9, 13, 3] (by decide +kernel)
  have d42 : Drive nguyenRoads 4 2 := driveB_sound (a := 4) [5, 6, 7, 8, 2] (by decide +kernel)
  have d43 : Drive nguyenRoads 4 3 := driveB_sound (a := 4) [9, 13, 3] (by decide +kernel)
  obtain ⟨n, h1, h2, h3, h4⟩ := pairs_valid (constant := constant) (horizon := (horizon : WithTop ℚ)) (fun h e => by rw [← WithTop.coe_inj.mp e]; exact hh)
    (trips := [(1, 2, demand), (1, 3, demand), (4, 2, demand), (4, 3, demand)]) (rows := rows) (fun r hr => ⟨(hrows r hr).1, (hrows r hr).2.le⟩) (by
      rw [hroads]
      intro t ht
      simp only [List.mem_cons, List.not_mem_nil, or_false] at ht
      rcases ht with rfl | rfl | rfl | rfl
      · exact ⟨on1, d12, hd⟩
      · exact ⟨on1, d13, hd⟩
      · exact ⟨on4, d42, hd⟩
      · exact ⟨on4, d43, hd⟩)
  obtain ⟨b, _, hb, _⟩ := Builder.init_spec h2 interval
  refine ⟨n, b, ?_, h2, by rw [← hroads]; exact h3, h4, ?_, hb⟩
  · unfold nguyen; rw [hnet]; exact h1
  · intro t ht
    rw [h3.holds.time] at ht
    simp only [List.map_map, List.mem_map, Function.comp] at ht
    obtain ⟨r, r1, rfl⟩ := ht
    exact (hrows r r1).2

/-- **C123**: hence, with the constant predictor of the training flows and for every reroute interval and every horizon, `build_with_times` ends and returns a flow that reaches the horizon,
provided that the rounds before it touch no tolerance. -/
theorem C123_nguyen_builds [DecidableEq P] (constant : P) {demand inflowHorizon : ℚ} (hd : 0 ≤ demand) (hh : eps < inflowHorizon) {reroute interval horizon : ℚ} (hr : 0 < reroute)
    (hi : interval ≠ 0) (hz : 0 < horizon) {ord : List Nat → List Nat} (hord : OrderOk ord) (tick : Nat → Bool) :
    ∃ n b, nguyen constant demand inflowHorizon = .ok n ∧ Builder.init n (some reroute) = .ok b ∧
      ((∀ k, (∀ m < k, ∃ c, rounds ord (fun _ => Predictors.const n.graph.edges.length) m { b with built := true } = .ok c ∧ c.flow.phi < horizon) →
          ClearRounds ord (fun _ => Predictors.const n.graph.edges.length) { b with built := true } k) →
        ∃ fuel f b', Builder.buildWithTimes ord (fun _ => Predictors.const n.graph.edges.length) interval horizon none false tick fuel b = .ok (f, b') ∧ horizon ≤ f.phi) := by
  obtain ⟨n, b, h1, h2, _, _, h5, h6⟩ := C123_nguyen constant hd hh (some reroute)
  refine ⟨n, b, h1, h6, fun hclear => ?_⟩
  exact C81_terminates h2 hord (fun p f0 f calls t h0 hc hrun _ ht => Predictors.const_ok h2 h0 hc hrun ht) hr h5 h6 hi hz none false tick hclear (fun _ l hl => by cases hl)

/-- **C123**: the network of slide example 1 is a valid input of the flow builder, which accepts it. -/
theorem C123_example1 (zero : P) (interval : Option ℚ) : ∃ n b, example1 zero = .ok n ∧ InputOk n ∧
    IsMap n [⟨0, 1, 200, 20⟩, ⟨1, 2, 200, 10⟩, ⟨3, 1, 200, 10⟩] ∧ (n.commodities.map (fun c => (c.sources.map Prod.fst, c.sink)) = [([0], 2), ([3], 2)]) ∧
    (∀ t ∈ n.travelTime, 0 < t) ∧ Builder.init n interval = .ok b := by
  have i1 : InflowOk ⟨[0, 400, 600, 1200, 1300], [10, 20, 0, 20, 0], ((0 : ℚ) : WithBot ℚ), ⊤⟩ := ⟨rfl, by simp, by decide +kernel, by decide +kernel, rfl, rfl, by decide +kernel⟩
  have i2 : InflowOk ⟨[0, 1200, 1300], [0, 10, 0], ((0 : ℚ) : WithBot ℚ), ⊤⟩ := ⟨rfl, by simp, by decide +kernel, by decide +kernel, rfl, rfl, by decide +kernel⟩
  let m : Network P := ((Network.empty.addEdge 0 1 200 20).addEdge 1 2 200 10).addEdge 3 1 200 10
  let cs : List (Commodity P) := [⟨[(0, ⟨[0, 400, 600, 1200, 1300], [10, 20, 0, 20, 0], ((0 : ℚ) : WithBot ℚ), ⊤⟩)], 2, zero⟩, ⟨[(3, ⟨[0, 1200, 1300], [0, 10, 0], ((0 : ℚ) : WithBot ℚ), ⊤⟩)], 2, zero⟩]
  have hm : IsMap m [⟨0, 1, 200, 20⟩, ⟨1, 2, 200, 10⟩, ⟨3, 1, 200, 10⟩] := isMap_add (isMap_add (isMap_add isMap_empty ⟨0, 1, 200, 20⟩) ⟨1, 2, 200, 10⟩) ⟨3, 1, 200, 10⟩
  have v0 : 0 ∈ m.graph.nodes := (hm.nodes 0).mpr ⟨_, List.mem_cons_self, .inl rfl⟩
  have v2 : 2 ∈ m.graph.nodes := (hm.nodes 2).mpr ⟨_, List.mem_cons_of_mem _ List.mem_cons_self, .inr rfl⟩
  have v3 : 3 ∈ m.graph.nodes := (hm.nodes 3).mpr ⟨_, List.mem_cons_of_mem _ (List.mem_cons_of_mem _ List.mem_cons_self), .inl rfl⟩
  have p0 : Path m.graph 0 2 := (isMap_path hm).mpr (driveB_sound (a := 0) [1, 2] (by decide +kernel))
  have p3 : Path m.graph 3 2 := (isMap_path hm).mpr (driveB_sound (a := 3) [1, 2] (by decide +kernel))
  have hex : example1 zero = .ok { m with commodities := cs } := by
    unfold example1 Network.addCommodity
    simp only
    rw [RC.new_ok (Builder.inflowOk_wf i1), ok_bind, RC.new_ok (Builder.inflowOk_wf i2), pyAssert_true (by simpa using v0), ok_bind, pyAssert_true v2, ok_bind]
    simp only [py_pure, ok_bind]
    rw [pyAssert_true (by simpa using v3), ok_bind, pyAssert_true v2, ok_bind]
    rfl
  have hin : InputOk ({ m with commodities := cs } : Network P) := by
    refine ⟨hm.holds.graph, rfl, rfl, by show ∀ c ∈ ([20, 10, 10] : List ℚ), 0 < c; decide +kernel, by show ∀ c ∈ ([200, 200, 200] : List ℚ), 0 ≤ c; decide +kernel, ?_, ?_, ?_, ?_, ?_⟩ <;>
      simp only [cs, List.mem_cons, List.not_mem_nil, or_false, forall_eq_or_imp, forall_eq, exists_eq_or_imp, exists_eq_left]
    · exact ⟨v2, v2⟩
    · simp
    · exact ⟨⟨v0, p0, i1⟩, v3, p3, i2⟩
    · simp
    · unfold eps
      norm_num
  obtain ⟨b, _, hb, _⟩ := Builder.init_spec hin interval
  exact ⟨_, b, hex, hin, ⟨⟨hm.holds.graph, hm.holds.rev, hm.holds.pairs, hm.holds.cap, hm.holds.time⟩, hm.nodes⟩, rfl, by show ∀ c ∈ ([200, 200, 200] : List ℚ), 0 < c; decide +kernel, hb⟩

/-- A check of the network that a script makes. -/
def madeB (r : Py (Network Nat)) (f : Network Nat → Bool) : Bool :=
  match r with
  | .ok n => f n
  | .error _ => false

/-- The hypotheses of `C123_nguyen_builds` are met with the demand, the inflow horizon and the reroute interval of the script, through the first round. -/
example : (0 : ℚ) ≤ 100 ∧ eps < 12 ∧ (0 : ℚ) < 1 / 8 ∧ ∀ n b k, nguyen (0 : Nat) 100 12 = .ok n → Builder.init n (some (1 / 8)) = .ok b →
    (∀ m < k, ∃ c, rounds List.dedup (fun _ : Nat => Predictors.const n.graph.edges.length) m { b with built := true } = .ok c ∧ c.flow.phi < 1 / 8) →
    ClearRounds List.dedup (fun _ : Nat => Predictors.const n.graph.edges.length) { b with built := true } k := by
  refine ⟨by norm_num, by unfold eps; norm_num, by norm_num, ?_⟩
  intro n b k h1 h2 hk
  have hB : madeB (nguyen 0 100 12) (fun n => Builder.buildB List.dedup (fun _ => Predictors.const n.graph.edges.length) n (1 / 8) 1 (fun b => decide (1 / 8 ≤ b.flow.phi))) = true := by decide +kernel
  unfold madeB at hB
  rw [h1] at hB
  obtain ⟨b0, e1, e2, c, e3, e4⟩ := Builder.buildB_sound hB
  rw [h2] at e1; injection e1 with e1; subst e1
  intro m hm
  have hm5 : m < 1 := by
    by_contra hge
    obtain ⟨c', c1, c2⟩ := hk 1 (by omega)
    rw [e3] at c1; injection c1 with c1; subst c1
    have := of_decide_eq_true e4
    linarith
  exact e2 m hm5

/-- **C123**, slide example 1: with the reroute interval of the script, 5 rounds lead to time 500, and none of them touches a tolerance. -/
example : ∃ n b, example1 (0 : Nat) = .ok n ∧ Builder.init n (some 100) = .ok b ∧ ClearRounds List.dedup (fun _ : Nat => Predictors.zero 3) { b with built := true } 5 ∧
    ∃ c, rounds List.dedup (fun _ : Nat => Predictors.zero 3) 5 { b with built := true } = .ok c ∧ c.flow.phi = 500 := by
  have hB : madeB (example1 0) (fun n => Builder.buildB List.dedup (fun _ => Predictors.zero 3) n 100 5 (fun b => decide (b.flow.phi = 500))) = true := by decide +kernel
  cases h : example1 (0 : Nat) with
  | error e => rw [h] at hB; cases hB
  | ok n =>
    unfold madeB at hB
    rw [h] at hB
    obtain ⟨b0, e1, e2, c, e3, e4⟩ := Builder.buildB_sound hB
    exact ⟨n, b0, rfl, e1, e2, c, e3, of_decide_eq_true e4⟩

end Verif.Props
