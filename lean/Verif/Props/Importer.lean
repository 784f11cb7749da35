import Verif.Proofs.Importer
import Verif.Props.Demands
import Verif.Props.Graph
import Mathlib.Data.List.Infix

/-! Property theorems C88, C89, C90: imported scenarios. -/

namespace Verif.Props
open Verif Verif.Spec Verif.Importer

variable {P : Type}

theorem isMap_empty : IsMap (Network.empty : Network P) [] := ⟨Network.empty_holds, fun v => by simp [Network.empty, Graph.empty, OnRoads]⟩

theorem isMap_add {n : Network P} {l : List Road} (h : IsMap n l) (r : Road) : IsMap (n.addEdge r.tail r.head r.travelTime r.capacity) (l ++ [r]) := by
  obtain ⟨n', h1, h2, _, _⟩ := Network.step_spec (os := []) h.holds (o := .add r) ⟨rfl, trivial⟩
  injection h1 with h1
  subst h1
  refine ⟨h2, fun v => ?_⟩
  obtain ⟨_, _, _, _, _, a6⟩ := Graph.addEdge_spec h.holds.graph h.holds.rev r.tail r.head
  refine (a6 v).trans ?_
  rw [h.nodes v]
  unfold OnRoads
  simp only [List.mem_append, List.mem_singleton]
  constructor
  · rintro (⟨q, q1, q2⟩ | h)
    · exact ⟨q, Or.inl q1, q2⟩
    · exact ⟨r, Or.inr rfl, h⟩
  · rintro ⟨q, q1 | rfl, q2⟩
    · exact Or.inl ⟨q, q1, q2⟩
    · exact Or.inr q2

theorem isMap_path {n : Network P} {l : List Road} (h : IsMap n l) {u v : Nat} : Path n.graph u v ↔ Drive l u v := by
  have hj : ∀ a b, Joins n.graph a b ↔ ∃ r ∈ l, r.tail = a ∧ r.head = b := by
    intro a b
    unfold Joins Graph.nodeFrom Graph.nodeTo
    rw [h.holds.rev]
    simp only [Bool.false_eq_true, if_false]
    have hp := h.holds.pairs
    unfold pairs at hp
    constructor
    · rintro ⟨e, he, h1, h2⟩
      have : ((n.graph.edge e).tail, (n.graph.edge e).head) ∈ l.map (fun r => (r.tail, r.head)) := by rw [← hp]; exact List.mem_map.mpr ⟨e, he, rfl⟩
      obtain ⟨r, r1, r2⟩ := List.mem_map.mp this
      simp only [Prod.mk.injEq] at r2
      exact ⟨r, r1, r2.1.trans h1, r2.2.trans h2⟩
    · rintro ⟨r, hr, h1, h2⟩
      have : (r.tail, r.head) ∈ n.graph.edges.map (fun r => ((n.graph.edge r).tail, (n.graph.edge r).head)) := by rw [hp]; exact List.mem_map.mpr ⟨r, hr, rfl⟩
      obtain ⟨e, e1, e2⟩ := List.mem_map.mp this
      simp only [Prod.mk.injEq] at e2
      exact ⟨e, e1, e2.1.trans h1, e2.2.trans h2⟩
  have : Joins n.graph = fun a b => ∃ r ∈ l, r.tail = a ∧ r.head = b := by
    funext a b; exact propext (hj a b)
  unfold Path Drive
  rw [this]

theorem addRows_isMap : ∀ (rows : List NetRow) {n : Network P} {l : List Road}, IsMap n l → IsMap (addRows rows n) (l ++ rows.map netRoad) ∧ (addRows rows n).commodities = n.commodities := by
  intro rows
  induction rows with
  | nil => intro n l h; simpa [addRows] using h
  | cons r rows ih =>
    intro n l h
    obtain ⟨h1, h2⟩ := ih (isMap_add h (netRoad r))
    refine ⟨?_, h2⟩
    rw [List.append_assoc] at h1
    exact h1

/-- **C88**: `import_network` makes one road per row of the table, in this order, and no commodities. -/
theorem C88_network (rows : List NetRow) : IsMap (importNetwork rows : Network P) (rows.map netRoad) ∧ (importNetwork rows : Network P).commodities = [] := by
  have := addRows_isMap (P := P) rows isMap_empty
  simpa [importNetwork, Network.empty] using this

/-- **C88**: every trip of a file is read, in order, whatever the header, the blanks and the line breaks. -/
theorem C88_trips {readInt : List Char → Option Nat} {readFloat : List Char → Option ℚ} {header : List Char} (hh : ¬ "Origin".toList <:+: header) {blocks : List TripBlock}
    {ls : List (List (List (Nat × Nat × ℚ)))} (h : List.Forall₂ (BlockReads readInt readFloat) blocks ls) :
    readTrips readInt readFloat (tripFile header blocks) = .ok (ls.map List.flatten).flatten := readTrips_ok hh h

theorem demandUntil_ok {horizon : WithTop ℚ} (hh : ∀ h : ℚ, horizon = h → 0 < h) {x : ℚ} (hx : 0 ≤ x) :
    ∃ g, demandUntil x horizon = .ok g ∧ InflowOk g ∧ g.times = drawTimes horizon ∧ ConstantUntil horizon x g := by
  have : demandUntil x horizon = Demands.inflowOf horizon x := by cases horizon <;> rfl
  rw [this]
  exact inflowOf_ok hh hx

theorem addPairs_ok {constant : P} {horizon : WithTop ℚ} (hh : ∀ h : ℚ, horizon = h → 0 < h) : ∀ (trips : List (Nat × Nat × ℚ)) {n : Network P},
    (∀ t ∈ trips, t.1 ∈ n.graph.nodes ∧ t.2.1 ∈ n.graph.nodes ∧ 0 ≤ t.2.2) →
    ∃ cs, addPairs constant horizon trips n = .ok { n with commodities := n.commodities ++ cs } ∧ List.Forall₂ (fun t c => CarriesTrip constant horizon t c ∧
      ∃ f, c.sources = [(t.1, f)] ∧ InflowOk f ∧ f.times = drawTimes horizon) trips cs := by
  intro trips
  induction trips with
  | nil => intro n _; exact ⟨[], by simp [addPairs], .nil⟩
  | cons t trips ih =>
    intro n h
    obtain ⟨o, d, x⟩ := t
    obtain ⟨a1, a2, a3⟩ := h (o, d, x) (by simp)
    obtain ⟨f, f1, f2, f3, f4⟩ := demandUntil_ok hh a3
    obtain ⟨cs, h1, h2⟩ := ih (n := { n with commodities := n.commodities ++ [⟨[(o, f)], d, constant⟩] }) (fun t ht => h t (by simp [ht]))
    refine ⟨⟨[(o, f)], d, constant⟩ :: cs, ?_, .cons ⟨⟨rfl, rfl, f, rfl, f4⟩, f, rfl, f2, f3⟩ h2⟩
    unfold addPairs Network.addCommodity
    rw [f1, ok_bind, pyAssert_true (by simpa using a1), ok_bind, pyAssert_true a2, ok_bind, py_pure, ok_bind, h1]
    simp

/-- **C88**: the commodities of an imported scenario are its trips, one each and in order. -/
theorem C88_commodities {readInt : List Char → Option Nat} {readFloat : List Char → Option ℚ} {constant : P} {horizon : WithTop ℚ} (hh : ∀ h : ℚ, horizon = h → 0 < h) {text : List Char}
    {trips : List (Nat × Nat × ℚ)} (hread : readTrips readInt readFloat text = .ok trips) {n : Network P} {l : List Road} (hn : IsMap n l)
    (htrips : ∀ t ∈ trips, OnRoads l t.1 ∧ OnRoads l t.2.1 ∧ 0 ≤ t.2.2) :
    ∃ n' cs, Importer.addCommodities readInt readFloat constant n text horizon = .ok n' ∧ IsMap n' l ∧ n'.commodities = n.commodities ++ cs ∧ List.Forall₂ (CarriesTrip constant horizon) trips cs := by
  obtain ⟨cs, h1, h2⟩ := addPairs_ok (constant := constant) hh trips (n := n) (fun t ht => by
    obtain ⟨a, b, c⟩ := htrips t ht
    exact ⟨(hn.nodes _).mpr a, (hn.nodes _).mpr b, c⟩)
  refine ⟨{ n with commodities := n.commodities ++ cs }, cs, ?_, ⟨⟨hn.holds.graph, hn.holds.rev, hn.holds.pairs, hn.holds.cap, hn.holds.time⟩, hn.nodes⟩, rfl, h2.imp (fun _ _ h => h.1)⟩
  unfold Importer.addCommodities
  rw [hread, ok_bind, h1]

theorem forall₂_right {α β : Type} {R : α → β → Prop} {l : List α} {l' : List β} (h : List.Forall₂ R l l') : ∀ b ∈ l', ∃ a ∈ l, R a b := by
  induction h with
  | nil => simp
  | cons h _ ih =>
    intro b hb
    rcases List.mem_cons.mp hb with rfl | hb
    · exact ⟨_, by simp, h⟩
    · obtain ⟨a, a1, a2⟩ := ih b hb
      exact ⟨a, by simp [a1], a2⟩

/-- Trips on known roads make a valid input. -/
theorem pairs_valid {constant : P} {horizon : WithTop ℚ} (hh : ∀ h : ℚ, horizon = h → eps < h) {trips : List (Nat × Nat × ℚ)} {rows : List NetRow} (hrows : ∀ r ∈ rows, 0 < r.capacity ∧ 0 ≤ r.time)
    (htrips : ∀ t ∈ trips, OnRoads (rows.map netRoad) t.1 ∧ Drive (rows.map netRoad) t.1 t.2.1 ∧ 0 ≤ t.2.2) :
    ∃ n', addPairs constant horizon trips (importNetwork rows) = .ok n' ∧ InputOk n' ∧ IsMap n' (rows.map netRoad) ∧ List.Forall₂ (CarriesTrip constant horizon) trips n'.commodities := by
  have he := eps_pos
  obtain ⟨hm, hc⟩ := C88_network (P := P) rows
  have hdest : ∀ t ∈ trips, OnRoads (rows.map netRoad) t.2.1 := by
    intro t ht
    obtain ⟨a, b, _⟩ := htrips t ht
    rcases Relation.ReflTransGen.cases_tail b with e | ⟨w, _, r, r1, _, r3⟩
    · rw [e]; exact a
    · exact ⟨r, r1, Or.inr r3.symm⟩
  obtain ⟨cs, h1, h2⟩ := addPairs_ok (constant := constant) (fun h e => lt_trans he (hh h e)) trips (n := importNetwork rows) (fun t ht => by
    obtain ⟨a, b, c⟩ := htrips t ht
    exact ⟨(hm.nodes _).mpr a, (hm.nodes _).mpr (hdest t ht), c⟩)
  have hr := forall₂_right h2
  have hlen : (importNetwork rows : Network P).graph.edges.length = (rows.map netRoad).length := Network.holds_len hm.holds
  have h0 : (0 : ℚ) ∈ drawTimes horizon := by cases horizon <;> simp [drawTimes]
  have hsrc : ∀ c ∈ cs, ∀ s ∈ c.sources, ∃ t ∈ trips, s.1 = t.1 ∧ c.sink = t.2.1 ∧ InflowOk s.2 ∧ s.2.times = drawTimes horizon := by
    intro c hc s hs
    obtain ⟨t, t1, ⟨t2, _⟩, f, f1, f2, f3⟩ := hr c hc
    rw [f1, List.mem_singleton] at hs
    subst hs
    exact ⟨t, t1, rfl, t2, f2, f3⟩
  refine ⟨{ (importNetwork rows : Network P) with commodities := cs }, ?_, ⟨hm.holds.graph, ?_, ?_, ?_, ?_, ?_, ?_, ?_, ?_, ?_⟩, ⟨⟨hm.holds.graph, hm.holds.rev, hm.holds.pairs, hm.holds.cap, hm.holds.time⟩, hm.nodes⟩, h2.imp (fun _ _ h => h.1)⟩
  · rw [h1, hc]; rfl
  · show (importNetwork rows : Network P).capacity.length = _
    rw [hm.holds.cap, List.length_map, hlen]
  · show (importNetwork rows : Network P).travelTime.length = _
    rw [hm.holds.time, List.length_map, hlen]
  · intro c (hc : c ∈ (importNetwork rows : Network P).capacity)
    rw [hm.holds.cap] at hc
    simp only [List.map_map, List.mem_map, Function.comp] at hc
    obtain ⟨r, r1, rfl⟩ := hc
    exact (hrows r r1).1
  · intro c (hc : c ∈ (importNetwork rows : Network P).travelTime)
    rw [hm.holds.time] at hc
    simp only [List.map_map, List.mem_map, Function.comp] at hc
    obtain ⟨r, r1, rfl⟩ := hc
    exact (hrows r r1).2
  · intro c hc
    obtain ⟨t, t1, ⟨t2, _⟩, _⟩ := hr c hc
    rw [t2]; exact (hm.nodes _).mpr (hdest t t1)
  · intro c hc
    obtain ⟨t, t1, _, f, f1, _⟩ := hr c hc
    rw [f1]; simp
  · intro c hc s hs
    obtain ⟨t, t1, t2, t3, t4, _⟩ := hsrc c hc s hs
    obtain ⟨a, b, _⟩ := htrips t t1
    refine ⟨?_, ?_, t4⟩
    · rw [t2]; exact (hm.nodes _).mpr a
    · rw [t2, t3]; exact (isMap_path hm).mpr b
  · intro c hc s hs
    obtain ⟨_, _, _, _, _, t5⟩ := hsrc c hc s hs
    exact ⟨c, hc, s, hs, rfl, by rw [t5]; exact h0⟩
  · intro c hc s hs c' hc' s' hs' _ a ha b hb hab
    obtain ⟨_, _, _, _, _, t5⟩ := hsrc c hc s hs
    obtain ⟨_, _, _, _, _, t5'⟩ := hsrc c' hc' s' hs'
    rw [t5] at ha; rw [t5'] at hb
    cases horizon with
    | top =>
      simp only [drawTimes, List.mem_singleton] at ha hb
      subst ha hb
      exact absurd hab (lt_irrefl _)
    | coe h =>
      have := hh h rfl
      simp only [drawTimes, List.mem_cons, List.not_mem_nil, or_false] at ha hb
      rcases ha with rfl | rfl <;> rcases hb with rfl | rfl
      · exact absurd hab (lt_irrefl _)
      · linarith
      · linarith
      · exact absurd hab (lt_irrefl _)

/-- **C88**: an imported scenario is a valid input of the flow builder if capacities are positive, travel times and demands not negative, and every destination can be reached. -/
theorem C88_valid {readInt : List Char → Option Nat} {readFloat : List Char → Option ℚ} {constant : P} {horizon : WithTop ℚ} (hh : ∀ h : ℚ, horizon = h → eps < h) {text : List Char}
    {trips : List (Nat × Nat × ℚ)} (hread : readTrips readInt readFloat text = .ok trips) {rows : List NetRow} (hrows : ∀ r ∈ rows, 0 < r.capacity ∧ 0 ≤ r.time)
    (htrips : ∀ t ∈ trips, OnRoads (rows.map netRoad) t.1 ∧ Drive (rows.map netRoad) t.1 t.2.1 ∧ 0 ≤ t.2.2) :
    ∃ n', Importer.addCommodities readInt readFloat constant (importNetwork rows) text horizon = .ok n' ∧ InputOk n' := by
  obtain ⟨n', h1, h2, _⟩ := pairs_valid (constant := constant) hh hrows htrips
  refine ⟨n', ?_, h2⟩
  unfold Importer.addCommodities
  rw [hread, ok_bind, h1]

/-- **C88**: a trip from or to an unknown place is refused. -/
theorem C88_refused {readInt : List Char → Option Nat} {readFloat : List Char → Option ℚ} {constant : P} {horizon : WithTop ℚ} (hh : ∀ h : ℚ, horizon = h → 0 < h) {text : List Char}
    {trips : List (Nat × Nat × ℚ)} (hread : readTrips readInt readFloat text = .ok trips) {n : Network P} {l : List Road} (hn : IsMap n l) (hpos : ∀ t ∈ trips, 0 ≤ t.2.2)
    (hbad : ∃ t ∈ trips, ¬ (OnRoads l t.1 ∧ OnRoads l t.2.1)) : Importer.addCommodities readInt readFloat constant n text horizon = .error .assertion := by
  unfold Importer.addCommodities
  rw [hread, ok_bind]
  clear hread
  have hnodes := hn.nodes
  clear hn
  induction trips generalizing n with
  | nil => obtain ⟨t, ht, _⟩ := hbad; cases ht
  | cons t trips ih =>
    obtain ⟨o, d, x⟩ := t
    obtain ⟨f, f1, _⟩ := demandUntil_ok hh (hpos (o, d, x) (by simp))
    unfold addPairs Network.addCommodity
    rw [f1, ok_bind]
    by_cases ho : o ∈ n.graph.nodes
    · rw [pyAssert_true (by simpa using ho), ok_bind]
      by_cases hd : d ∈ n.graph.nodes
      · rw [pyAssert_true hd, ok_bind, py_pure, ok_bind]
        refine ih (fun t ht => hpos t (by simp [ht])) ?_ hnodes
        obtain ⟨t, ht, hb⟩ := hbad
        rcases List.mem_cons.mp ht with rfl | ht
        · exact absurd ⟨(hnodes _).mp ho, (hnodes _).mp hd⟩ hb
        · exact ⟨t, ht, hb⟩
      · rw [show pyAssert (d ∈ n.graph.nodes) = .error .assertion from if_neg hd]; rfl
    · rw [show pyAssert (∀ s ∈ [(o, f)], s.1 ∈ n.graph.nodes) = .error .assertion from if_neg (by simpa using ho)]; rfl

/-- `int` and `float` for the examples: an optional blank before and after a number of one digit. -/
def digitOf (s : List Char) : Option Nat :=
  match s.filter (fun c => c ≠ ' ') with
  | [c] => if '0' ≤ c ∧ c ≤ '9' then some (c.toNat - '0'.toNat) else none
  | _ => none

def exampleRows : List NetRow := [⟨1, 2, 1, 2⟩, ⟨2, 3, 1, 2⟩, ⟨1, 3, 3, 1⟩]

def exampleFile : List Char := "<NUMBER OF ZONES> 3\n<END OF METADATA>\n\nOrigin 1\n 2 : 5; 3 : 4;\nOrigin 2\n 3 : 1;\n\n".toList

/-- The hypotheses of `C88_trips` are met: a file with two blocks. -/
example : exampleFile = tripFile "<NUMBER OF ZONES> 3\n<END OF METADATA>\n\n".toList
      [⟨" 1".toList, [('\n', .trip " 2 ".toList " 5".toList), (';', .trip " 3 ".toList " 4".toList), (';', .blank []), ('\n', .blank [])]⟩,
        ⟨" 2".toList, [('\n', .trip " 3 ".toList " 1".toList), (';', .blank []), ('\n', .blank []), ('\n', .blank [])]⟩] ∧
    ¬ "Origin".toList <:+: "<NUMBER OF ZONES> 3\n<END OF METADATA>\n\n".toList ∧
    readTrips digitOf (fun s => (digitOf s).map (fun k => (k : ℚ))) exampleFile = .ok [(1, 2, 5), (1, 3, 4), (2, 3, 1)] := by
  exact ⟨by decide, by decide +kernel, by decide +kernel⟩

/-- ... and its blocks are well written. -/
example : BlockReads digitOf (fun s => (digitOf s).map (fun k => (k : ℚ))) ⟨" 2".toList, [('\n', .trip " 3 ".toList " 1".toList), (';', .blank []), ('\n', .blank [' '])]⟩ [[(2, 3, 1)], [], []] := by
  refine ⟨by unfold Plain; decide, by decide, 2, by decide, .cons ⟨by unfold Plain; decide, by unfold Plain; decide, 3, 1, by decide, by decide +kernel, rfl⟩
    (.cons ⟨by unfold Plain; decide, by decide, rfl⟩ (.cons ⟨by unfold Plain; decide, by decide, rfl⟩ .nil))⟩

/-- The hypotheses of `C88_valid` are met. -/
example : ∃ n', Importer.addCommodities digitOf (fun s => (digitOf s).map (fun k => (k : ℚ))) () (importNetwork exampleRows) exampleFile ((12 : ℚ) : WithTop ℚ) = .ok n' ∧ InputOk n' := by
  refine C88_valid (trips := [(1, 2, 5), (1, 3, 4), (2, 3, 1)]) (fun h e => ?_) (by decide +kernel) (by decide +kernel) ?_
  · rw [← WithTop.coe_inj.mp e]; unfold eps; norm_num
  · intro t ht
    have hd : ∀ r ∈ exampleRows, Drive (exampleRows.map netRoad) r.init r.term := fun r hr => .single ⟨netRoad r, List.mem_map.mpr ⟨r, hr, rfl⟩, rfl, rfl⟩
    have h1 : OnRoads (exampleRows.map netRoad) 1 := ⟨netRoad ⟨1, 2, 1, 2⟩, by simp [exampleRows], Or.inl rfl⟩
    have h2 : OnRoads (exampleRows.map netRoad) 2 := ⟨netRoad ⟨1, 2, 1, 2⟩, by simp [exampleRows], Or.inr rfl⟩
    simp only [List.mem_cons, List.not_mem_nil, or_false] at ht
    rcases ht with rfl | rfl | rfl
    · exact ⟨h1, hd ⟨1, 2, 1, 2⟩ (by simp [exampleRows]), by norm_num⟩
    · exact ⟨h1, hd ⟨1, 3, 3, 1⟩ (by simp [exampleRows]), by norm_num⟩
    · exact ⟨h2, hd ⟨2, 3, 1, 2⟩ (by simp [exampleRows]), by norm_num⟩

/-- **C88**: trips to places that cannot be reached are imported as well; the flow builder refuses the network. -/
theorem C88_unreachable : ∃ n : Network Unit, Importer.addCommodities digitOf (fun s => (digitOf s).map (fun k => (k : ℚ))) () (importNetwork [⟨1, 2, 1, 2⟩]) "Origin 2\n 1 : 5;".toList ((12 : ℚ) : WithTop ℚ) = .ok n ∧
    n.commodities.length = 1 ∧ Builder.init n (some 1) = .error .assertion := by
  have h : (do
      let n : Network Unit ← Importer.addCommodities digitOf (fun s => (digitOf s).map (fun k => (k : ℚ))) () (importNetwork [⟨1, 2, 1, 2⟩]) "Origin 2\n 1 : 5;".toList ((12 : ℚ) : WithTop ℚ)
      pure n.commodities.length) = .ok 1 := by decide +kernel
  obtain ⟨n, h1, h2⟩ := bind_eq_ok.mp h
  injection h2 with h2
  refine ⟨n, h1, h2, ?_⟩
  have h3 : (do
      let n : Network Unit ← Importer.addCommodities digitOf (fun s => (digitOf s).map (fun k => (k : ℚ))) () (importNetwork [⟨1, 2, 1, 2⟩]) "Origin 2\n 1 : 5;".toList ((12 : ℚ) : WithTop ℚ)
      (Builder.init n (some 1)).map (fun _ => ())) = .error .assertion := by decide +kernel
  rw [h1, ok_bind] at h3
  cases hb : Builder.init n (some 1) with
  | ok b => rw [hb] at h3; cases h3
  | error e =>
    rw [hb] at h3
    simp only [Except.map] at h3
    injection h3 with h3
    rw [h3]

theorem addArcs_isMap : ∀ (rows : List ArcRow) {n : Network P} {l : List Road}, IsMap n l →
    IsMap (addArcs rows n) (l ++ (rows.filter (fun r => r.tail ≠ r.head)).map arcRoad) ∧ (addArcs rows n).commodities = n.commodities := by
  intro rows
  induction rows with
  | nil => intro n l h; simpa [addArcs] using h
  | cons r rows ih =>
    intro n l h
    unfold addArcs
    simp only
    by_cases hr : r.tail = r.head
    · rw [if_pos hr, List.filter_cons_of_neg (by simpa using hr)]
      exact ih h
    · rw [if_neg hr, List.filter_cons_of_pos (by simpa using hr), List.map_cons]
      obtain ⟨h1, h2⟩ := ih (isMap_add h (arcRoad r))
      have hs : (if r.speed > 0 then r.speed else 20) = if r.speed ≤ 0 then 20 else r.speed := by
        by_cases h0 : r.speed ≤ 0
        · rw [if_pos h0, if_neg (not_lt.mpr h0)]
        · rw [if_neg h0, if_pos (not_le.mp h0)]
      rw [List.append_assoc] at h1
      rw [hs]
      exact ⟨h1, h2⟩

/-- **C89**: `network_from_csv` makes one road per row that is no loop, with travel time length / speed and capacity lanes * speed (speed 20 if none is given), and no commodities. -/
theorem C89_network (rows : List ArcRow) : IsMap (networkFromCsv rows : Network P) ((rows.filter (fun r => r.tail ≠ r.head)).map arcRoad) ∧ (networkFromCsv rows : Network P).commodities = [] := by
  have := addArcs_isMap (P := P) rows isMap_empty
  simpa [networkFromCsv, Network.empty] using this

/-- **C89**: a speed and the lanes being positive, capacities are positive and travel times not negative. -/
theorem C89_positive {rows : List ArcRow} (h : ∀ r ∈ rows, 0 ≤ r.length ∧ 0 < r.lanes) : ∀ q ∈ (rows.filter (fun r => r.tail ≠ r.head)).map arcRoad, 0 ≤ q.travelTime ∧ 0 < q.capacity := by
  intro q hq
  obtain ⟨r, hr, rfl⟩ := List.mem_map.mp hq
  obtain ⟨h1, h2⟩ := h r (List.mem_filter.mp hr).1
  unfold arcRoad
  by_cases h0 : r.speed ≤ 0
  · simp only [if_pos h0]; exact ⟨by positivity, by positivity⟩
  · simp only [if_neg h0]
    have := not_le.mp h0
    exact ⟨by positivity, by positivity⟩

/-- **C89** is false: as soon as one row has a sink that can be reached, `add_demands_to_network` raises `TypeError` — it adds no commodity to any network. -/
theorem C89_demands_raise {constant : P} {horizon : ℚ} (hh : 0 < horizon) {useDefault upscale seed : Bool} (hf : seed = !useDefault) (random : Nat → ℚ) {n : Network P} {l : List Road} (hn : IsMap n l)
    {rows : List (Nat × Nat × ℚ)} (hrows : ∀ r ∈ rows, OnRoads l r.1 ∧ OnRoads l r.2.1) (hreach : ∃ r ∈ rows, Drive l r.1 r.2.1) :
    addDemands constant horizon useDefault upscale seed random rows n = .error .typeErr := by
  have key : ∀ (rows : List (Nat × Nat × ℚ)) (i : Nat), (∀ r ∈ rows, OnRoads l r.1 ∧ OnRoads l r.2.1) → (∃ r ∈ rows, Drive l r.1 r.2.1) →
      addDemandRows constant horizon useDefault upscale random i rows n = .error .typeErr := by
    intro rows
    induction rows with
    | nil => rintro i _ ⟨r, hr, _⟩; cases hr
    | cons r rows ih =>
      intro i hrows hreach
      obtain ⟨o, d, x⟩ := r
      obtain ⟨a, b⟩ := hrows (o, d, x) (by simp)
      have ha := (hn.nodes _).mpr a
      have hb := (hn.nodes _).mpr b
      obtain ⟨S, s1, _, s3⟩ := C37_reaching hn.holds.graph hb
      unfold addDemandRows
      rw [if_pos ⟨ha, hb⟩, s1, ok_bind]
      by_cases ho : o ∈ S
      · rw [if_pos ho]
        have hnew : ∃ f, RC.new [0, horizon] [demandOf useDefault upscale (random i) x, 0] ((0 : ℚ) : WithBot ℚ) ⊤ = .ok f := by
          refine ⟨_, RC.new_ok (f := ⟨[0, horizon], [demandOf useDefault upscale (random i) x, 0], ((0 : ℚ) : WithBot ℚ), ⊤⟩) ⟨rfl, by simp, by simpa using hh, ?_⟩⟩
          intro t ht
          simp only [List.mem_cons, List.not_mem_nil, or_false] at ht
          rcases ht with rfl | rfl
          · simp
          · simp [hh.le]
        obtain ⟨f, hf⟩ := hnew
        rw [hf, ok_bind]; rfl
      · rw [if_neg ho]
        refine ih (i + 1) (fun r hr => hrows r (by simp [hr])) ?_
        obtain ⟨r, hr, hd⟩ := hreach
        rcases List.mem_cons.mp hr with rfl | hr
        · exact absurd ((s3 _).mpr ((isMap_path hn).mpr hd)) ho
        · exact ⟨r, hr, hd⟩
  unfold addDemands
  rw [if_neg (by subst hf; cases useDefault <;> simp), if_neg (by subst hf; cases useDefault <;> simp)]
  exact key rows 0 hrows hreach

/-- **C89**, what does hold: with no such row the network is unchanged, and it is refused to give both a seed and the flag for default demands, or neither. -/
theorem C89_demands_partial {constant : P} {horizon : ℚ} {useDefault upscale seed : Bool} (random : Nat → ℚ) {n : Network P} {l : List Road} (hn : IsMap n l) (rows : List (Nat × Nat × ℚ)) :
    (seed = useDefault → addDemands constant horizon useDefault upscale seed random rows n = .error .value) ∧
    (seed = (!useDefault) → (∀ r ∈ rows, OnRoads l r.1 ∧ OnRoads l r.2.1 ∧ ¬ Drive l r.1 r.2.1) → addDemands constant horizon useDefault upscale seed random rows n = .ok n) := by
  constructor
  · rintro rfl
    unfold addDemands
    cases seed <;> simp
  · intro hf hrows
    have key : ∀ (rows : List (Nat × Nat × ℚ)) (i : Nat), (∀ r ∈ rows, OnRoads l r.1 ∧ OnRoads l r.2.1 ∧ ¬ Drive l r.1 r.2.1) →
        addDemandRows constant horizon useDefault upscale random i rows n = .ok n := by
      intro rows
      induction rows with
      | nil => intro i _; rfl
      | cons r rows ih =>
        intro i hrows
        obtain ⟨o, d, x⟩ := r
        obtain ⟨a, b, c⟩ := hrows (o, d, x) (by simp)
        have ha := (hn.nodes _).mpr a
        have hb := (hn.nodes _).mpr b
        obtain ⟨S, s1, _, s3⟩ := C37_reaching hn.holds.graph hb
        unfold addDemandRows
        rw [if_pos ⟨ha, hb⟩, s1, ok_bind, if_neg (fun ho => c ((isMap_path hn).mp ((s3 _).mp ho)))]
        exact ih (i + 1) (fun r hr => hrows r (by simp [hr]))
    unfold addDemands
    rw [if_neg (by subst hf; cases useDefault <;> simp), if_neg (by subst hf; cases useDefault <;> simp)]
    exact key rows 0 hrows

/-- The hypotheses of `C89_demands_raise` and `C89_demands_partial` are met. -/
example : IsMap (networkFromCsv [⟨1, 2, 100, -1, 2⟩, ⟨2, 2, 5, 30, 1⟩, ⟨2, 3, 50, 50, 1⟩] : Network Unit) [⟨1, 2, 5, 40⟩, ⟨2, 3, 1, 50⟩] ∧
    Drive [⟨1, 2, 5, 40⟩, ⟨2, 3, 1, 50⟩] 1 3 ∧ ¬ Drive [⟨1, 2, 5, 40⟩, ⟨2, 3, 1, 50⟩] 3 1 := by
  refine ⟨?_, ?_, ?_⟩
  · have := (C89_network (P := Unit) [⟨1, 2, 100, -1, 2⟩, ⟨2, 2, 5, 30, 1⟩, ⟨2, 3, 50, 50, 1⟩]).1
    have e : (([⟨1, 2, 100, -1, 2⟩, ⟨2, 2, 5, 30, 1⟩, ⟨2, 3, 50, 50, 1⟩] : List ArcRow).filter (fun r => r.tail ≠ r.head)).map arcRoad = [⟨1, 2, 5, 40⟩, ⟨2, 3, 1, 50⟩] := by
      simp [arcRoad]; norm_num
    rw [e] at this
    exact this
  · exact (Relation.ReflTransGen.single ⟨⟨1, 2, 5, 40⟩, by simp, rfl, rfl⟩).tail ⟨⟨2, 3, 1, 50⟩, by simp, rfl, rfl⟩
  · intro h
    rcases Relation.ReflTransGen.cases_head h with e | ⟨w, ⟨r, hr, h1, _⟩, _⟩
    · cases e
    · simp only [List.mem_cons, List.not_mem_nil, or_false] at hr
      rcases hr with rfl | rfl <;> cases h1

theorem drivable_zero (l : List Road) (draw : Nat → Nat × Nat × ℚ) (k rounds : Nat) : drivable l draw k rounds 0 = [] := by simp [drivable]

theorem rounds_succ (draw : Nat → Nat × Nat × ℚ) (k rounds : Nat) : (List.range (rounds + 1)).map (fun i => draw (k + i)) = draw k :: (List.range rounds).map (fun i => draw (k + 1 + i)) := by
  rw [List.range_succ_eq_map, List.map_cons, List.map_map]
  simp only [Nat.add_zero, List.cons.injEq, true_and]
  refine List.map_congr_left (fun i _ => ?_)
  simp only [Function.comp]
  congr 1; omega

theorem drivable_yes {l : List Road} {draw : Nat → Nat × Nat × ℚ} {k : Nat} (h : Drive l (draw k).1 (draw k).2.1) (rounds m : Nat) :
    drivable l draw k (rounds + 1) (m + 1) = draw k :: drivable l draw (k + 1) rounds m := by
  unfold drivable
  rw [rounds_succ, List.filter_cons_of_pos (by simpa using h), List.take_succ_cons]

theorem drivable_no {l : List Road} {draw : Nat → Nat × Nat × ℚ} {k : Nat} (h : ¬ Drive l (draw k).1 (draw k).2.1) (rounds m : Nat) :
    drivable l draw k (rounds + 1) m = drivable l draw (k + 1) rounds m := by
  unfold drivable
  rw [rounds_succ, List.filter_cons_of_neg (by simpa using h)]

theorem generateLoop_ok {constant : P} {number : Nat} {horizon : WithTop ℚ} (hh : ∀ h : ℚ, horizon = h → 0 < h) {l : List Road} {draw : Nat → Nat × Nat × ℚ}
    (hd : ∀ k, OnRoads l (draw k).1 ∧ 0 ≤ (draw k).2.2) : ∀ (fuel k : Nat) {n : Network P}, IsMap n l →
    ((drivable l draw k fuel (number - n.commodities.length)).length = number - n.commodities.length →
      ∃ cs, generateLoop constant number horizon draw fuel k n = .ok { n with commodities := n.commodities ++ cs } ∧
        List.Forall₂ (CarriesTrip constant horizon) (drivable l draw k fuel (number - n.commodities.length)) cs) ∧
    ((drivable l draw k fuel (number - n.commodities.length)).length ≠ number - n.commodities.length → generateLoop constant number horizon draw fuel k n = .error .fuel) := by
  intro fuel
  induction fuel with
  | zero =>
    intro k n hn
    unfold generateLoop
    have h0 : drivable l draw k 0 (number - n.commodities.length) = [] := by simp [drivable]
    rw [h0]
    constructor
    · intro h
      rw [if_neg (by simp at h; omega)]
      exact ⟨[], by simp, .nil⟩
    · intro h
      rw [if_pos (by simp at h; omega)]
  | succ fuel ih =>
    intro k n hn
    unfold generateLoop
    by_cases hlt : n.commodities.length < number
    · obtain ⟨m, hm⟩ : ∃ m, number - n.commodities.length = m + 1 := ⟨number - n.commodities.length - 1, by omega⟩
      rw [if_pos hlt, hm]
      obtain ⟨a, b⟩ := hd k
      obtain ⟨S, s1, _, s3⟩ := C37_reachable hn.holds.graph ((hn.nodes _).mpr a)
      obtain ⟨f, f1, _, _, f4⟩ := demandUntil_ok hh b
      show (_ → ∃ cs, (do
          let reach ← n.graph.reachableNodes (draw k).1
          if (draw k).2.1 ∈ reach then do
            let f ← demandUntil (draw k).2.2 horizon
            generateLoop constant number horizon draw fuel (k + 1) { n with commodities := n.commodities ++ [(⟨[((draw k).1, f)], (draw k).2.1, constant⟩ : Commodity P)] }
          else generateLoop constant number horizon draw fuel (k + 1) n) = _ ∧ _) ∧ (_ → (do
          let reach ← n.graph.reachableNodes (draw k).1
          if (draw k).2.1 ∈ reach then do
            let f ← demandUntil (draw k).2.2 horizon
            generateLoop constant number horizon draw fuel (k + 1) { n with commodities := n.commodities ++ [(⟨[((draw k).1, f)], (draw k).2.1, constant⟩ : Commodity P)] }
          else generateLoop constant number horizon draw fuel (k + 1) n) = _)
      rw [s1, ok_bind]
      by_cases ht : (draw k).2.1 ∈ S
      · have hdr : Drive l (draw k).1 (draw k).2.1 := (isMap_path hn).mp ((s3 _).mp ht)
        rw [if_pos ht, drivable_yes hdr, f1, ok_bind]
        have hn' : IsMap ({ n with commodities := n.commodities ++ [(⟨[((draw k).1, f)], (draw k).2.1, constant⟩ : Commodity P)] } : Network P) l :=
          ⟨⟨hn.holds.graph, hn.holds.rev, hn.holds.pairs, hn.holds.cap, hn.holds.time⟩, hn.nodes⟩
        obtain ⟨i1, i2⟩ := ih (k + 1) hn'
        have hm' : number - (n.commodities ++ [(⟨[((draw k).1, f)], (draw k).2.1, constant⟩ : Commodity P)]).length = m := by simp; omega
        rw [hm'] at i1 i2
        constructor
        · intro h
          obtain ⟨cs, c1, c2⟩ := i1 (by simpa using h)
          exact ⟨⟨[((draw k).1, f)], (draw k).2.1, constant⟩ :: cs, by rw [c1]; simp, .cons ⟨rfl, rfl, f, rfl, f4⟩ c2⟩
        · intro h
          exact i2 (by simpa using h)
      · have hdr : ¬ Drive l (draw k).1 (draw k).2.1 := fun h => ht ((s3 _).mpr ((isMap_path hn).mpr h))
        rw [if_neg ht, drivable_no hdr, ← hm]
        exact ih (k + 1) hn
    · rw [if_neg hlt, show number - n.commodities.length = 0 by omega, drivable_zero]
      exact ⟨fun _ => ⟨[], by simp, .nil⟩, fun h => absurd rfl h⟩

/-- **C90**: `_generate_commodities` fills the network up to the given number of commodities with the first drawn trips that can be driven; it ends when enough of them have been drawn and not before. -/
theorem C90_generated {constant : P} {number : Nat} {horizon : WithTop ℚ} (hh : ∀ h : ℚ, horizon = h → 0 < h) {n : Network P} {l : List Road} (hn : IsMap n l) (hnum : number < n.graph.nodes.length)
    {draw : Nat → Nat × Nat × ℚ} (hd : ∀ k, OnRoads l (draw k).1 ∧ 0 ≤ (draw k).2.2) (fuel : Nat) :
    ((drivable l draw 0 fuel (number - n.commodities.length)).length = number - n.commodities.length → ∃ n' cs r, generateCommodities constant number horizon draw fuel n = .ok (n', r) ∧
      IsMap n' l ∧ n'.commodities = n.commodities ++ cs ∧ n'.commodities.length = max number n.commodities.length ∧
      List.Forall₂ (CarriesTrip constant horizon) (drivable l draw 0 fuel (number - n.commodities.length)) cs) ∧
    ((drivable l draw 0 fuel (number - n.commodities.length)).length < number - n.commodities.length → generateCommodities constant number horizon draw fuel n = .error .fuel) := by
  obtain ⟨h1, h2⟩ := generateLoop_ok (constant := constant) hh hd fuel 0 hn (number := number)
  unfold generateCommodities
  rw [pyAssert_true hnum, ok_bind]
  constructor
  · intro h
    obtain ⟨cs, c1, c2⟩ := h1 h
    refine ⟨{ n with commodities := n.commodities ++ cs }, cs, [], by rw [c1, ok_bind]; rfl, ⟨⟨hn.holds.graph, hn.holds.rev, hn.holds.pairs, hn.holds.cap, hn.holds.time⟩, hn.nodes⟩, rfl, ?_, c2⟩
    show (n.commodities ++ cs).length = _
    rw [List.length_append, ← c2.length_eq, h]
    omega
  · intro h
    rw [h2 (ne_of_lt h)]; rfl

/-- **C90** is false in two respects: the returned list is empty whatever was generated, -/
theorem C90_returns_nothing {constant : P} {number : Nat} {horizon : WithTop ℚ} {n n' : Network P} {draw : Nat → Nat × Nat × ℚ} {fuel : Nat} {r : List (Commodity P)}
    (h : generateCommodities constant number horizon draw fuel n = .ok (n', r)) : r = [] := by
  unfold generateCommodities at h
  obtain ⟨_, _, h⟩ := bind_eq_ok.mp h
  obtain ⟨_, _, h⟩ := bind_eq_ok.mp h
  injection h with h
  injection h with _ h
  exact h.symm

/-- ... and a commodity may start at its sink. -/
theorem C90_same_place : (generateCommodities () 1 ((12 : ℚ) : WithTop ℚ) (fun _ => (1, 1, 3)) 1 (importNetwork [⟨1, 2, 1, 2⟩])).map (fun p => p.1.commodities.map (fun c => (c.sources.map Prod.fst, c.sink))) =
    .ok [([1], 1)] := by decide +kernel

/-- The hypotheses of `C90_generated` are met. -/
example : ∀ k : Nat, OnRoads [⟨1, 2, 1, 2⟩, ⟨2, 3, 1, 2⟩] ((fun k => if k % 2 = 0 then (3, 1, 1) else (1, 3, (4 : ℚ))) k : Nat × Nat × ℚ).1 := by
  intro k
  by_cases h : k % 2 = 0
  · simp only [if_pos h]; exact ⟨⟨2, 3, 1, 2⟩, by simp, Or.inr rfl⟩
  · simp only [if_neg h]; exact ⟨⟨1, 2, 1, 2⟩, by simp, Or.inl rfl⟩

example : (generateCommodities () 2 ((12 : ℚ) : WithTop ℚ) (fun k => if k % 2 = 0 then (3, 1, 1) else (1, 3, 4)) 4 (importNetwork [⟨1, 2, 1, 2⟩, ⟨2, 3, 1, 2⟩])).map
    (fun p => p.1.commodities.map (fun c => (c.sources.map Prod.fst, c.sink))) = .ok [([1], 3), ([1], 3)] := by decide +kernel

end Verif.Props
