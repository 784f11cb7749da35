import Verif.Proofs.Json
import Verif.Proofs.PredictLinear
import Verif.Props.FlowBuilder

/-! Property theorems C115 and C116 (src/visualization/to_json.py, src/utilities/json_encoder.py): visualisation files tell what the flow is. -/

namespace Verif.Props
open Verif Spec Builder Resume Json

variable {P Q : Type}

theorem visualization_ok {n : Network P} (hn : InputOk n) {positions : List (Nat × ℚ × ℚ)} {colours : List (Nat × List Char)} {s : DFlow}
    (hp : ∀ v ∈ n.graph.nodes, (positions.lookup v).isSome) (hc : ∀ i < n.commodities.length, (colours.lookup i).isSome) : ∃ p, visualization n positions colours s = .ok p := by
  unfold visualization
  obtain ⟨a, ha, _⟩ := mapPy_ok (f := nodeItem positions) (l := n.graph.nodes) (fun v hv => by
    obtain ⟨x, hx⟩ := Option.isSome_iff_exists.mp (hp v hv)
    exact ⟨(v, x), by simp [nodeItem, hx]⟩)
  obtain ⟨b, hb, _⟩ := mapPy_ok (f := edgeItem n) (l := n.graph.edges.zipIdx) (fun x hx => by
    obtain ⟨r, k⟩ := x
    have hk := (List.getElem?_eq_some_iff.mp (List.mem_zipIdx_iff_getElem?.mp hx)).1
    have h1 : k < n.capacity.length := by rw [hn.capLen]; exact hk
    have h2 : k < n.travelTime.length := by rw [hn.ttLen]; exact hk
    refine ⟨(k, n.graph.nodeFrom r, n.graph.nodeTo r, n.capacity[k], n.travelTime[k]), ?_⟩
    unfold edgeItem
    rw [rd_eq_ok.mpr (List.getElem?_eq_getElem h1), ok_bind, rd_eq_ok.mpr (List.getElem?_eq_getElem h2), ok_bind]
    rfl)
  obtain ⟨c, hc, _⟩ := mapPy_ok (f := colourItem colours) (l := List.range n.commodities.length) (fun i hi => by
    obtain ⟨x, hx⟩ := Option.isSome_iff_exists.mp (hc i (List.mem_range.mp hi))
    exact ⟨(i, x), by simp [colourItem, hx]⟩)
  rw [ha, ok_bind, hb, ok_bind, hc, ok_bind]
  exact ⟨_, rfl⟩

/-- **C115**: the visualisation of a flow is written, and it is a JSON text, whenever the nodes have positions and the commodities colours. -/
theorem C115_written {num : ℚ → List Char} (hnum : NumbersOk num) (items : FRC → List (Nat × RC)) {n : Network P} (hn : InputOk n) {positions : List (Nat × ℚ × ℚ)} {colours : List (Nat × List Char)}
    (s : DFlow) (hp : ∀ v ∈ n.graph.nodes, (positions.lookup v).isSome) (hc : ∀ i < n.commodities.length, (colours.lookup i).isSome) :
    ∃ text, toVisualization num items n positions colours n.graph.edges.length s = .ok text ∧ ValueText text := by
  obtain ⟨p, h⟩ := visualization_ok hn (s := s) hp hc
  refine ⟨(pictureTree items n.graph.edges.length p).text num, ?_, text_value hnum _ (pictureTree_plain _ _ _)⟩
  unfold toVisualization dump
  rw [h, ok_bind, picture_tree, ok_bind]
  rfl

theorem visualization_inv {n : Network P} {positions : List (Nat × ℚ × ℚ)} {colours : List (Nat × List Char)} {s : DFlow} {p : Picture (List Char)} (h : visualization n positions colours s = .ok p) :
    p.flow = s ∧ p.nodes.length = n.graph.nodes.length ∧ (∀ (k v : Nat), n.graph.nodes[k]? = some v → ∃ x, positions.lookup v = some x ∧ p.nodes[k]? = some (v, x)) ∧
    p.edges.length = n.graph.edges.length ∧ (∀ (k r : Nat), n.graph.edges[k]? = some r → ∃ c t, n.capacity[k]? = some c ∧ n.travelTime[k]? = some t ∧ p.edges[k]? = some (k, n.graph.nodeFrom r, n.graph.nodeTo r, c, t)) ∧
    p.commodities.length = n.commodities.length ∧ ∀ i < n.commodities.length, ∃ x, colours.lookup i = some x ∧ p.commodities[i]? = some (i, x) := by
  unfold visualization at h
  obtain ⟨a, ha, h⟩ := bind_eq_ok.mp h
  obtain ⟨b, hb, h⟩ := bind_eq_ok.mp h
  obtain ⟨c, hc, h⟩ := bind_eq_ok.mp h
  injection h with h; subst h
  obtain ⟨la, ha⟩ := Builder.mapPy_inv ha
  obtain ⟨lb, hb⟩ := Builder.mapPy_inv hb
  obtain ⟨lc, hc⟩ := Builder.mapPy_inv hc
  rw [List.length_zipIdx] at lb
  rw [List.length_range] at lc
  refine ⟨rfl, la, fun k v hk => ?_, lb, fun k r hk => ?_, lc, fun i hi => ?_⟩
  · obtain ⟨y, y1, y2⟩ := ha k v hk
    unfold nodeItem at y2
    cases hx : positions.lookup v with
    | none => rw [hx] at y2; cases y2
    | some x =>
      rw [hx] at y2; injection y2 with y2; subst y2
      exact ⟨x, rfl, y1⟩
  · obtain ⟨y, y1, y2⟩ := hb k (r, k) (by rw [List.getElem?_zipIdx, hk]; simp)
    unfold edgeItem at y2
    obtain ⟨c, c1, y2⟩ := bind_eq_ok.mp y2
    obtain ⟨t, t1, y2⟩ := bind_eq_ok.mp y2
    injection y2 with y2; subst y2
    exact ⟨c, t, rd_eq_ok.mp c1, rd_eq_ok.mp t1, y1⟩
  · obtain ⟨y, y1, y2⟩ := hc i i (List.getElem?_range hi)
    unfold colourItem at y2
    cases hx : colours.lookup i with
    | none => rw [hx] at y2; cases y2
    | some x =>
      rw [hx] at y2; injection y2 with y2; subst y2
      exact ⟨x, rfl, y1⟩

/-- **C115**: a visualisation tells everything that is in the picture: if two visualisations have the same text, then the networks have the same nodes with the same positions, the same edges with the same
capacities and travel times and equally many commodities with the same colours, and the flows have the same rates of all commodities and the same queues on all edges. -/
theorem C115_faithful {num : ℚ → List Char} (hnum : NumbersOk num) {items : FRC → List (Nat × RC)} {n : Network P} {n' : Network Q} {positions positions' : List (Nat × ℚ × ℚ)}
    {colours colours' : List (Nat × List Char)} {s s' : DFlow} {text : List Char}
    (hs : ∀ e < n.graph.edges.length, ItemsOf items (s.inflow e) ∧ ItemsOf items (s.outflow e)) (hs' : ∀ e < n'.graph.edges.length, ItemsOf items (s'.inflow e) ∧ ItemsOf items (s'.outflow e))
    (h : toVisualization num items n positions colours n.graph.edges.length s = .ok text) (h' : toVisualization num items n' positions' colours' n'.graph.edges.length s' = .ok text) :
    SamePicture n positions colours s n' positions' colours' s' := by
  unfold toVisualization dump at h h'
  obtain ⟨p, hp, h⟩ := bind_eq_ok.mp h
  obtain ⟨p', hp', h'⟩ := bind_eq_ok.mp h'
  rw [picture_tree, ok_bind] at h h'
  injection h with h; injection h' with h'
  obtain ⟨k1, k2, k3, k4, k5, k6, k7⟩ := pictureTree_inj (tree_of_text hnum (h.trans h'.symm))
  obtain ⟨a1, a2, a3, a4, a5, a6, a7⟩ := visualization_inv hp
  obtain ⟨b1, b2, b3, b4, b5, b6, b7⟩ := visualization_inv hp'
  rw [a1, b1] at k5 k6 k7
  rw [← k1] at b2 b3
  rw [← k2] at b4 b5
  rw [← k3] at b6 b7
  have hnodes : n.graph.nodes = n'.graph.nodes := by
    refine List.ext_getElem? (fun k => ?_)
    cases hk : n.graph.nodes[k]? with
    | none =>
      rw [List.getElem?_eq_none_iff] at hk
      exact (List.getElem?_eq_none_iff.mpr (by omega)).symm
    | some v =>
      obtain ⟨x, _, x2⟩ := a3 k v hk
      have hlt := (List.getElem?_eq_some_iff.mp hk).1
      obtain ⟨y, _, y2⟩ := b3 k _ (List.getElem?_eq_getElem (show k < n'.graph.nodes.length by omega))
      rw [x2] at y2; injection y2 with y2; injection y2 with y2 _
      rw [List.getElem?_eq_getElem (show k < n'.graph.nodes.length by omega), y2]
  refine ⟨hnodes, fun v hv => ?_, k4, fun k r r' hr hr' => ?_, fun k hk => ?_, fun k hk => ?_, by omega, fun i hi => ?_, fun e he i => ?_, fun e he i => ?_, fun e he => k7 e he⟩
  · obtain ⟨k, hk⟩ := List.getElem?_of_mem hv
    obtain ⟨x, x1, x2⟩ := a3 k v hk
    obtain ⟨y, y1, y2⟩ := b3 k v (hnodes ▸ hk)
    rw [x2] at y2; injection y2 with y2; injection y2 with _ y2
    rw [x1, y1, y2]
  · obtain ⟨c, t, _, _, x⟩ := a5 k r hr
    obtain ⟨c', t', _, _, y⟩ := b5 k r' hr'
    rw [x] at y; injection y with y
    simp only [Prod.mk.injEq] at y
    exact ⟨y.2.1, y.2.2.1⟩
  · obtain ⟨c, t, hc, _, x⟩ := a5 k _ (List.getElem?_eq_getElem hk)
    obtain ⟨c', t', hc', _, y⟩ := b5 k _ (List.getElem?_eq_getElem (show k < n'.graph.edges.length by omega))
    rw [x] at y; injection y with y
    simp only [Prod.mk.injEq] at y
    rw [hc, hc', y.2.2.2.1]
  · obtain ⟨c, t, _, ht, x⟩ := a5 k _ (List.getElem?_eq_getElem hk)
    obtain ⟨c', t', _, ht', y⟩ := b5 k _ (List.getElem?_eq_getElem (show k < n'.graph.edges.length by omega))
    rw [x] at y; injection y with y
    simp only [Prod.mk.injEq] at y
    rw [ht, ht', y.2.2.2.2]
  · obtain ⟨x, x1, x2⟩ := a7 i hi
    obtain ⟨y, y1, y2⟩ := b7 i (by omega)
    rw [x2] at y2; injection y2 with y2; injection y2 with _ y2
    rw [x1, y1, y2]
  · rw [← (hs e he).1.2 i, ← (hs' e (k4 ▸ he)).1.2 i, k5 e he]
  · rw [← (hs e he).2.2 i, ← (hs' e (k4 ▸ he)).2.2 i, k6 e he]

/-- Numbers written with tally marks: sign, numerator plus one, a point, denominator. -/
def tally (x : ℚ) : List Char := (if x < 0 then ['-'] else []) ++ List.replicate (x.num.natAbs + 1) '1' ++ '.' :: List.replicate x.den '1'

theorem tally_split : ∀ {a b : Nat} {r r' : List Char}, List.replicate a '1' ++ '.' :: r = List.replicate b '1' ++ '.' :: r' → a = b ∧ r = r'
  | 0, 0, r, r', h => by simpa using h
  | 0, b + 1, r, r', h => by simp [List.replicate_succ] at h
  | a + 1, 0, r, r', h => by simp [List.replicate_succ] at h
  | a + 1, b + 1, r, r', h => by
    simp only [List.replicate_succ, List.cons_append, List.cons.injEq, true_and] at h
    obtain ⟨h1, h2⟩ := tally_split h
    exact ⟨by rw [h1], h2⟩

theorem tally_ok : NumbersOk tally := by
  constructor
  · intro x y h
    unfold tally at h
    have key : ∀ (a b : Nat) (r r' : List Char), List.replicate (a + 1) '1' ++ '.' :: r ≠ '-' :: r' := by intro a b r r'; simp [List.replicate_succ]
    by_cases hx : x < 0 <;> by_cases hy : y < 0 <;> simp only [hx, hy, if_true, if_false, List.cons_append, List.nil_append, List.append_assoc, List.cons.injEq, true_and] at h
    · obtain ⟨h1, h2⟩ := tally_split h
      have h2 := congrArg List.length h2
      simp only [List.length_replicate] at h2
      have n1 := Rat.num_neg.mpr hx
      have n2 := Rat.num_neg.mpr hy
      exact Rat.ext (by omega) h2
    · exact absurd h.symm (key _ 0 _ _)
    · exact absurd h (key _ 0 _ _)
    · obtain ⟨h1, h2⟩ := tally_split h
      have h2 := congrArg List.length h2
      simp only [List.length_replicate] at h2
      have n1 := Rat.num_nonneg.mpr (not_lt.mp hx)
      have n2 := Rat.num_nonneg.mpr (not_lt.mp hy)
      exact Rat.ext (by omega) h2
  · intro x
    refine ⟨if x < 0 then ['-'] else [], List.replicate (x.num.natAbs + 1) '1', '.' :: List.replicate x.den '1', [], by simp [tally], by split <;> simp, ⟨⟨by simp, ?_⟩, Or.inr (by simp [List.replicate_succ])⟩,
      Or.inr ⟨_, rfl, by simp [x.den_ne_zero], ?_⟩, Or.inl rfl⟩
    · intro c hc; rw [(List.mem_replicate.mp hc).2]; decide
    · intro c hc; rw [(List.mem_replicate.mp hc).2]; decide

/-- The items of a collection of the commodities 0, 1 and 2. -/
def firstItems (c : FRC) : List (Nat × RC) := ((c.funs 0).map (fun f => (0, f))).toList ++ ((c.funs 1).map (fun f => (1, f))).toList ++ ((c.funs 2).map (fun f => (2, f))).toList

theorem firstItems_ok {c : FRC} (h : ∀ i, c.funs (i + 3) = none) : ItemsOf firstItems c := by
  constructor
  · unfold firstItems; cases c.funs 0 <;> cases c.funs 1 <;> cases c.funs 2 <;> simp
  · intro i
    unfold firstItems
    match i with
    | 0 => cases c.funs 0 <;> cases c.funs 1 <;> cases c.funs 2 <;> rfl
    | 1 => cases c.funs 0 <;> cases c.funs 1 <;> cases c.funs 2 <;> rfl
    | 2 => cases c.funs 0 <;> cases c.funs 1 <;> cases c.funs 2 <;> rfl
    | i + 3 => rw [h i]; cases c.funs 0 <;> cases c.funs 1 <;> cases c.funs 2 <;> rfl

/-- Two commodities, with numbers 0 and 2, that flow on an edge. -/
def shownRates : FRC := ⟨fun i => if i = 0 then some ⟨[0, 1, 3], [0, 2, 0], ((0 : ℚ) : WithBot ℚ), ⊤⟩ else if i = 2 then some ⟨[0, 2], [1, 0], ((0 : ℚ) : WithBot ℚ), ⊤⟩ else none, [],
  ⟨[0], [0], 0, 0, ((0 : ℚ) : WithBot ℚ), ⊤⟩⟩

/-- A flow that shows these rates on all edges. -/
def shownFlow : DFlow := ⟨3, fun _ => shownRates, fun _ => shownRates, fun _ => ⟨[0, 1, 2], [0, 1, 0], 0, 0, ⊥, ⊤⟩, Heap.empty, DepQ.empty⟩

/-- Positions and colours. -/
def shownPlaces : List (Nat × ℚ × ℚ) := [(0, 0, 0), (1, 1, 1 / 2), (2, 2, 0)]
def shownColours : List (Nat × List Char) := [(0, "red".toList), (1, "\"blue\"\n".toList), (2, "grün".toList)]

/-- The hypotheses of C115 are met. -/
example : NumbersOk tally ∧ InputOk buildNet ∧ (∀ v ∈ buildNet.graph.nodes, (shownPlaces.lookup v).isSome) ∧ (∀ i < buildNet.commodities.length, (shownColours.lookup i).isSome) ∧
    (∀ e < buildNet.graph.edges.length, ItemsOf firstItems (shownFlow.inflow e) ∧ ItemsOf firstItems (shownFlow.outflow e)) ∧
    ∃ text, toVisualization tally firstItems buildNet shownPlaces shownColours buildNet.graph.edges.length shownFlow = .ok text ∧ text.length > 1000 := by
  refine ⟨tally_ok, buildNet_ok, by decide +kernel, by decide +kernel, fun e _ => ⟨firstItems_ok fun i => ?_, firstItems_ok fun i => ?_⟩, ?_⟩
  · simp [shownFlow, shownRates]
  · simp [shownFlow, shownRates]
  · obtain ⟨t, h1, _⟩ := C115_written tally_ok firstItems buildNet_ok (positions := shownPlaces) (colours := shownColours) shownFlow (by decide +kernel) (by decide +kernel)
    refine ⟨t, h1, ?_⟩
    have : (match toVisualization tally firstItems buildNet shownPlaces shownColours buildNet.graph.edges.length shownFlow with | .ok t => decide (t.length > 1000) | .error _ => false) = true := by decide +kernel
    rw [h1] at this
    exact of_decide_eq_true this

/-- **C116**, the proved part: the encoder writes every function as a JSON text, and the text tells the function, with its break points, values, slopes and domain. -/
theorem C116_functions_partial {num : ℚ → List Char} (hnum : NumbersOk num) :
    (∀ f : RC, ∃ t, dump num (.step f) = .ok t ∧ ValueText t) ∧ (∀ f : PL, ∃ t, dump num (.linear f) = .ok t ∧ ValueText t) ∧
    (∀ f g : RC, dump num (.step f) = dump num (.step g) → f = g) ∧ (∀ f g : PL, dump num (.linear f) = dump num (.linear g) → f = g) ∧ ∀ (f : RC) (g : PL), dump num (.step f) ≠ dump num (.linear g) := by
  have e1 : ∀ f, dump num (.step f) = .ok ((ofRC f).text num) := fun f => rfl
  have e2 : ∀ f, dump num (.linear f) = .ok ((ofPL f).text num) := fun f => rfl
  refine ⟨fun f => ⟨_, e1 f, text_value hnum _ (ofRC_plain f)⟩, fun f => ⟨_, e2 f, text_value hnum _ (ofPL_plain f)⟩, fun f g h => ?_, fun f g h => ?_, fun f g h => ?_⟩
  · rw [e1, e1] at h; injection h with h; exact ofRC_inj (tree_of_text hnum h)
  · rw [e2, e2] at h; injection h with h; exact ofPL_inj (tree_of_text hnum h)
  · rw [e1, e2] at h; injection h with h
    have := tree_of_text hnum h
    simp [ofRC, ofPL] at this

/-- **C116** fails for flows: what the slide examples give to the encoder contains the collections themselves, which it does not know, so they raise `TypeError` for every flow on a network with edges. -/
theorem C116_slides (num : ℚ → List Char) {m : Nat} (hm : 0 < m) (s : DFlow) : dump num (slideVal m s) = .error .typeErr := by
  obtain ⟨m, rfl⟩ := Nat.exists_eq_succ_of_ne_zero hm.ne'
  unfold dump slideVal
  rw [Val.tree, Val.items, Val.tree]
  rw [List.range_succ_eq_map, List.map_cons, Val.trees]
  rfl

example : NumbersOk tally ∧ 0 < buildNet.graph.edges.length := ⟨tally_ok, by decide⟩

end Verif.Props
