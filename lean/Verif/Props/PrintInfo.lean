import Verif.Model.PrintInfo
import Verif.Props.Graph

/-! Property theorems C126 (src/core/network.py:183-213): `print_info`. -/

namespace Verif.Props
open Verif Spec Builder

variable {P : Type}

/-- `m` is the least, `M` the greatest and `a` the average of the numbers. -/
structure Summary (l : List ℚ) (m a M : ℚ) : Prop where
  least : m ∈ l ∧ ∀ x ∈ l, m ≤ x
  average : a * l.length = l.sum
  greatest : M ∈ l ∧ ∀ x ∈ l, x ≤ M

/-- `d` is the greatest value of `f` at the nodes. -/
def Greatest (nodes : List Nat) (f : Nat → Nat) (d : Nat) : Prop := (∃ v ∈ nodes, f v = d) ∧ ∀ v ∈ nodes, f v ≤ d

/-- The number of roads that end at `v`; those that start at `v` if the graph is reversed. -/
def roadsInto (l : List Road) (b : Bool) (v : Nat) : Nat := l.countP (fun r => (if b then r.tail else r.head) = v)

/-- The number of roads that start at `v`; those that end at `v` if the graph is reversed. -/
def roadsFrom (l : List Road) (b : Bool) (v : Nat) : Nat := l.countP (fun r => (if b then r.head else r.tail) = v)

theorem foldl_min_spec : ∀ (l : List ℚ) (x : ℚ), (l.foldl min x ∈ x :: l) ∧ ∀ y ∈ x :: l, l.foldl min x ≤ y := by
  intro l
  induction l with
  | nil => intro x; simp
  | cons z l ih =>
    intro x
    obtain ⟨h1, h2⟩ := ih (min x z)
    rw [List.foldl_cons]
    refine ⟨?_, ?_⟩
    · rcases List.mem_cons.mp h1 with e | h1
      · rw [e]
        rcases min_choice x z with e | e <;> rw [e] <;> simp
      · simp [h1]
    · have hm := h2 _ List.mem_cons_self
      rintro y hy
      rcases List.mem_cons.mp hy with rfl | hy
      · exact le_trans hm (min_le_left _ _)
      · rcases List.mem_cons.mp hy with rfl | hy
        · exact le_trans hm (min_le_right _ _)
        · exact h2 y (List.mem_cons_of_mem _ hy)

theorem foldl_max_spec : ∀ (l : List ℚ) (x : ℚ), (l.foldl max x ∈ x :: l) ∧ ∀ y ∈ x :: l, y ≤ l.foldl max x := by
  intro l
  induction l with
  | nil => intro x; simp
  | cons z l ih =>
    intro x
    obtain ⟨h1, h2⟩ := ih (max x z)
    rw [List.foldl_cons]
    refine ⟨?_, ?_⟩
    · rcases List.mem_cons.mp h1 with e | h1
      · rw [e]
        rcases max_choice x z with e | e <;> rw [e] <;> simp
      · simp [h1]
    · have hm := h2 _ List.mem_cons_self
      rintro y hy
      rcases List.mem_cons.mp hy with rfl | hy
      · exact le_trans (le_max_left _ _) hm
      · rcases List.mem_cons.mp hy with rfl | hy
        · exact le_trans (le_max_right _ _) hm
        · exact h2 y (List.mem_cons_of_mem _ hy)

theorem minAvgMax_spec {l : List ℚ} (h : l ≠ []) : ∃ m a M, minAvgMax l = .ok (m, a, M) ∧ Summary l m a M := by
  cases l with
  | nil => exact absurd rfl h
  | cons x xs =>
    refine ⟨_, _, _, rfl, foldl_min_spec xs x, ?_, foldl_max_spec xs x⟩
    rw [List.length_cons]
    push_cast
    have : (xs.length : ℚ) + 1 ≠ 0 := by positivity
    exact div_mul_cancel₀ _ this

theorem degrees_spec (g : Graph) : ∀ (vs : List Nat) (d : Nat × Nat × Nat),
    (degrees g vs d).1 = vs.foldl (fun a v => max a (g.incoming v).length) d.1 ∧ (degrees g vs d).2.1 = vs.foldl (fun a v => max a (g.outgoing v).length) d.2.1 ∧
    (degrees g vs d).2.2 = vs.foldl (fun a v => max a ((g.incoming v).length + (g.outgoing v).length)) d.2.2 := by
  intro vs
  induction vs with
  | nil => intro d; exact ⟨rfl, rfl, rfl⟩
  | cons v vs ih => intro d; exact ih _

theorem foldl_greatest (f : Nat → Nat) : ∀ (vs : List Nat) (a : Nat), a ≤ vs.foldl (fun a v => max a (f v)) a ∧ (∀ v ∈ vs, f v ≤ vs.foldl (fun a v => max a (f v)) a) ∧
    (vs.foldl (fun a v => max a (f v)) a = a ∨ ∃ v ∈ vs, f v = vs.foldl (fun a v => max a (f v)) a) := by
  intro vs
  induction vs with
  | nil => intro a; simp
  | cons v vs ih =>
    intro a
    obtain ⟨h1, h2, h3⟩ := ih (max a (f v))
    rw [List.foldl_cons]
    refine ⟨le_trans (le_max_left _ _) h1, ?_, ?_⟩
    · rintro w hw
      rcases List.mem_cons.mp hw with rfl | hw
      · exact le_trans (le_max_right _ _) h1
      · exact h2 w hw
    · rcases h3 with h3 | ⟨w, hw, h3⟩
      · rw [h3]
        rcases max_choice a (f v) with e | e
        · exact .inl e
        · exact .inr ⟨v, List.mem_cons_self, e.symm⟩
      · exact .inr ⟨w, List.mem_cons_of_mem _ hw, h3⟩

theorem greatest_fold {nodes : List Nat} (hne : nodes ≠ []) (f : Nat → Nat) : Greatest nodes f (nodes.foldl (fun a v => max a (f v)) 0) := by
  obtain ⟨_, h2, h3⟩ := foldl_greatest f nodes 0
  refine ⟨?_, h2⟩
  rcases h3 with h3 | h3
  · cases nodes with
    | nil => exact absurd rfl hne
    | cons v vs =>
      refine ⟨v, List.mem_cons_self, ?_⟩
      have := h2 v List.mem_cons_self
      rw [h3] at this ⊢
      omega
  · exact h3

theorem greatest_congr {nodes : List Nat} {f g : Nat → Nat} {d : Nat} (h : ∀ v ∈ nodes, f v = g v) (hg : Greatest nodes f d) : Greatest nodes g d := by
  obtain ⟨⟨v, hv, e⟩, h2⟩ := hg
  exact ⟨⟨v, hv, by rw [← h v hv]; exact e⟩, fun w hw => by rw [← h w hw]; exact h2 w hw⟩

theorem degree_of_holds {n : Network P} {l : List Road} {b : Bool} (h : Holds n l b) {v : Nat} (hv : v ∈ n.graph.nodes) :
    (n.graph.incoming v).length = roadsInto l b v ∧ (n.graph.outgoing v).length = roadsFrom l b v := by
  have key : ∀ p : Nat × Nat → Bool, n.graph.edges.countP (fun r => p ((n.graph.edge r).tail, (n.graph.edge r).head)) = l.countP (fun r => p (r.tail, r.head)) := by
    intro p
    have := congrArg (List.countP p) h.pairs
    unfold Spec.pairs at this
    rw [List.countP_map, List.countP_map] at this
    exact this
  rw [h.graph.inc v hv, h.graph.out v hv, ← List.countP_eq_length_filter, ← List.countP_eq_length_filter]
  unfold roadsInto roadsFrom Graph.nodeFrom Graph.nodeTo
  rw [h.rev]
  cases b with
  | false => exact ⟨key (fun p => decide (p.2 = v)), key (fun p => decide (p.1 = v))⟩
  | true => exact ⟨key (fun p => decide (p.1 = v)), key (fun p => decide (p.2 = v))⟩

theorem firsts_ok : ∀ (fs : List RC), (∀ f ∈ fs, f.values ≠ []) → mapPy (fun f : RC => rd f.values 0) fs = .ok (fs.map (fun f => f.values.headD 0)) := by
  intro fs
  induction fs with
  | nil => intro _; rfl
  | cons f fs ih =>
    intro h
    unfold mapPy
    have hf := h f List.mem_cons_self
    cases hv : f.values with
    | nil => exact absurd hv hf
    | cons x xs =>
      rw [show rd (x :: xs) 0 = .ok x from rfl, ok_bind, ih fun g hg => h g (List.mem_cons_of_mem _ hg), ok_bind, List.map_cons, hv]
      rfl

/-- **C126**: for a network with at least one road, `print_info` prints the numbers of nodes, roads and commodities, the least, average and greatest capacity and travel time,
the greatest numbers of roads into, out of and at one node, and the average of the first inflow rates of all sources, `nan` if there is none. -/
theorem C126_print_info {n : Network P} {l : List Road} {b : Bool} (h : Holds n l b) (hl : l ≠ []) (hv : ∀ c ∈ n.commodities, ∀ s ∈ c.sources, s.2.values ≠ []) :
    ∃ i, n.printInfo = .ok i ∧ i.nodes = n.graph.nodes.length ∧ n.graph.nodes.Nodup ∧ i.edges = l.length ∧ i.commodities = n.commodities.length ∧
      Summary (l.map Road.capacity) i.capacity.1 i.capacity.2.1 i.capacity.2.2 ∧ Summary (l.map Road.travelTime) i.travelTime.1 i.travelTime.2.1 i.travelTime.2.2 ∧
      Greatest n.graph.nodes (roadsInto l b) i.inDegree ∧ Greatest n.graph.nodes (roadsFrom l b) i.outDegree ∧
      Greatest n.graph.nodes (fun v => roadsInto l b v + roadsFrom l b v) i.degree ∧
      (let firsts := (n.commodities.map (fun c => c.sources.map (fun s => s.2.values.headD 0))).flatten
       (firsts = [] → i.demand = none) ∧ (firsts ≠ [] → ∃ a, i.demand = some a ∧ a * firsts.length = firsts.sum)) := by
  have hc : n.capacity ≠ [] := by rw [h.cap]; simpa using hl
  have ht : n.travelTime ≠ [] := by rw [h.time]; simpa using hl
  obtain ⟨m, a, M, h1, h2⟩ := minAvgMax_spec hc
  obtain ⟨m', a', M', h3, h4⟩ := minAvgMax_spec ht
  have hne : n.graph.nodes ≠ [] := by
    intro e
    have hlen : 0 < n.graph.edges.length := by rw [Network.holds_len h]; exact List.length_pos_iff.mpr hl
    have := (h.graph.ends _ (List.getElem_mem hlen)).1
    rw [e] at this
    simp at this
  obtain ⟨d1, d2, d3⟩ := degrees_spec n.graph n.graph.nodes (0, 0, 0)
  have hf := firsts_ok ((n.commodities.map (fun c => c.sources.map Prod.snd)).flatten) (by
    intro f hf
    obtain ⟨x, hx, hfx⟩ := List.mem_flatten.mp hf
    obtain ⟨c, hc, rfl⟩ := List.mem_map.mp hx
    obtain ⟨s, hs, rfl⟩ := List.mem_map.mp hfx
    exact hv c hc s hs)
  have hfl : ((n.commodities.map (fun c => c.sources.map Prod.snd)).flatten).map (fun f => f.values.headD 0) = (n.commodities.map (fun c => c.sources.map (fun s => s.2.values.headD 0))).flatten := by
    rw [List.map_flatten, List.map_map]
    congr 1
    refine List.map_congr_left fun c _ => ?_
    simp only [Function.comp, List.map_map]
    rfl
  rw [hfl] at hf
  have hok : n.printInfo = .ok ⟨n.graph.nodes.length, n.graph.edges.length, n.commodities.length, (m, a, M), (m', a', M'), (degrees n.graph n.graph.nodes (0, 0, 0)).1,
      (degrees n.graph n.graph.nodes (0, 0, 0)).2.1, (degrees n.graph n.graph.nodes (0, 0, 0)).2.2,
      avgOrNan ((n.commodities.map (fun c => c.sources.map (fun s => s.2.values.headD 0))).flatten)⟩ := by
    unfold Network.printInfo
    rw [h1, ok_bind, h3, ok_bind]
    simp only
    rw [hf, ok_bind]
    rfl
  refine ⟨_, hok, rfl, h.graph.nodes, Network.holds_len h, rfl, ?_, ?_, ?_, ?_, ?_, ?_⟩
  · rw [← h.cap]; exact h2
  · rw [← h.time]; exact h4
  · simp only; rw [d1]; exact greatest_congr (fun v hv => (degree_of_holds h hv).1) (greatest_fold hne _)
  · simp only; rw [d2]; exact greatest_congr (fun v hv => (degree_of_holds h hv).2) (greatest_fold hne _)
  · simp only; rw [d3]; exact greatest_congr (fun v hv => by rw [(degree_of_holds h hv).1, (degree_of_holds h hv).2]) (greatest_fold hne _)
  · simp only
    unfold avgOrNan
    refine ⟨fun e => if_pos e, fun e => ⟨_, if_neg e, ?_⟩⟩
    have : ((List.flatten (List.map (fun c => List.map (fun s => s.2.values.headD 0) c.sources) n.commodities)).length : ℚ) ≠ 0 := by
      exact_mod_cast fun h0 => e (List.length_eq_zero_iff.mp h0)
    exact div_mul_cancel₀ _ this

/-- A network with three roads and one commodity: the numbers printed. -/
def infoNet (n : Network Unit) : Network Unit := { n with commodities := [⟨[(0, ⟨[0, 2], [3, 1], ⊥, ⊤⟩), (1, ⟨[0], [5], ⊥, ⊤⟩)], 2, ()⟩] }

example : ∃ n : Network Unit, Holds (infoNet n) [⟨0, 1, 4, 1⟩, ⟨0, 2, 1, 2⟩, ⟨1, 2, 1, 9⟩] false ∧ (∀ c ∈ (infoNet n).commodities, ∀ s ∈ c.sources, s.2.values ≠ []) ∧
    (infoNet n).printInfo = .ok ⟨3, 3, 1, (1, 4, 9), (1, 2, 4), 2, 2, 2, some 4⟩ := by
  obtain ⟨n, h1, h2⟩ := C49_aligned (P := Unit) [.add ⟨0, 1, 4, 1⟩, .add ⟨0, 2, 1, 2⟩, .add ⟨1, 2, 1, 9⟩] (by simp [RoadOpsOk, stepRoads, stepRev])
  refine ⟨n, ⟨h2.graph, h2.rev, h2.pairs, h2.cap, h2.time⟩, ?_, ?_⟩
  · intro c hc s hs
    have e := List.mem_singleton.mp hc
    subst e
    simp only [List.mem_cons, List.not_mem_nil, or_false] at hs
    rcases hs with rfl | rfl <;> simp
  have : (runNet (Network.empty : Network Unit) [.add ⟨0, 1, 4, 1⟩, .add ⟨0, 2, 1, 2⟩, .add ⟨1, 2, 1, 9⟩]).bind (fun n => (infoNet n).printInfo) =
      .ok ⟨3, 3, 1, (1, 4, 9), (1, 2, 4), 2, 2, 2, some 4⟩ := by decide +kernel
  rw [h1] at this
  exact this

/-- **C126**: without roads `print_info` raises `ValueError`. -/
theorem C126_print_info_empty {n : Network P} {b : Bool} (h : Holds n [] b) : n.printInfo = .error .value := by
  unfold Network.printInfo
  rw [h.cap]
  rfl

end Verif.Props
