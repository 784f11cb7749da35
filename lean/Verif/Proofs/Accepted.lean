import Verif.Proofs.BuilderBase
import Verif.Spec.Accepted

namespace Verif
namespace Accept
open Spec Builder

variable {P : Type} {n : Network P}

/-- The constructor of a collection raises if a function starts before 0, or none starts at 0. -/
theorem ofDict_raises {l : List (Nat × RC)} (hne : l ≠ []) (hw : ∀ p ∈ l, p.2.WF) (ha : Apart eps (l.map (fun p => p.2.times)).flatten)
    (hbad : (∃ p ∈ l, ∃ t ∈ p.2.times, t < 0) ∨ ∀ p ∈ l, (0 : ℚ) ∉ p.2.times) : FRC.ofDict l = .error .assertion := by
  have hnew : FRItem.new 0 [] = .ok ⟨0, []⟩ := by decide +kernel
  have hw' : ∀ f ∈ l.map Prod.snd, f.WF := by intro f hf; obtain ⟨p, hp, rfl⟩ := List.mem_map.mp hf; exact hw p hp
  have ha' : Apart eps ((l.map Prod.snd).map RC.times).flatten := by rw [List.map_map]; exact ha
  obtain ⟨s, e1, e2, e3, e4, e5, e6⟩ := RC.sum_ok (fs := l.map Prod.snd) (lo := ⊥) (hi := ⊤) hw' (by simpa using hne) (fun f _ t _ => ⟨bot_le, le_top⟩) ha'
  have hmem : ∀ t, t ∈ s.times ↔ ∃ p ∈ l, t ∈ p.2.times := by
    intro t; rw [e6]
    constructor
    · rintro ⟨f, hf, ht⟩
      obtain ⟨p, hp, rfl⟩ := List.mem_map.mp hf
      exact ⟨p, hp, ht⟩
    · rintro ⟨p, hp, ht⟩
      exact ⟨p.2, List.mem_map.mpr ⟨p, hp, rfl⟩, ht⟩
  -- the same sum with the domain of the collection
  have hlen : (l.map Prod.snd).length ≠ 0 := by simpa using hne
  have hsum : RC.sum (l.map Prod.snd) ((0 : ℚ) : WithBot ℚ) ⊤ = RC.new s.times s.values ((0 : ℚ) : WithBot ℚ) ⊤ := by
    unfold RC.sum at e1 ⊢
    rw [if_neg hlen] at e1 ⊢
    obtain ⟨times, t1, e1⟩ := bind_eq_ok.mp e1
    obtain ⟨values, v1, e1⟩ := bind_eq_ok.mp e1
    rw [t1, ok_bind, v1, ok_bind]
    unfold RC.new at e1
    obtain ⟨_, _, e1⟩ := bind_eq_ok.mp e1
    obtain ⟨_, _, e1⟩ := bind_eq_ok.mp e1
    injection e1 with e1
    rw [← e1]
  unfold FRC.ofDict
  rw [hnew, ok_bind, hsum]
  by_cases hneg : ∃ t ∈ s.times, t < 0
  · obtain ⟨t, ht, h0⟩ := hneg
    have : RC.new s.times s.values ((0 : ℚ) : WithBot ℚ) ⊤ = .error .assertion := by
      unfold RC.new
      rw [pyAssert_true e2.len, ok_bind, pyAssert_false, error_bind]
      intro hc
      exact absurd (WithBot.coe_le_coe.mp (hc t ht).1) (not_le.mpr h0)
    rw [this, error_bind]
  · have hz : (0 : ℚ) ∉ s.times := by
      rcases hbad with ⟨p, hp, t, ht, h0⟩ | hb
      · exact absurd ⟨t, (hmem t).mpr ⟨p, hp, ht⟩, h0⟩ hneg
      · intro hc
        obtain ⟨p, hp, ht⟩ := (hmem 0).mp hc
        exact hb p hp ht
    have hn : RC.new s.times s.values ((0 : ℚ) : WithBot ℚ) ⊤ = .ok ⟨s.times, s.values, ((0 : ℚ) : WithBot ℚ), ⊤⟩ := by
      unfold RC.new
      rw [pyAssert_true e2.len, ok_bind, pyAssert_true, ok_bind]
      · rfl
      · intro t ht
        exact ⟨WithBot.coe_le_coe.mpr (by by_contra hc; exact hneg ⟨t, ht, not_le.mp hc⟩), le_top⟩
    rw [hn, ok_bind]
    have : RC.integral ⟨s.times, s.values, ((0 : ℚ) : WithBot ℚ), ⊤⟩ = .error .assertion := by
      unfold RC.integral
      simp only
      rw [rd_lt _ 0 e2.pos, ok_bind]
      obtain ⟨x, hx⟩ : ∃ x, rdLast s.times = .ok x := by
        unfold rdLast
        cases hg : s.times.getLast? with
        | none => rw [List.getLast?_eq_none_iff] at hg; exact absurd hg e2.ne
        | some x => exact ⟨x, rfl⟩
      rw [hx, ok_bind, pyAssert_false, error_bind]
      rintro ⟨hc, _⟩
      exact hz (WithBot.coe_inj.mp hc ▸ List.getElem_mem _)
    rw [this, error_bind]

/-- The functions at a node. -/
theorem at_node (hn : Offered n) {v : Nat} {p : Nat × RC} (hp : p ∈ sourcesAt v 0 n.commodities) : ∃ c ∈ n.commodities, (v, p.2) ∈ c.sources := by
  obtain ⟨c, h1, h2⟩ := sourcesAt_mem hp
  exact ⟨c, List.mem_of_getElem? h1, h2⟩

theorem from_node (hn : Offered n) {c : Commodity P} (hc : c ∈ n.commodities) {s : Nat × RC} (hs : s ∈ c.sources) : ∃ p ∈ sourcesAt s.1 0 n.commodities, p.2 = s.2 := by
  obtain ⟨j, hj, e⟩ := List.getElem_of_mem hc
  have := sourcesAt_lookup (v := s.1) (cs := n.commodities) (k := 0) (j := j)
  rw [List.getElem?_eq_getElem hj, e, Option.bind_some, FRC.lookup_of_mem (hn.keys c hc) hs] at this
  exact ⟨_, FRC.mem_of_lookup this, rfl⟩

theorem wf_at (hn : Offered n) {c : Commodity P} (hc : c ∈ n.commodities) {s : Nat × RC} (hs : s ∈ c.sources) : s.2.WF :=
  ⟨hn.len c hc s hs, hn.ne c hc s hs, hn.lt c hc s hs, fun t ht => ⟨hn.dom c hc s hs t ht, by rw [hn.hi c hc s hs]; exact le_top⟩⟩

theorem apart_at (hn : Offered n) (v : Nat) : Apart eps ((sourcesAt v 0 n.commodities).map (fun p => p.2.times)).flatten := by
  intro a ha b hb hab
  obtain ⟨ta, h1, h2⟩ := List.mem_flatten.mp ha
  obtain ⟨pa, hpa, rfl⟩ := List.mem_map.mp h1
  obtain ⟨tb, h3, h4⟩ := List.mem_flatten.mp hb
  obtain ⟨pb, hpb, rfl⟩ := List.mem_map.mp h3
  obtain ⟨c, hc, g1⟩ := at_node hn hpa
  obtain ⟨c', hc', g2⟩ := at_node hn hpb
  exact hn.apart c hc _ g1 c' hc' _ g2 rfl a h2 b h4 hab

/-- Inflow at node `v` is accepted. -/
def GoodAt (n : Network P) (v : Nat) : Prop :=
  (∀ p ∈ sourcesAt v 0 n.commodities, ∀ t ∈ p.2.times, 0 ≤ t) ∧ (sourcesAt v 0 n.commodities ≠ [] → ∃ p ∈ sourcesAt v 0 n.commodities, (0 : ℚ) ∈ p.2.times)

theorem good_ok (hn : Offered n) {v : Nat} (h : GoodAt n v) : ∃ c, FRC.ofDict (sourcesAt v 0 n.commodities) = .ok c := by
  obtain ⟨c, h1, _⟩ := FRC.ofDict_reads (l := sourcesAt v 0 n.commodities) ⟨sourcesAt_nodup,
    fun p hp => by obtain ⟨c, hc, hs⟩ := at_node hn hp; exact wf_at (s := (v, p.2)) hn hc hs,
    fun p hp => by obtain ⟨c, hc, hs⟩ := at_node hn hp; exact hn.lo c hc (v, p.2) hs,
    fun p hp => by obtain ⟨c, hc, hs⟩ := at_node hn hp; exact hn.hi c hc (v, p.2) hs,
    h.1, h.2, apart_at hn v,
    fun p hp => by obtain ⟨c, hc, hs⟩ := at_node hn hp; exact hn.vals c hc (v, p.2) hs⟩
  exact ⟨c, h1⟩

theorem bad_raises (hn : Offered n) {v : Nat} (h : ¬ GoodAt n v) : FRC.ofDict (sourcesAt v 0 n.commodities) = .error .assertion := by
  have hne : sourcesAt v 0 n.commodities ≠ [] := by
    intro hc
    apply h
    refine ⟨?_, fun h => absurd hc h⟩
    rw [hc]; intro p hp; exact absurd hp List.not_mem_nil
  refine ofDict_raises hne (fun p hp => by obtain ⟨c, hc, hs⟩ := at_node hn hp; exact wf_at (s := (v, p.2)) hn hc hs) (apart_at hn v) ?_
  by_contra hc
  push Not at hc
  exact h ⟨fun p hp t ht => hc.1 p hp t ht, fun _ => hc.2⟩

theorem netInflows_all (hn : Offered n) : ∀ (vs : List Nat) (d : Nat → FRC),
    ((∀ v ∈ vs, GoodAt n v) → ∃ d', netInflows n.commodities vs d = .ok d') ∧ ((∃ v ∈ vs, ¬ GoodAt n v) → netInflows n.commodities vs d = .error .assertion) := by
  intro vs
  induction vs with
  | nil => intro d; exact ⟨fun _ => ⟨d, rfl⟩, by rintro ⟨v, hv, _⟩; exact absurd hv List.not_mem_nil⟩
  | cons v vs ih =>
    intro d
    by_cases hv : GoodAt n v
    · obtain ⟨c, hc⟩ := good_ok hn hv
      obtain ⟨i1, i2⟩ := ih (setAt d v c)
      refine ⟨fun h => ?_, ?_⟩
      · obtain ⟨d', hd⟩ := i1 (fun u hu => h u (List.mem_cons_of_mem _ hu))
        exact ⟨d', by unfold netInflows; rw [hc, ok_bind, hd]⟩
      · rintro ⟨u, hu, hb⟩
        unfold netInflows; rw [hc, ok_bind]
        rcases List.mem_cons.mp hu with rfl | hu
        · exact absurd hv hb
        · exact i2 ⟨u, hu, hb⟩
    · refine ⟨fun h => absurd (h v (by simp)) hv, fun _ => ?_⟩
      unfold netInflows; rw [bad_raises hn hv, error_bind]

/-- What is accepted, node by node. -/
theorem accepted_iff (hn : Offered n) : Accepted n ↔ (∀ v ∈ n.graph.nodes, GoodAt n v) ∧ ∀ c ∈ n.commodities, ∀ s ∈ c.sources, Path n.graph s.1 c.sink := by
  constructor
  · intro h
    refine ⟨fun v _ => ⟨fun p hp => ?_, fun hne => ?_⟩, fun c hc s hs => (h c hc s hs).1⟩
    · obtain ⟨c, hc, hs⟩ := at_node hn hp
      exact (h c hc _ hs).2.1
    · obtain ⟨p, hp⟩ := List.exists_mem_of_ne_nil _ hne
      obtain ⟨c, hc, hs⟩ := at_node hn hp
      obtain ⟨_, _, c', hc', s', hs', e, h0⟩ := h c hc _ hs
      obtain ⟨q, hq, e2⟩ := from_node hn hc' hs'
      simp only at e
      exact ⟨q, e ▸ hq, by rw [e2]; exact h0⟩
  · rintro ⟨h1, h2⟩ c hc s hs
    obtain ⟨p, hp, e⟩ := from_node hn hc hs
    obtain ⟨g1, g2⟩ := h1 s.1 (hn.node c hc s hs)
    refine ⟨h2 c hc s hs, by rw [← e]; exact g1 p hp, ?_⟩
    obtain ⟨q, hq, h0⟩ := g2 (List.ne_nil_of_mem hp)
    obtain ⟨c', hc', hs'⟩ := at_node hn hq
    exact ⟨c', hc', _, hs', rfl, h0⟩

/-- The constructor returns on what is accepted and raises `AssertionError` on the rest. -/
theorem init_accepts (hn : Offered n) (d : Option ℚ) : (Accepted n → ∃ b, Builder.init n d = .ok b) ∧ (¬ Accepted n → Builder.init n d = .error .assertion) := by
  obtain ⟨f0, hf0⟩ : ∃ f0, DFlow.init = .ok f0 := by
    have : (match DFlow.init with | .ok _ => true | .error _ => false) = true := by decide +kernel
    cases h : DFlow.init with
    | ok f => exact ⟨f, rfl⟩
    | error e => rw [h] at this; cases this
  obtain ⟨L, i1, i2, i3⟩ := mapPy_ok (importantOf n.graph) n.commodities (fun c hc => by
    obtain ⟨L, h, _⟩ := importantOf_spec hn.graph (hn.sink c hc) (fun s hs => hn.node c hc s hs); exact ⟨L, h⟩)
  obtain ⟨c0, hc0, _⟩ := FRC.empty_good
  obtain ⟨n1, n2⟩ := netInflows_all hn n.graph.nodes (fun _ => c0)
  obtain ⟨h, h1, h2⟩ := Heap.rel_ofList (K := EVal) (changeList 0 n.commodities) (changeList_nodup (fun c hc =>
    ⟨hn.keys c hc, fun s hs => (hn.lt c hc s hs).imp ne_of_lt⟩))
  -- the assertion about paths
  have himp : ∀ (i : Nat) (hi : i < n.commodities.length) (hl : i < L.length), ∀ v, v ∈ L[i] ↔ Between n.graph n.commodities[i] v := by
    intro i hi hl
    obtain ⟨b, e1, e2⟩ := i3 i _ (List.getElem?_eq_getElem hi)
    rw [List.getElem?_eq_getElem hl] at e1; injection e1 with e1
    have hc := List.getElem_mem hi
    obtain ⟨L', g1, g2⟩ := importantOf_spec hn.graph (hn.sink _ hc) (fun s hs => hn.node _ hc s hs)
    rw [e2] at g1; injection g1 with g1
    rw [e1, g1]; exact g2
  have hassert : (∀ p ∈ n.commodities.zip L, ∀ s ∈ p.1.sources, s.1 ∈ p.2) ↔ ∀ c ∈ n.commodities, ∀ s ∈ c.sources, Path n.graph s.1 c.sink := by
    constructor
    · intro ha c hc s hs
      obtain ⟨j, hj, e⟩ := List.getElem_of_mem hc
      have hl : j < L.length := by rw [i2]; exact hj
      have := ha (n.commodities[j], L[j]) (by
        rw [List.mem_iff_getElem]
        exact ⟨j, by rw [List.length_zip]; omega, List.getElem_zip⟩) s (by rw [e]; exact hs)
      have := ((himp j hj hl s.1).mp this).1
      rw [e] at this; exact this
    · intro ha p hp s hs
      obtain ⟨j, hj, e⟩ := List.getElem_of_mem hp
      have hj' : j < n.commodities.length ∧ j < L.length := by rw [List.length_zip] at hj; omega
      rw [List.getElem_zip] at e
      subst e
      simp only at hs ⊢
      exact (himp j hj'.1 hj'.2 _).mpr ⟨ha _ (List.getElem_mem hj'.1) s hs, s, hs, .refl⟩
  rw [accepted_iff hn]
  constructor
  · rintro ⟨a, b⟩
    obtain ⟨dd, hd⟩ := n1 a
    exact ⟨_, by unfold Builder.init; rw [hf0, ok_bind, i1, ok_bind, hc0, ok_bind, hd, ok_bind, pyAssert_true (hassert.mpr b), ok_bind, h1, ok_bind]; exact rfl⟩
  · intro hb
    by_cases ha : ∀ v ∈ n.graph.nodes, GoodAt n v
    · obtain ⟨dd, hd⟩ := n1 ha
      unfold Builder.init
      rw [hf0, ok_bind, i1, ok_bind, hc0, ok_bind, hd, ok_bind, pyAssert_false (fun hc => hb ⟨ha, hassert.mp hc⟩), error_bind]
    · push Not at ha
      unfold Builder.init
      rw [hf0, ok_bind, i1, ok_bind, hc0, ok_bind, n2 ha, error_bind]

end Accept
end Verif
