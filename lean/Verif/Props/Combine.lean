import Verif.Proofs.Combine
import Verif.Props.FlowBuilder

/-! Property theorem C52: combining commodities. -/

namespace Verif.Props
open Verif Verif.Spec Verif.Combine

variable {P : Type} [DecidableEq P] {n : Network P}

omit [DecidableEq P] in
theorem sourceRate_fn {S : Nat → ℚ → Prop} {c : Commodity P} (h : SrcOk S c.sources) (v : Nat) {t : ℚ} (ht : 0 ≤ t) :
    sourceRate c v t = srcFn c.sources v t := by
  unfold sourceRate srcFn
  cases hl : c.sources.lookup v with
  | none => rfl
  | some f => exact Builder.stepValue_fn (h.ok (v, f) (lookup_mem' hl)) ht

theorem demand_append (l l' : List (Commodity P)) (p : P) (k v : Nat) (t : ℚ) : demand (l ++ l') p k v t = demand l p k v t + demand l' p k v t := by
  unfold demand; rw [List.filter_append, List.map_append, List.sum_append]

theorem demand_map (obj : Nat → Commodity P) (rs : List Nat) (p : P) (k v : Nat) (t : ℚ) :
    demand (rs.map obj) p k v t = ((rs.filter (fun r => ((obj r).predictor, (obj r).sink) = (p, k))).map (fun r => sourceRate (obj r) v t)).sum := by
  unfold demand
  rw [List.filter_map, List.map_map]
  congr 1
  refine congrArg _ (List.filter_congr fun r _ => ?_)
  simp

/-- A list with distinct keys, filtered by one key. -/
theorem demand_nodup {l : List (Commodity P)} (hn : (l.map (fun c => (c.predictor, c.sink))).Nodup) (p : P) (k v : Nat) (t : ℚ) :
    (∀ c ∈ l, (c.predictor, c.sink) = (p, k) → demand l p k v t = sourceRate c v t) ∧
      ((p, k) ∉ l.map (fun c => (c.predictor, c.sink)) → demand l p k v t = 0) := by
  unfold demand
  induction l with
  | nil => simp
  | cons c l ih =>
    rw [List.map_cons, List.nodup_cons] at hn
    obtain ⟨i1, i2⟩ := ih hn.2
    constructor
    · intro d hd he
      rcases List.mem_cons.mp hd with rfl | hd
      · rw [List.filter_cons_of_pos (by simpa using he), List.map_cons, List.sum_cons, i2 (by rw [← he]; exact hn.1), add_zero]
      · have hc : (c.predictor, c.sink) ≠ (p, k) := by
          intro h
          exact hn.1 (by rw [h, ← he]; exact List.mem_map.mpr ⟨d, hd, rfl⟩)
        rw [List.filter_cons_of_neg (by simpa using hc)]
        exact i1 d hd he
    · intro hc
      rw [List.map_cons, List.mem_cons, not_or] at hc
      rw [List.filter_cons_of_neg (by
        intro h
        obtain ⟨h1, h2⟩ := of_decide_eq_true h
        exact hc.1 (by rw [h1, h2]))]
      exact i2 hc.2

/-- A valid network, except that nothing is said about what happens at time 0. -/
structure InputPre {P : Type} (n : Network P) : Prop where
  graph : Consistent n.graph
  capLen : n.capacity.length = n.graph.edges.length
  ttLen : n.travelTime.length = n.graph.edges.length
  cap : ∀ c ∈ n.capacity, 0 < c
  tt : ∀ t ∈ n.travelTime, 0 ≤ t
  sink : ∀ c ∈ n.commodities, c.sink ∈ n.graph.nodes
  keys : ∀ c ∈ n.commodities, (c.sources.map Prod.fst).Nodup
  source : ∀ c ∈ n.commodities, ∀ s ∈ c.sources, s.1 ∈ n.graph.nodes ∧ Path n.graph s.1 c.sink ∧ InflowOk s.2
  apart : ∀ c ∈ n.commodities, ∀ s ∈ c.sources, ∀ c' ∈ n.commodities, ∀ s' ∈ c'.sources, s'.1 = s.1 →
    ∀ a ∈ s.2.times, ∀ b ∈ s'.2.times, a < b → eps < b - a

theorem InputPre.of {P : Type} {n : Network P} (h : InputOk n) : InputPre n := ⟨h.graph, h.capLen, h.ttLen, h.cap, h.tt, h.sink, h.keys, h.source, h.apart⟩

theorem combine_pre (hn : InputPre n) {ord : List Nat → List Nat} (ho : OrderOk ord) {obj : Nat → Commodity P} {refs ex : List Nat}
    (hrefs : n.commodities = refs.map obj) (hnd : refs.Nodup) (hex : ∀ r ∈ ex, r ∈ refs) :
    ∃ n', combine ord n obj refs ex = .ok n' ∧ InputPre n' ∧ n'.graph = n.graph ∧ n'.capacity = n.capacity ∧ n'.travelTime = n.travelTime ∧
      (∀ p k v t, 0 ≤ t → demand n'.commodities p k v t = demand n.commodities p k v t) ∧
      (∃ merged kept, n'.commodities = merged ++ kept ∧ kept.Perm ((refs.filter (· ∈ ex)).map obj) ∧ (merged.map (fun c => (c.predictor, c.sink))).Nodup ∧
        ∀ key, key ∈ merged.map (fun c => (c.predictor, c.sink)) ↔ ∃ r ∈ refs, r ∉ ex ∧ ((obj r).predictor, (obj r).sink) = key) ∧
      (∀ c ∈ n'.commodities, ∀ u ∈ c.sources.map Prod.fst, ∃ c' ∈ n.commodities, c'.sink = c.sink ∧ u ∈ c'.sources.map Prod.fst) ∧
      (∀ c ∈ n.commodities, ∀ v x, Brk c.sources v x → ∃ c' ∈ n'.commodities, Brk c'.sources v x) ∧
      ∀ c ∈ n'.commodities, ∀ v x, Brk c.sources v x → ∃ c' ∈ n.commodities, Brk c'.sources v x := by
  let S : Nat → ℚ → Prop := fun v x => ∃ c ∈ n.commodities, Brk c.sources v x
  have hS : ∀ v a b, S v a → S v b → a < b → eps < b - a := by
    rintro v a b ⟨c, hc, f, hf, ha⟩ ⟨c', hc', f', hf', hb⟩ hab
    exact hn.apart c hc (v, f) hf c' hc' (v, f') hf' rfl a ha b hb hab
  have hmemc : ∀ r ∈ refs, obj r ∈ n.commodities := fun r hr => by rw [hrefs]; exact List.mem_map.mpr ⟨r, hr, rfl⟩
  have hsrc : ∀ r ∈ refs, SrcOk S (obj r).sources := fun r hr =>
    ⟨hn.keys _ (hmemc r hr), fun s hs => (hn.source _ (hmemc r hr) s hs).2.2, fun v x hx => ⟨obj r, hmemc r hr, hx⟩⟩
  obtain ⟨g1, g2, g3⟩ := group_spec obj ex (refs := refs) (gs := []) (by simp) (by simp)
  have g3' : ∀ k, members (group obj ex refs []) k = refs.filter (fun r => r ∉ ex ∧ ((obj r).predictor, (obj r).sink) = k) := fun k => by
    rw [g3]; simp [members]
  have hlook : ∀ g ∈ group obj ex refs [], g.2 = members (group obj ex refs []) g.1 := by
    intro g hg
    have key : ∀ (gs : List ((P × Nat) × List Nat)), (gs.map Prod.fst).Nodup → ∀ g ∈ gs, g.2 = members gs g.1 := by
      intro gs
      induction gs with
      | nil => simp
      | cons q gs ih =>
        intro hnd g hg
        obtain ⟨k0, g0⟩ := q
        rw [List.map_cons, List.nodup_cons] at hnd
        unfold members
        rw [List.lookup_cons]
        rcases List.mem_cons.mp hg with rfl | hg
        · simp
        · have : g.1 ≠ k0 := fun h => hnd.1 (by rw [← h]; exact List.mem_map.mpr ⟨g, hg, rfl⟩)
          have : (g.1 == k0) = false := by simpa using this
          rw [this]; exact ih hnd.2 g hg
    exact key _ g1 g hg
  have hgrp : ∀ g ∈ group obj ex refs [], ∀ r, r ∈ g.2 ↔ r ∈ refs ∧ r ∉ ex ∧ ((obj r).predictor, (obj r).sink) = g.1 := by
    intro g hg r
    rw [hlook g hg, g3', List.mem_filter]; simp
  obtain ⟨l, l1, l2, l3⟩ := mergeAll_spec hS ho (obj := obj) (gs := group obj ex refs []) (fun g hg r hr => hsrc r ((hgrp g hg r).mp hr).1)
  have hlen : l.length = (group obj ex refs []).length := by
    have := congrArg List.length l2; simpa using this
  -- every merged commodity comes from its group
  have hfrom : ∀ c ∈ l, ∃ g ∈ group obj ex refs [], (c.predictor, c.sink) = g.1 ∧ SrcOk S c.sources ∧
      (∀ u, u ∈ c.sources.map Prod.fst ↔ ∃ r ∈ g.2, u ∈ (obj r).sources.map Prod.fst) ∧
      (∀ u x, srcFn c.sources u x = ((ord g.2).map (fun r => srcFn (obj r).sources u x)).sum) ∧
      ∀ u x, Brk c.sources u x ↔ ∃ r ∈ g.2, Brk (obj r).sources u x := by
    intro c hc
    obtain ⟨i, hi, rfl⟩ := List.getElem_of_mem hc
    have hg := List.getElem?_eq_getElem (l := group obj ex refs []) (i := i) (by rw [← hlen]; exact hi)
    obtain ⟨c', c1, c2⟩ := l3 i _ hg
    rw [List.getElem?_eq_getElem hi] at c1; injection c1 with c1; subst c1
    exact ⟨_, List.mem_of_getElem? hg, c2⟩
  have hkeys : (l.map (fun c => (c.predictor, c.sink))).Nodup := by rw [l2]; exact g1
  have hkey : ∀ key, key ∈ l.map (fun c => (c.predictor, c.sink)) ↔ ∃ r ∈ refs, r ∉ ex ∧ ((obj r).predictor, (obj r).sink) = key := by
    intro key
    rw [l2]
    constructor
    · intro h
      obtain ⟨g, hg, rfl⟩ := List.mem_map.mp h
      obtain ⟨r, hr⟩ := List.exists_mem_of_ne_nil _ (g2 g hg)
      obtain ⟨r1, r2, r3⟩ := (hgrp g hg r).mp hr
      exact ⟨r, r1, r2, r3⟩
    · rintro ⟨r, r1, r2, r3⟩
      by_contra hc
      have : members (group obj ex refs []) key = [] := by
        unfold members
        rw [List.lookup_eq_none_iff.mpr (fun q hq => by
          have : key ≠ q.1 := fun h => hc (by rw [h]; exact List.mem_map.mpr ⟨q, hq, rfl⟩)
          simpa using this)]
        rfl
      rw [g3'] at this
      have hm : r ∈ refs.filter (fun r => r ∉ ex ∧ ((obj r).predictor, (obj r).sink) = key) := List.mem_filter.mpr ⟨r1, by simpa using ⟨r2, r3⟩⟩
      rw [this] at hm; cases hm
  -- a commodity of the result
  have hbrk : ∀ c ∈ l ++ (ord ex).map obj, SrcOk S c.sources ∧ ∀ u ∈ c.sources.map Prod.fst, ∃ c' ∈ n.commodities, c'.sink = c.sink ∧ u ∈ c'.sources.map Prod.fst := by
    intro c hc
    rcases List.mem_append.mp hc with hc | hc
    · obtain ⟨g, hg, e1, e2, e3, _⟩ := hfrom c hc
      refine ⟨e2, fun u hu => ?_⟩
      obtain ⟨r, hr, hu⟩ := (e3 u).mp hu
      obtain ⟨r1, _, r3⟩ := (hgrp g hg r).mp hr
      refine ⟨obj r, hmemc r r1, ?_, hu⟩
      rw [← e1] at r3; exact congrArg Prod.snd r3
    · obtain ⟨r, hr, rfl⟩ := List.mem_map.mp hc
      have hr' := hex r (((ho ex).2 r).mp hr)
      exact ⟨hsrc r hr', fun u hu => ⟨obj r, hmemc r hr', rfl, hu⟩⟩
  have hsink : ∀ c ∈ l ++ (ord ex).map obj, ∃ c' ∈ n.commodities, c'.sink = c.sink := by
    intro c hc
    rcases List.mem_append.mp hc with hc | hc
    · obtain ⟨g, hg, e1, _⟩ := hfrom c hc
      obtain ⟨r, hr⟩ := List.exists_mem_of_ne_nil _ (g2 g hg)
      obtain ⟨r1, _, r3⟩ := (hgrp g hg r).mp hr
      refine ⟨obj r, hmemc r r1, ?_⟩
      rw [← e1] at r3; exact congrArg Prod.snd r3
    · obtain ⟨r, hr, rfl⟩ := List.mem_map.mp hc
      exact ⟨obj r, hmemc r (hex r (((ho ex).2 r).mp hr)), rfl⟩
  -- every break point is still there
  have hstill : ∀ c ∈ n.commodities, ∀ v x, Brk c.sources v x → ∃ c' ∈ l ++ (ord ex).map obj, Brk c'.sources v x := by
    intro c hc v x hx
    rw [hrefs] at hc
    obtain ⟨r, hr, rfl⟩ := List.mem_map.mp hc
    by_cases hrx : r ∈ ex
    · exact ⟨obj r, List.mem_append_right _ (List.mem_map.mpr ⟨r, ((ho ex).2 r).mpr hrx, rfl⟩), hx⟩
    · obtain ⟨c', hc', hk⟩ := List.mem_map.mp ((hkey _).mpr ⟨r, hr, hrx, rfl⟩)
      obtain ⟨g, hg, e1, _, _, _, e5⟩ := hfrom c' hc'
      exact ⟨c', List.mem_append_left _ hc', (e5 v x).mpr ⟨r, (hgrp g hg r).mpr ⟨hr, hrx, by rw [← e1]; exact hk.symm⟩, hx⟩⟩
  refine ⟨{ n with commodities := l ++ (ord ex).map obj }, ?_, ?_, rfl, rfl, rfl, ?_, ⟨l, (ord ex).map obj, rfl, ?_, hkeys, hkey⟩, fun c hc => (hbrk c hc).2, hstill, fun c hc v x hx => (hbrk c hc).1.brk v x hx⟩
  · unfold combine; rw [l1, ok_bind]; rfl
  · refine ⟨hn.graph, hn.capLen, hn.ttLen, hn.cap, hn.tt, ?_, fun c hc => (hbrk c hc).1.keys, ?_, ?_⟩
    · intro c hc
      obtain ⟨c', h1, h2⟩ := hsink c hc
      rw [← h2]; exact hn.sink c' h1
    · intro c hc s hs
      obtain ⟨h1, h2⟩ := hbrk c hc
      obtain ⟨c', h3, h4, h5⟩ := h2 s.1 (List.mem_map.mpr ⟨s, hs, rfl⟩)
      obtain ⟨s', h6, h7⟩ := List.mem_map.mp h5
      obtain ⟨h8, h9, _⟩ := hn.source c' h3 s' h6
      rw [h7] at h8 h9; rw [h4] at h9
      exact ⟨h8, h9, h1.ok s hs⟩
    · intro c hc s hs c' hc' s' hs' he a ha b hb hab
      exact hS s.1 a b ((hbrk c hc).1.brk s.1 a ⟨s.2, hs, ha⟩) ((hbrk c' hc').1.brk s.1 b ⟨s'.2, by rw [← he]; exact hs', hb⟩) hab
  · intro p k v t ht
    rw [demand_append, hrefs, demand_map, demand_map]
    have e1 : demand l p k v t = ((refs.filter (fun r => r ∉ ex ∧ ((obj r).predictor, (obj r).sink) = (p, k))).map (fun r => sourceRate (obj r) v t)).sum := by
      by_cases hk : (p, k) ∈ l.map (fun c => (c.predictor, c.sink))
      · obtain ⟨c, hc, hce⟩ := List.mem_map.mp hk
        obtain ⟨g, hg, a1, a2, _, a4, _⟩ := hfrom c hc
        rw [(demand_nodup hkeys p k v t).1 c hc hce, sourceRate_fn a2 v ht, a4, ← g3', ← hce, a1, ← hlook g hg]
        have hp : (ord g.2).Perm g.2 := by
          rw [List.perm_ext_iff_of_nodup (ho g.2).1 (by rw [hlook g hg, g3']; exact hnd.filter _)]
          exact (ho g.2).2
        rw [(hp.map _).sum_eq]
        refine congrArg _ (List.map_congr_left fun r hr => ?_)
        rw [sourceRate_fn (hsrc r ((hgrp g hg r).mp hr).1) v ht]
      · rw [(demand_nodup hkeys p k v t).2 hk]
        have : refs.filter (fun r => r ∉ ex ∧ ((obj r).predictor, (obj r).sink) = (p, k)) = [] := by
          rw [List.filter_eq_nil_iff]
          intro r hr hc
          have hc' : r ∉ ex ∧ ((obj r).predictor, (obj r).sink) = (p, k) := of_decide_eq_true hc
          exact hk ((hkey _).mpr ⟨r, hr, hc'.1, hc'.2⟩)
        rw [this]; rfl
    have e2 : ((ord ex).filter (fun r => ((obj r).predictor, (obj r).sink) = (p, k))).Perm
        (refs.filter (fun r => r ∈ ex ∧ ((obj r).predictor, (obj r).sink) = (p, k))) := by
      rw [List.perm_ext_iff_of_nodup ((ho ex).1.filter _) (hnd.filter _)]
      intro r
      simp only [List.mem_filter, decide_eq_true_eq, (ho ex).2]
      constructor
      · rintro ⟨h1, h2⟩; exact ⟨hex r h1, h1, h2⟩
      · rintro ⟨_, h1, h2⟩; exact ⟨h1, h2⟩
    rw [e1, (e2.map _).sum_eq, ← List.sum_append, ← List.map_append]
    have e3 : (refs.filter (fun r => r ∉ ex ∧ ((obj r).predictor, (obj r).sink) = (p, k)) ++
        refs.filter (fun r => r ∈ ex ∧ ((obj r).predictor, (obj r).sink) = (p, k))).Perm (refs.filter (fun r => ((obj r).predictor, (obj r).sink) = (p, k))) := by
      rw [List.perm_ext_iff_of_nodup _ (hnd.filter _)]
      · intro r
        simp only [List.mem_append, List.mem_filter, decide_eq_true_eq]
        tauto
      · rw [List.nodup_append]
        refine ⟨hnd.filter _, hnd.filter _, ?_⟩
        intro a ha b hb hab
        subst hab
        simp only [List.mem_filter, decide_eq_true_eq] at ha hb
        exact ha.2.1 hb.2.1
    exact (e3.map _).sum_eq
  · refine List.Perm.map _ ?_
    rw [List.perm_ext_iff_of_nodup (ho ex).1 (hnd.filter _)]
    intro r
    simp only [List.mem_filter, decide_eq_true_eq, (ho ex).2]
    exact ⟨fun h => ⟨hex r h, h⟩, fun h => h.2⟩

/-- **C52.** Combining the commodities of a valid network (all of them distinct objects) never raises, gives a valid network with the same
demand for every predictor, sink, source and time, and at most one commodity per predictor and sink besides the exceptions, which are kept. -/
theorem C52_combine (hn : InputOk n) {ord : List Nat → List Nat} (ho : OrderOk ord) {obj : Nat → Commodity P} {refs ex : List Nat}
    (hrefs : n.commodities = refs.map obj) (hnd : refs.Nodup) (hex : ∀ r ∈ ex, r ∈ refs) :
    ∃ n', combine ord n obj refs ex = .ok n' ∧ InputOk n' ∧ n'.graph = n.graph ∧ n'.capacity = n.capacity ∧ n'.travelTime = n.travelTime ∧
      (∀ p k v t, 0 ≤ t → demand n'.commodities p k v t = demand n.commodities p k v t) ∧
      ∃ merged kept, n'.commodities = merged ++ kept ∧ kept.Perm ((refs.filter (· ∈ ex)).map obj) ∧ (merged.map (fun c => (c.predictor, c.sink))).Nodup ∧
        ∀ key, key ∈ merged.map (fun c => (c.predictor, c.sink)) ↔ ∃ r ∈ refs, r ∉ ex ∧ ((obj r).predictor, (obj r).sink) = key := by
  obtain ⟨n', h1, h2, h3, h4, h5, h6, h7, h8, h9, _⟩ := combine_pre (InputPre.of hn) ho hrefs hnd hex
  refine ⟨n', h1, ⟨h2.graph, h2.capLen, h2.ttLen, h2.cap, h2.tt, h2.sink, h2.keys, h2.source, ?_, h2.apart⟩, h3, h4, h5, h6, h7⟩
  intro c hc s hs
  obtain ⟨c', a1, _, a3⟩ := h8 c hc s.1 (List.mem_map.mpr ⟨s, hs, rfl⟩)
  obtain ⟨s', b1, b2⟩ := List.mem_map.mp a3
  obtain ⟨c2, k1, s2, k2, k3, k4⟩ := hn.start c' a1 s' b1
  obtain ⟨c3, m1, f, m2, m3⟩ := h9 c2 k1 s.1 0 ⟨s2.2, by rw [← b2, ← k3]; exact k2, k4⟩
  exact ⟨c3, m1, _, m2, rfl, m3⟩

/-- **C52** without exceptions: at most one commodity per predictor and sink. -/
theorem C52_no_exceptions (hn : InputOk n) {ord : List Nat → List Nat} (ho : OrderOk ord) {obj : Nat → Commodity P} {refs : List Nat}
    (hrefs : n.commodities = refs.map obj) (hnd : refs.Nodup) :
    ∃ n', combine ord n obj refs [] = .ok n' ∧ InputOk n' ∧ (n'.commodities.map (fun c => (c.predictor, c.sink))).Nodup ∧
      ∀ p k v t, 0 ≤ t → demand n'.commodities p k v t = demand n.commodities p k v t := by
  obtain ⟨n', h1, h2, _, _, _, h3, merged, kept, h4, h5, h6, _⟩ := C52_combine hn ho hrefs hnd (ex := []) (by simp)
  have : kept = [] := by simpa using h5
  rw [this, List.append_nil] at h4
  exact ⟨n', h1, h2, by rw [h4]; exact h6, h3⟩

/-- Three commodities; the first two have the same sink and predictor and a common source. -/
def combineObj : Nat → Commodity (Fin 3)
  | 0 => ⟨[(0, ⟨[0, 2], [3, 0], ((0 : ℚ) : WithBot ℚ), ⊤⟩)], 2, 0⟩
  | 1 => ⟨[(1, ⟨[0, 3], [1, 0], ((0 : ℚ) : WithBot ℚ), ⊤⟩), (0, ⟨[0, 1], [1 / 2, 0], ((0 : ℚ) : WithBot ℚ), ⊤⟩)], 2, 0⟩
  | _ => ⟨[(0, ⟨[0, 2], [3, 0], ((0 : ℚ) : WithBot ℚ), ⊤⟩)], 2, 1⟩

def combineNet : Network (Fin 3) := { buildNet with commodities := [0, 1, 2].map combineObj }

theorem combineNet_ok : InputOk combineNet := by
  have hb := buildNet_ok
  have e01 : Path buildNet.graph 0 1 := Relation.ReflTransGen.single ⟨0, by decide +kernel, rfl, rfl⟩
  have e12 : Path buildNet.graph 1 2 := Relation.ReflTransGen.single ⟨3, by decide +kernel, rfl, rfl⟩
  have hok : ∀ c ∈ [0, 1, 2].map combineObj, ∀ s ∈ c.sources, InflowOk s.2 := by
    have h1 : ∀ c ∈ [0, 1, 2].map combineObj, ∀ s ∈ c.sources, s.2.values.length = s.2.times.length ∧ s.2.times ≠ [] ∧ s.2.times.Pairwise (· < ·) ∧
      (∀ t ∈ s.2.times, 0 ≤ t) ∧ s.2.lo = ((0 : ℚ) : WithBot ℚ) ∧ s.2.hi = ⊤ ∧ ∀ v ∈ s.2.values, 0 ≤ v := by decide +kernel
    intro c hc s hs
    obtain ⟨a1, a2, a3, a4, a5, a6, a7⟩ := h1 c hc s hs
    exact ⟨a1, a2, a3, a4, a5, a6, a7⟩
  refine ⟨hb.graph, hb.capLen, hb.ttLen, hb.cap, hb.tt, by decide +kernel, by decide +kernel, ?_, by decide +kernel, ?_⟩
  · intro c hc s hs
    have h2 : ∀ c ∈ [0, 1, 2].map combineObj, ∀ s ∈ c.sources, s.1 ∈ buildNet.graph.nodes ∧ c.sink = 2 ∧ (s.1 = 0 ∨ s.1 = 1) := by decide +kernel
    obtain ⟨b1, b2, b3⟩ := h2 c hc s hs
    refine ⟨b1, ?_, hok c hc s hs⟩
    rw [b2]
    rcases b3 with h | h
    · rw [h]; exact e01.trans e12
    · rw [h]; exact e12
  · have : ∀ c ∈ [0, 1, 2].map combineObj, ∀ s ∈ c.sources, ∀ c' ∈ [0, 1, 2].map combineObj, ∀ s' ∈ c'.sources,
      ∀ a ∈ s.2.times, ∀ b ∈ s'.2.times, (a < b → eps < b - a) := by unfold eps; decide +kernel
    intro c hc s hs c' hc' s' hs' _ a ha b hb hab
    exact this c hc s hs c' hc' s' hs' a ha b hb hab

/-- **C52**, hypotheses met; the demand at node 0 is 7/2 for a while, before and after. -/
example : InputOk combineNet ∧ combineNet.commodities = [0, 1, 2].map combineObj ∧ [0, 1, 2].Nodup ∧ demand combineNet.commodities 0 2 0 (1 / 2) = 7 / 2 ∧
    ∃ n', combine List.dedup combineNet combineObj [0, 1, 2] [] = .ok n' ∧ n'.commodities.length = 2 ∧ demand n'.commodities 0 2 0 (1 / 2) = 7 / 2 := by
  refine ⟨combineNet_ok, rfl, by decide, by decide +kernel, ?_⟩
  have key : (match combine List.dedup combineNet combineObj [0, 1, 2] [] with
    | .error _ => false
    | .ok n' => decide (n'.commodities.length = 2 ∧ demand n'.commodities 0 2 0 (1 / 2) = 7 / 2)) = true := by decide +kernel
  cases h : combine List.dedup combineNet combineObj [0, 1, 2] [] with
  | error e => rw [h] at key; cases key
  | ok n' =>
    rw [h] at key
    exact ⟨n', rfl, of_decide_eq_true key⟩

/-- **C52**: that the commodities are distinct objects is needed: the demand of an object that is in the list twice is halved. -/
theorem C52_shared_object : ∃ n', combine List.dedup { combineNet with commodities := [0, 0].map combineObj } combineObj [0, 0] [] = .ok n' ∧
    demand ([0, 0].map combineObj) 0 2 0 1 = 6 ∧ demand n'.commodities 0 2 0 1 = 3 := by
  have key : (match combine List.dedup { combineNet with commodities := [0, 0].map combineObj } combineObj [0, 0] [] with
    | .error _ => false
    | .ok n' => decide (demand n'.commodities 0 2 0 1 = 3)) = true := by decide +kernel
  cases h : combine List.dedup { combineNet with commodities := [0, 0].map combineObj } combineObj [0, 0] [] with
  | error e => rw [h] at key; cases key
  | ok n' =>
    rw [h] at key
    exact ⟨n', rfl, by decide +kernel, of_decide_eq_true key⟩

end Verif.Props
