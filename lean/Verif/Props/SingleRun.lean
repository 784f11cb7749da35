import Verif.Model.SingleRun
import Verif.Props.Combine
import Verif.Props.Merge

/-! Property theorems C79: the commodities of an evaluation run. -/

namespace Verif.Props
open Verif Verif.Spec Verif.Combine Verif.SingleRun

variable {P : Type} [DecidableEq P] {n : Network P}

theorem demand_cons (c : Commodity P) (l : List (Commodity P)) (p : P) (k v : Nat) (t : ℚ) :
    demand (c :: l) p k v t = (if c.predictor = p ∧ c.sink = k then sourceRate c v t else 0) + demand l p k v t := by
  unfold demand
  by_cases h : c.predictor = p ∧ c.sink = k
  · rw [List.filter_cons_of_pos (by simpa using h), if_pos h]; simp
  · rw [List.filter_cons_of_neg (by simpa using h), if_neg h]; simp

theorem demand_perm {l l' : List (Commodity P)} (h : l.Perm l') (p : P) (k v : Nat) (t : ℚ) : demand l p k v t = demand l' p k v t := by
  unfold demand
  exact ((h.filter _).map _).sum_eq

omit [DecidableEq P] in
/-- New commodities with one source each, all with the same demand, added to a network. -/
theorem extend_ok {n1 : Network P} (h : InputPre n1) {source sink : Nat} {d : RC} (hd : InflowOk d) (hv : source ∈ n1.graph.nodes) (hp : Path n1.graph source sink) (hs : sink ∈ n1.graph.nodes)
    (hap : ∀ c ∈ n1.commodities, ∀ s ∈ c.sources, s.1 = source → ∀ a ∈ s.2.times, ∀ b ∈ d.times, (a < b → eps < b - a) ∧ (b < a → eps < a - b))
    (hself : ∀ a ∈ d.times, ∀ b ∈ d.times, a < b → eps < b - a) {preds : List P} (hne : preds ≠ [])
    (h1 : ∀ c ∈ n1.commodities, ∀ u ∈ c.sources.map Prod.fst, (∃ c' ∈ n1.commodities, Brk c'.sources u 0) ∨ (u = source ∧ (0 : ℚ) ∈ d.times))
    (h2 : (∃ c' ∈ n1.commodities, Brk c'.sources source 0) ∨ (0 : ℚ) ∈ d.times) :
    InputOk { n1 with commodities := n1.commodities ++ preds.map (fun p => ⟨[(source, d)], sink, p⟩) } := by
  obtain ⟨p0, hp0⟩ := List.exists_mem_of_ne_nil _ hne
  have hnew : (⟨[(source, d)], sink, p0⟩ : Commodity P) ∈ n1.commodities ++ preds.map (fun p => (⟨[(source, d)], sink, p⟩ : Commodity P)) :=
    List.mem_append_right _ (List.mem_map.mpr ⟨p0, hp0, rfl⟩)
  have hstart : ∀ u, (∃ c' ∈ n1.commodities, Brk c'.sources u 0) ∨ (u = source ∧ (0 : ℚ) ∈ d.times) →
      ∃ c' ∈ n1.commodities ++ preds.map (fun p => (⟨[(source, d)], sink, p⟩ : Commodity P)), ∃ s' ∈ c'.sources, s'.1 = u ∧ (0 : ℚ) ∈ s'.2.times := by
    rintro u (⟨c', a1, f, a2, a3⟩ | ⟨rfl, a⟩)
    · exact ⟨c', List.mem_append_left _ a1, _, a2, rfl, a3⟩
    · exact ⟨_, hnew, (u, d), by simp, rfl, a⟩
  refine ⟨h.graph, h.capLen, h.ttLen, h.cap, h.tt, ?_, ?_, ?_, ?_, ?_⟩
  · intro c hc
    rcases List.mem_append.mp hc with hc | hc
    · exact h.sink c hc
    · obtain ⟨p, _, rfl⟩ := List.mem_map.mp hc; exact hs
  · intro c hc
    rcases List.mem_append.mp hc with hc | hc
    · exact h.keys c hc
    · obtain ⟨p, _, rfl⟩ := List.mem_map.mp hc; simp
  · intro c hc s hsm
    rcases List.mem_append.mp hc with hc | hc
    · exact h.source c hc s hsm
    · obtain ⟨p, _, rfl⟩ := List.mem_map.mp hc
      simp only [List.mem_singleton] at hsm
      subst hsm
      exact ⟨hv, hp, hd⟩
  · intro c hc s hsm
    rcases List.mem_append.mp hc with hc | hc
    · exact hstart s.1 (h1 c hc s.1 (List.mem_map.mpr ⟨s, hsm, rfl⟩))
    · obtain ⟨p, _, rfl⟩ := List.mem_map.mp hc
      simp only [List.mem_singleton] at hsm
      subst hsm
      exact hstart source (h2.imp_right (fun a => ⟨rfl, a⟩))
  · intro c hc s hsm c' hc' s' hsm' he a ha b hb hab
    rcases List.mem_append.mp hc with hc | hc <;> rcases List.mem_append.mp hc' with hc' | hc'
    · exact h.apart c hc s hsm c' hc' s' hsm' he a ha b hb hab
    · obtain ⟨p, _, rfl⟩ := List.mem_map.mp hc'
      simp only [List.mem_singleton] at hsm'
      subst hsm'
      exact (hap c hc s hsm he.symm a ha b hb).1 hab
    · obtain ⟨p, _, rfl⟩ := List.mem_map.mp hc
      simp only [List.mem_singleton] at hsm
      subst hsm
      exact (hap c' hc' s' hsm' he b hb a ha).2 hab
    · obtain ⟨p, _, rfl⟩ := List.mem_map.mp hc
      obtain ⟨p', _, rfl⟩ := List.mem_map.mp hc'
      simp only [List.mem_singleton] at hsm hsm'
      subst hsm; subst hsm'
      exact hself a ha b hb hab

omit [DecidableEq P] in
/-- Fewer commodities. -/
theorem InputPre.sub (h : InputPre n) {l : List (Commodity P)} (hl : ∀ c ∈ l, c ∈ n.commodities) : InputPre { n with commodities := l } :=
  ⟨h.graph, h.capLen, h.ttLen, h.cap, h.tt, fun c hc => h.sink c (hl c hc), fun c hc => h.keys c (hl c hc), fun c hc => h.source c (hl c hc),
    fun c hc s hs c' hc' => h.apart c (hl c hc) s hs c' (hl c' hc')⟩

/-- `split_demand` divides every rate. -/
theorem splitDemand_ok {f : RC} (h : InflowOk f) {k : Nat} (hk : 0 < k) :
    splitDemand f k = .ok { f with values := f.values.map (· / (k : ℚ)) } ∧ InflowOk { f with values := f.values.map (· / (k : ℚ)) } ∧
      ∀ t, 0 ≤ t → stepValue { f with values := f.values.map (· / (k : ℚ)) } t = stepValue f t / k := by
  have hd : InflowOk { f with values := f.values.map (· / (k : ℚ)) } := by
    refine ⟨by rw [List.length_map]; exact h.len, h.ne, h.lt, h.pos, h.lo, h.hi, ?_⟩
    intro v hv
    obtain ⟨w, hw, rfl⟩ := List.mem_map.mp hv
    exact div_nonneg (h.vals w hw) (by positivity)
  refine ⟨?_, hd, ?_⟩
  · unfold splitDemand
    have : Builder.mapPy (fun v => pyDiv v (k : ℚ)) f.values = .ok (f.values.map (· / (k : ℚ))) := by
      induction f.values with
      | nil => rfl
      | cons v vs ih =>
        unfold Builder.mapPy pyDiv
        rw [if_neg (by positivity), ok_bind]
        unfold pyDiv at ih
        rw [ih]; rfl
    rw [this, ok_bind]
    exact RC.new_ok (Builder.inflowOk_wf hd)
  · intro t ht
    rw [Builder.stepValue_fn hd ht, Builder.stepValue_fn h ht]
    have hidx : RC.idx { f with values := f.values.map (· / (k : ℚ)) } t = f.idx t := rfl
    unfold RC.fn
    rw [hidx]
    simp only [List.getD_eq_getElem?_getD, List.getElem?_map]
    cases f.values[f.idx t]? <;> simp

/-- What both cases have in common. -/
theorem setup_core (hn : InputOk n) {ord : List Nat → List Nat} (ho : OrderOk ord) {obj : Nat → Commodity P} {refs : List Nat} (hrefs : n.commodities = refs.map obj) (hnd : refs.Nodup)
    {focused r source : Nat} {f : RC} (hr : refs[focused]? = some r) (hs : (obj r).sources = [(source, f)]) {preds : List P} (hne : preds ≠ []) {split : Bool} {inflowHorizon : ℚ} {rest : List Nat} {d : RC}
    (hprep : prepare n refs r f preds.length split inflowHorizon = .ok (rest, d)) (hrest : ∀ x ∈ rest, x ∈ refs) (hrnd : rest.Nodup) (hall : ∀ x ∈ refs, x ≠ r → x ∈ rest)
    (hcase : r ∈ rest ∨ d.times = f.times) (hd : InflowOk d)
    (hap : ∀ c ∈ n.commodities, ∀ s ∈ c.sources, s.1 = source → ∀ a ∈ s.2.times, ∀ b ∈ d.times, (a < b → eps < b - a) ∧ (b < a → eps < a - b))
    (hself : ∀ a ∈ d.times, ∀ b ∈ d.times, a < b → eps < b - a) :
    ∃ n' m, setup ord n obj refs preds focused split inflowHorizon = .ok (n', (List.range preds.length).map (fun i => m + i)) ∧ InputOk n' ∧ n'.graph = n.graph ∧ n'.capacity = n.capacity ∧
      n'.travelTime = n.travelTime ∧ n'.commodities.length = m + preds.length ∧
      (∀ (j : Nat) (p : P), preds[j]? = some p → n'.commodities[m + j]? = some ⟨[(source, d)], (obj r).sink, p⟩) ∧
      (∀ p k u t, 0 ≤ t → demand (n'.commodities.take m) p k u t = demand (rest.map obj) p k u t) ∧
      ((n'.commodities.take m).map (fun c => (c.predictor, c.sink))).Nodup ∧
      ∀ key, key ∈ (n'.commodities.take m).map (fun c => (c.predictor, c.sink)) ↔ ∃ x ∈ rest, ((obj x).predictor, (obj x).sink) = key := by
  have hrm : r ∈ refs := List.mem_of_getElem? hr
  have hcm : obj r ∈ n.commodities := by rw [hrefs]; exact List.mem_map.mpr ⟨r, hrm, rfl⟩
  have hsm : (source, f) ∈ (obj r).sources := by rw [hs]; simp
  have hsub : ∀ c ∈ rest.map obj, c ∈ n.commodities := by
    intro c hc
    obtain ⟨x, hx, rfl⟩ := List.mem_map.mp hc
    rw [hrefs]; exact List.mem_map.mpr ⟨x, hrest x hx, rfl⟩
  obtain ⟨n1, h1, h2, h3, h4, h5, h6, ⟨merged, kept, h7, h7', h7a, h7b⟩, h8, h9, h10⟩ := combine_pre ((InputPre.of hn).sub hsub) ho (obj := obj) (refs := rest) (ex := []) rfl hrnd (by simp)
  obtain ⟨g1, g2, _⟩ := hn.source _ hcm _ hsm
  have hgo : ∀ c ∈ n.commodities, ∀ s ∈ c.sources, (∃ c' ∈ n1.commodities, Brk c'.sources s.1 0) ∨ (s.1 = source ∧ (0 : ℚ) ∈ d.times) := by
    intro c hc s hsc
    obtain ⟨c2, k1, s2, k2, k3, k4⟩ := hn.start c hc s hsc
    rw [hrefs] at k1
    obtain ⟨x, hx, rfl⟩ := List.mem_map.mp k1
    by_cases hxr : x ∈ rest
    · exact .inl (h9 (obj x) (List.mem_map.mpr ⟨x, hxr, rfl⟩) s.1 0 ⟨s2.2, by rw [← k3]; exact k2, k4⟩)
    · have hx' : x = r := by by_contra hne'; exact hxr (hall x hx hne')
      subst hx'
      have ht := hcase.resolve_left hxr
      rw [hs, List.mem_singleton] at k2
      subst k2
      exact .inr ⟨k3.symm, by rw [ht]; exact k4⟩
  have hok := extend_ok h2 hd (source := source) (sink := (obj r).sink) (by rw [h3]; exact g1) (by rw [h3]; exact g2) (by rw [h3]; exact hn.sink _ hcm)
    (fun c hc s hsc he a ha b hb => by
      obtain ⟨c', c1, g, c2, c3⟩ := h10 c hc s.1 a ⟨s.2, hsc, ha⟩
      exact hap c' (hsub c' c1) (s.1, g) c2 he a c3 b hb) hself hne
    (fun c hc u hu => by
      obtain ⟨c', c1, _, c3⟩ := h8 c hc u hu
      obtain ⟨s', s1, s2⟩ := List.mem_map.mp c3
      rw [← s2]
      exact hgo c' (hsub c' c1) s' s1)
    ((hgo _ hcm _ hsm).imp_right And.right)
  have hkept : kept = [] := by simpa using h7'
  rw [hkept, List.append_nil] at h7
  refine ⟨_, n1.commodities.length, ?_, hok, h3, h4, h5, by simp, ?_, ?_, ?_, ?_⟩
  · unfold setup
    rw [rd_eq_ok.mpr hr, ok_bind, hs]
    show (do
      let (rest, d) ← prepare n refs r f preds.length split inflowHorizon
      let n' ← Combine.combine ord { n with commodities := rest.map obj } obj rest []
      pure ({ n' with commodities := n'.commodities ++ preds.map (fun p => ⟨[(source, d)], (obj r).sink, p⟩) },
        (List.range preds.length).map (fun i => n'.commodities.length + i)) : Py (Network P × List Nat)) = _
    rw [hprep, ok_bind]
    show (do
      let n' ← Combine.combine ord { n with commodities := rest.map obj } obj rest []
      pure ({ n' with commodities := n'.commodities ++ preds.map (fun p => ⟨[(source, d)], (obj r).sink, p⟩) },
        (List.range preds.length).map (fun i => n'.commodities.length + i)) : Py (Network P × List Nat)) = _
    rw [h1, ok_bind]; rfl
  · intro j p hj
    rw [List.getElem?_append_right (by omega), Nat.add_sub_cancel_left, List.getElem?_map, hj]; rfl
  · intro p k u t ht
    rw [List.take_left']
    · exact h6 p k u t ht
    · rfl
  · rw [List.take_left' rfl, h7]; exact h7a
  · intro key
    rw [List.take_left' rfl, h7, h7b key]; simp

/-- **C79**, with `split`: the focused commodity is replaced by one commodity per predictor, each with the same source and sink and an equal share of its inflow; they are the last commodities and the
returned indices are theirs. All other commodities keep their demand, and the network is valid again. -/
theorem C79_split (hn : InputOk n) {ord : List Nat → List Nat} (ho : OrderOk ord) {obj : Nat → Commodity P} {refs : List Nat} (hrefs : n.commodities = refs.map obj) (hnd : refs.Nodup)
    {focused r : Nat} (hr : refs[focused]? = some r) (h1 : (obj r).sources.length = 1) {preds : List P} (hne : preds ≠ []) (inflowHorizon : ℚ) :
    ∃ n' m, setup ord n obj refs preds focused true inflowHorizon = .ok (n', (List.range preds.length).map (fun i => m + i)) ∧ InputOk n' ∧ n'.graph = n.graph ∧ n'.capacity = n.capacity ∧
      n'.travelTime = n.travelTime ∧ n'.commodities.length = m + preds.length ∧
      (∀ (j : Nat) (p : P), preds[j]? = some p → ∃ c, n'.commodities[m + j]? = some c ∧ c.predictor = p ∧ c.sink = (obj r).sink ∧ c.sources.map Prod.fst = (obj r).sources.map Prod.fst ∧
        ∀ u t, 0 ≤ t → sourceRate c u t = sourceRate (obj r) u t / preds.length) ∧
      (∀ p k u t, 0 ≤ t → demand (n'.commodities.take m) p k u t + (if (obj r).predictor = p ∧ (obj r).sink = k then sourceRate (obj r) u t else 0) = demand n.commodities p k u t) ∧
      ((n'.commodities.take m).map (fun c => (c.predictor, c.sink))).Nodup ∧
      ∀ key, key ∈ (n'.commodities.take m).map (fun c => (c.predictor, c.sink)) ↔ ∃ x ∈ refs, x ≠ r ∧ ((obj x).predictor, (obj x).sink) = key := by
  obtain ⟨⟨source, f⟩, hs⟩ := List.length_eq_one_iff.mp h1
  have hrm : r ∈ refs := List.mem_of_getElem? hr
  have hcm : obj r ∈ n.commodities := by rw [hrefs]; exact List.mem_map.mpr ⟨r, hrm, rfl⟩
  have hsm : (source, f) ∈ (obj r).sources := by rw [hs]; simp
  obtain ⟨_, _, hf⟩ := hn.source _ hcm _ hsm
  have hk : 0 < preds.length := List.length_pos_iff.mpr hne
  obtain ⟨d1, d2, d3⟩ := splitDemand_ok hf hk
  obtain ⟨n', m, a1, a2, a3, a4, a5, a6, a7, a8, a9, a10⟩ := setup_core hn ho hrefs hnd hr hs hne (split := true) (inflowHorizon := inflowHorizon) (rest := refs.erase r)
    (d := { f with values := f.values.map (· / (preds.length : ℚ)) })
    (by unfold prepare; rw [if_pos rfl, d1, ok_bind]; rfl) (fun x hx => List.mem_of_mem_erase hx) (hnd.erase r) (fun x hx hxr => (List.mem_erase_of_ne hxr).mpr hx) (.inr rfl) d2
    (fun c hc s hsc he a ha b hb => ⟨hn.apart c hc s hsc _ hcm _ hsm he.symm a ha b hb, hn.apart _ hcm _ hsm c hc s hsc he b hb a ha⟩)
    (fun a ha b hb => hn.apart _ hcm _ hsm _ hcm _ hsm rfl a ha b hb)
  refine ⟨n', m, a1, a2, a3, a4, a5, a6, ?_, ?_, a9, ?_⟩
  · intro j p hj
    refine ⟨_, a7 j p hj, rfl, rfl, by rw [hs]; rfl, ?_⟩
    intro u t ht
    unfold sourceRate
    rw [hs]
    simp only [List.lookup_cons, List.lookup_nil]
    by_cases hu : u = source
    · simp only [hu, beq_self_eq_true, d3 t ht]
    · have : (u == source) = false := by simpa using hu
      simp only [this, zero_div]
  · intro p k u t ht
    rw [a8 p k u t ht, hrefs, demand_perm ((List.perm_cons_erase hrm).map obj) p k u t, List.map_cons, demand_cons]
    ring
  · intro key
    rw [a10 key]
    constructor
    · rintro ⟨x, hx, e⟩
      obtain ⟨x1, x2⟩ := (hnd.mem_erase_iff).mp hx
      exact ⟨x, x2, x1, e⟩
    · rintro ⟨x, hx, hne', e⟩
      exact ⟨x, (hnd.mem_erase_iff).mpr ⟨hne', hx⟩, e⟩

/-- **C79**, with `split`, in total: the new commodities together have the inflow of the focused one. -/
theorem C79_split_total (c : Commodity P) (cs : List (Commodity P)) (hne : cs ≠ []) (u : Nat) (t : ℚ) (h : ∀ c' ∈ cs, sourceRate c' u t = sourceRate c u t / cs.length) :
    (cs.map (fun c' => sourceRate c' u t)).sum = sourceRate c u t := by
  rw [List.map_congr_left h, List.map_const', List.sum_replicate, nsmul_eq_mul]
  have : (cs.length : ℚ) ≠ 0 := by
    have := List.length_pos_iff.mpr hne
    positivity
  field_simp

/-- The demand of a test commodity. -/
theorem testDemand_ok {caps : List ℚ} {f : RC} {k : Nat} {h mn v0 : ℚ} (hk : 0 < k) (hh : 0 < h) (hm : mn ∈ caps) (hmn : ∀ c ∈ caps, mn ≤ c) (hpos : 0 < mn) (hv : f.values.head? = some v0) :
    testDemand caps f k h = .ok ⟨[0, h], [max (mn / 256) (v0 / 16 / k), 0], ((0 : ℚ) : WithBot ℚ), ⊤⟩ ∧
      InflowOk ⟨[0, h], [max (mn / 256) (v0 / 16 / k), 0], ((0 : ℚ) : WithBot ℚ), ⊤⟩ ∧
      ∀ t, 0 ≤ t → stepValue ⟨[0, h], [max (mn / 256) (v0 / 16 / k), 0], ((0 : ℚ) : WithBot ℚ), ⊤⟩ t = if t < h then max (mn / 256) (v0 / 16 / k) else 0 := by
  have hd : InflowOk ⟨[0, h], [max (mn / 256) (v0 / 16 / k), 0], ((0 : ℚ) : WithBot ℚ), ⊤⟩ := by
    refine ⟨rfl, by simp, by simpa using hh, ?_, rfl, rfl, ?_⟩
    · intro t ht
      simp only [List.mem_cons, List.not_mem_nil, or_false] at ht
      rcases ht with rfl | rfl
      · exact le_rfl
      · exact hh.le
    · intro v hv
      simp only [List.mem_cons, List.not_mem_nil, or_false] at hv
      rcases hv with rfl | rfl
      · exact le_trans (by positivity) (le_max_left _ _)
      · exact le_rfl
  refine ⟨?_, hd, ?_⟩
  · unfold testDemand
    rw [List.min?_eq_some_iff.mpr ⟨hm, hmn⟩]
    have : rd f.values 0 = .ok v0 := rd_eq_ok.mpr (by rw [← List.head?_eq_getElem?]; exact hv)
    simp only
    rw [this, ok_bind]
    unfold pyDiv
    rw [if_neg (by positivity), ok_bind]
    exact RC.new_ok (Builder.inflowOk_wf hd)
  · intro t ht
    rw [Builder.stepValue_fn hd ht]
    unfold RC.fn RC.idx RC.cnt
    by_cases hlt : t < h
    · rw [if_pos hlt]
      simp [ht, hlt]
    · rw [if_neg hlt]
      simp [ht, not_lt.mp hlt]

/-- **C79**, without `split`: one commodity per predictor is added, each with the source and sink of the focused commodity and the same small inflow until `inflow_horizon`: the larger one of 1/256 of the
smallest capacity and its share of 1/16 of the first inflow rate. All commodities keep their demand. The `inflow_horizon` must be clear of the times at which the other inflows at this source change. -/
theorem C79_added (hn : InputOk n) {ord : List Nat → List Nat} (ho : OrderOk ord) {obj : Nat → Commodity P} {refs : List Nat} (hrefs : n.commodities = refs.map obj) (hnd : refs.Nodup)
    {focused r source : Nat} {f : RC} (hr : refs[focused]? = some r) (hs : (obj r).sources = [(source, f)]) {preds : List P} (hne : preds ≠ []) {inflowHorizon v0 mn : ℚ} (hh : eps < inflowHorizon)
    (hclear : ∀ c ∈ n.commodities, ∀ s ∈ c.sources, s.1 = source → ∀ a ∈ s.2.times, a ≠ inflowHorizon → eps < |a - inflowHorizon|)
    (hmn : mn ∈ n.capacity ∧ ∀ c ∈ n.capacity, mn ≤ c) (hv0 : f.values.head? = some v0) :
    ∃ n' m, setup ord n obj refs preds focused false inflowHorizon = .ok (n', (List.range preds.length).map (fun i => m + i)) ∧ InputOk n' ∧ n'.graph = n.graph ∧ n'.capacity = n.capacity ∧
      n'.travelTime = n.travelTime ∧ n'.commodities.length = m + preds.length ∧
      (∀ (j : Nat) (p : P), preds[j]? = some p → ∃ c, n'.commodities[m + j]? = some c ∧ c.predictor = p ∧ c.sink = (obj r).sink ∧ c.sources.map Prod.fst = [source] ∧
        ∀ t, 0 ≤ t → sourceRate c source t = if t < inflowHorizon then max (mn / 256) (v0 / 16 / preds.length) else 0) ∧
      (∀ p k u t, 0 ≤ t → demand (n'.commodities.take m) p k u t = demand n.commodities p k u t) ∧
      ((n'.commodities.take m).map (fun c => (c.predictor, c.sink))).Nodup ∧
      ∀ key, key ∈ (n'.commodities.take m).map (fun c => (c.predictor, c.sink)) ↔ ∃ x ∈ refs, ((obj x).predictor, (obj x).sink) = key := by
  have hrm : r ∈ refs := List.mem_of_getElem? hr
  have hcm : obj r ∈ n.commodities := by rw [hrefs]; exact List.mem_map.mpr ⟨r, hrm, rfl⟩
  have hsm : (source, f) ∈ (obj r).sources := by rw [hs]; simp
  have hk : 0 < preds.length := List.length_pos_iff.mpr hne
  have h0 := eps_pos
  obtain ⟨d1, d2, d3⟩ := testDemand_ok (k := preds.length) hk (lt_trans h0 hh) hmn.1 hmn.2 (hn.cap _ hmn.1) hv0
  obtain ⟨c2, k1, s2, k2, k3, k4⟩ := hn.start _ hcm _ hsm
  obtain ⟨n', m, a1, a2, a3, a4, a5, a6, a7, a8, a9, a10⟩ := setup_core hn ho hrefs hnd hr hs hne (split := false) (inflowHorizon := inflowHorizon) (rest := refs)
    (d := ⟨[0, inflowHorizon], [max (mn / 256) (v0 / 16 / preds.length), 0], ((0 : ℚ) : WithBot ℚ), ⊤⟩)
    (by unfold prepare; rw [if_neg (by simp), d1, ok_bind]; rfl) (fun x hx => hx) hnd (fun x hx _ => hx) (.inl hrm) d2
    (fun c hc s hsc he a ha b hb => by
      simp only [List.mem_cons, List.not_mem_nil, or_false] at hb
      have hpos := (hn.source c hc s hsc).2.2.pos a ha
      rcases hb with rfl | rfl
      · exact ⟨fun h => absurd h (not_lt.mpr hpos), fun h => hn.apart _ k1 _ k2 c hc s hsc (he.trans k3.symm) 0 k4 a ha h⟩
      · refine ⟨fun h => ?_, fun h => ?_⟩
        · have := hclear c hc s hsc he a ha (ne_of_lt h)
          rw [abs_of_neg (by linarith)] at this
          linarith
        · have := hclear c hc s hsc he a ha (ne_of_gt h)
          rw [abs_of_pos (by linarith)] at this
          linarith)
    (fun a ha b hb hab => by
      simp only [List.mem_cons, List.not_mem_nil, or_false] at ha hb
      rcases ha with rfl | rfl <;> rcases hb with rfl | rfl <;> linarith)
  refine ⟨n', m, a1, a2, a3, a4, a5, a6, ?_, ?_, a9, a10⟩
  · intro j p hj
    refine ⟨_, a7 j p hj, rfl, rfl, rfl, ?_⟩
    intro t ht
    unfold sourceRate
    simp only [List.lookup_cons, beq_self_eq_true]
    exact d3 t ht
  · intro p k u t ht
    rw [a8 p k u t ht, hrefs]

/-- **C79.** A focused commodity with no or several sources is refused with a `ValueError`. -/
theorem C79_refused (ord : List Nat → List Nat) (n : Network P) (obj : Nat → Commodity P) {refs : List Nat} {focused r : Nat} (hr : refs[focused]? = some r) (h : (obj r).sources.length ≠ 1)
    (preds : List P) (split : Bool) (inflowHorizon : ℚ) : setup ord n obj refs preds focused split inflowHorizon = .error .value := by
  unfold setup
  rw [rd_eq_ok.mpr hr, ok_bind]
  match hs : (obj r).sources, h with
  | [], _ => rfl
  | [x], h => exact absurd rfl h
  | x :: y :: l, _ => rfl

/-- A list of distinct keys is at most as long as a list that has them all. -/
theorem keys_le {α : Type} [DecidableEq α] {l : List (Commodity P)} {g : Commodity P → α} (hnd : (l.map g).Nodup) {l' : List α} (h : ∀ a ∈ l.map g, a ∈ l') : l.length ≤ l'.length := by
  have := (hnd.subperm h).length_le
  simpa using this

/-- A run with its result, decided. -/
theorem setup_example {n : Network (Fin 3)} {refs : List Nat} {preds : List (Fin 3)} {focused : Nat} {split : Bool} {h : ℚ} (post : Network (Fin 3) → List Nat → Prop) [∀ a b, Decidable (post a b)]
    (key : (match setup List.dedup n combineObj refs preds focused split h with
      | .error _ => false
      | .ok r => decide (post r.1 r.2)) = true) : ∃ n' new, setup List.dedup n combineObj refs preds focused split h = .ok (n', new) ∧ post n' new := by
  cases hs : setup List.dedup n combineObj refs preds focused split h with
  | error e => rw [hs] at key; cases key
  | ok r =>
    rw [hs] at key
    exact ⟨r.1, r.2, rfl, of_decide_eq_true key⟩

/-- **C79**, hypotheses met, with `split`: commodity 0 of three is split for two predictors; commodities 1 and 2 stay, and the new ones have the indices 2 and 3 and the rate 3/2 each. -/
example : InputOk combineNet ∧ combineNet.commodities = [0, 1, 2].map combineObj ∧ [0, 1, 2].Nodup ∧ ([0, 1, 2] : List Nat)[0]? = some 0 ∧ (combineObj 0).sources.length = 1 ∧
    ∃ n' new, setup List.dedup combineNet combineObj [0, 1, 2] [1, 2] 0 true 5 = .ok (n', new) ∧
      (new = [2, 3] ∧ n'.commodities.length = 4 ∧ (n'.commodities[3]?.map (fun c => (sourceRate c 0 1, c.predictor))) = some (3 / 2, 2)) :=
  ⟨combineNet_ok, rfl, by decide, rfl, rfl, setup_example _ (by decide +kernel)⟩

/-- **C79**, hypotheses met, without `split`: the first two commodities are combined into one, and two small ones are added. -/
example : (combineObj 0).sources = [(0, ⟨[0, 2], [3, 0], ((0 : ℚ) : WithBot ℚ), ⊤⟩)] ∧ eps < (5 : ℚ) ∧
    (∀ c ∈ combineNet.commodities, ∀ s ∈ c.sources, s.1 = 0 → ∀ a ∈ s.2.times, a ≠ 5 → eps < |a - 5|) ∧ (∃ mn, mn ∈ combineNet.capacity ∧ ∀ c ∈ combineNet.capacity, mn ≤ c) ∧
    ∃ n' new, setup List.dedup combineNet combineObj [0, 1, 2] [1, 2] 0 false 5 = .ok (n', new) ∧
      (new = [2, 3] ∧ n'.commodities.length = 4 ∧ (n'.commodities[3]?.map (fun c => (sourceRate c 0 1, c.predictor))) = some (3 / 32, 2)) :=
  ⟨rfl, by unfold eps; decide +kernel, by unfold eps; decide +kernel, ⟨1, by decide +kernel⟩, setup_example _ (by decide +kernel)⟩

/-- **C79**, hypotheses met: a commodity with two sources. -/
example : ([0, 1, 2] : List Nat)[1]? = some 1 ∧ (combineObj 1).sources.length ≠ 1 := ⟨rfl, by decide +kernel⟩

/-- **C80.** `eval_network_demand` merges the commodities `range(original_num_commodities)` for the picture. Without `split`, and if no two of the original commodities have the same sink and predictor,
these are exactly the original ones, so that the picture shows the rates of all evaluated commodities. -/
theorem C80_picture_partial (hn : InputOk n) {ord : List Nat → List Nat} (ho : OrderOk ord) {obj : Nat → Commodity P} {refs : List Nat} (hrefs : n.commodities = refs.map obj) (hnd : refs.Nodup)
    {focused r source : Nat} {f : RC} (hr : refs[focused]? = some r) (hs : (obj r).sources = [(source, f)]) {preds : List P} (hne : preds ≠ []) {inflowHorizon v0 mn : ℚ} (hh : eps < inflowHorizon)
    (hclear : ∀ c ∈ n.commodities, ∀ s ∈ c.sources, s.1 = source → ∀ a ∈ s.2.times, a ≠ inflowHorizon → eps < |a - inflowHorizon|)
    (hmn : mn ∈ n.capacity ∧ ∀ c ∈ n.capacity, mn ≤ c) (hv0 : f.values.head? = some v0) (hkeys : (n.commodities.map (fun c => (c.predictor, c.sink))).Nodup)
    {n' : Network P} {new : List Nat} (hset : setup ord n obj refs preds focused false inflowHorizon = .ok (n', new)) :
    (∀ i, i < n'.commodities.length → (i ∈ new ↔ i ∉ List.range n.commodities.length)) ∧
    ∀ {net : EdgeData} {s s' : DFlow} {m : Nat} {inItems outItems : Nat → List (Nat × RC)}, Reached net s → (∀ e < m, Items (s.inflow e) (inItems e)) → (∀ e < m, Items (s.outflow e) (outItems e)) →
      Merge.mergeCommodities s m (List.range n.commodities.length) inItems outItems = .ok s' →
      ∀ i ∈ new, ∀ e < m, ∀ x, 0 ≤ x → inRate s' e i x = inRate s e i x ∧ outRate s' e i x = outRate s e i x := by
  obtain ⟨n1, m, a1, _, _, _, _, a6, _, _, a9, a10⟩ := C79_added hn ho hrefs hnd hr hs hne hh hclear hmn hv0
  rw [hset] at a1
  injection a1 with a1
  injection a1 with a1 a1'
  subst a1; subst a1'
  have hm : m = n.commodities.length := by
    have hl : (n'.commodities.take m).length = m := by rw [List.length_take, a6]; omega
    have hmem : ∀ key, key ∈ (n'.commodities.take m).map (fun c => (c.predictor, c.sink)) ↔ key ∈ n.commodities.map (fun c => (c.predictor, c.sink)) := by
      intro key
      rw [a10 key, hrefs]
      simp only [List.mem_map]
      constructor
      · rintro ⟨x, hx, e⟩; exact ⟨obj x, ⟨x, hx, rfl⟩, e⟩
      · rintro ⟨c, ⟨x, hx, rfl⟩, e⟩; exact ⟨x, hx, e⟩
    have h1 := keys_le a9 (fun a ha => (hmem a).mp ha)
    have h2 := keys_le hkeys (fun a ha => (hmem a).mpr ha)
    rw [List.length_map] at h1 h2
    omega
  have hnew : ∀ i, i ∈ (List.range preds.length).map (fun i => m + i) ↔ m ≤ i ∧ i < m + preds.length := by
    intro i
    simp only [List.mem_map, List.mem_range]
    constructor
    · rintro ⟨j, hj, rfl⟩; omega
    · rintro ⟨h1, h2⟩; exact ⟨i - m, by omega, by omega⟩
  refine ⟨?_, ?_⟩
  · intro i hi
    rw [hnew, List.mem_range, ← hm]
    omega
  · intro net s s' me inItems outItems hreach hin hout hmerge i hi e he x hx
    have hrm : r ∈ refs := List.mem_of_getElem? hr
    have hcs : List.range n.commodities.length ≠ [] := by
      rw [Ne, List.range_eq_nil, hrefs, List.length_map]
      have := List.length_pos_of_mem hrm
      omega
    obtain ⟨s1, k, b1, _, _, _, b5⟩ := C53_merge hreach hcs hin hout
    rw [hmerge] at b1
    injection b1 with b1
    subst b1
    have hni : i ∉ List.range n.commodities.length := by
      rw [List.mem_range, ← hm]
      have := ((hnew i).mp hi).1
      omega
    exact ⟨(b5 e he).1.kept i hni x hx, (b5 e he).2.kept i hni x hx⟩

/-- **C80**, the full claim fails: with `split`, in every network with at least two commodities, the first evaluated commodity is among those that are merged into commodity 0, and the picture shows no
flow of it on any edge. -/
theorem C80_split_hides (hn : InputOk n) {ord : List Nat → List Nat} (ho : OrderOk ord) {obj : Nat → Commodity P} {refs : List Nat} (hrefs : n.commodities = refs.map obj) (hnd : refs.Nodup)
    {focused r : Nat} (hr : refs[focused]? = some r) (h1 : (obj r).sources.length = 1) {preds : List P} (hne : preds ≠ []) {inflowHorizon : ℚ} (h2 : 2 ≤ n.commodities.length)
    {n' : Network P} {new : List Nat} (hset : setup ord n obj refs preds focused true inflowHorizon = .ok (n', new)) :
    ∃ i, new.head? = some i ∧ i ∈ List.range n.commodities.length ∧
    ∀ {net : EdgeData} {s s' : DFlow} {m : Nat} {inItems outItems : Nat → List (Nat × RC)}, Reached net s → (∀ e < m, Items (s.inflow e) (inItems e)) → (∀ e < m, Items (s.outflow e) (outItems e)) →
      Merge.mergeCommodities s m (List.range n.commodities.length) inItems outItems = .ok s' → ∀ e < m, ∀ x, 0 ≤ x → inRate s' e i x = 0 ∧ outRate s' e i x = 0 := by
  obtain ⟨n1, m, a1, _, _, _, _, a6, _, _, a9, a10⟩ := C79_split hn ho hrefs hnd hr h1 hne inflowHorizon
  rw [hset] at a1
  injection a1 with a1
  injection a1 with a1 a1'
  subst a1; subst a1'
  have hrm : r ∈ refs := List.mem_of_getElem? hr
  have hlen : n.commodities.length = refs.length := by rw [hrefs, List.length_map]
  have hl : (n'.commodities.take m).length = m := by rw [List.length_take, a6]; omega
  have hle : m ≤ (refs.erase r).length := by
    have := keys_le a9 (l' := (refs.erase r).map (fun x => ((obj x).predictor, (obj x).sink))) (fun a ha => by
      obtain ⟨x, x1, x2, x3⟩ := (a10 a).mp ha
      exact List.mem_map.mpr ⟨x, (hnd.mem_erase_iff).mpr ⟨x2, x1⟩, x3⟩)
    rw [List.length_map] at this
    omega
  rw [List.length_erase_of_mem hrm] at hle
  have hpos : 0 < m := by
    obtain ⟨x, hx⟩ : ∃ x, x ∈ refs.erase r := List.exists_mem_of_length_pos (by rw [List.length_erase_of_mem hrm]; omega)
    obtain ⟨x1, x2⟩ := (hnd.mem_erase_iff).mp hx
    have := (a10 _).mpr ⟨x, x2, x1, rfl⟩
    obtain ⟨c, hc, _⟩ := List.mem_map.mp this
    have := List.length_pos_of_mem hc
    omega
  have hk : 0 < preds.length := List.length_pos_iff.mpr hne
  refine ⟨m, ?_, by rw [List.mem_range]; omega, ?_⟩
  · rw [List.head?_map, List.head?_range, if_neg (by omega)]; rfl
  · intro net s s' me inItems outItems hreach hin hout hmerge e he x hx
    obtain ⟨s1, k, b1, _, b3, b4, b5⟩ := C53_merge hreach (cs := List.range n.commodities.length) (by rw [Ne, List.range_eq_nil]; omega) hin hout
    rw [hmerge] at b1
    injection b1 with b1
    subst b1
    have h0 := b4 0 (List.mem_range.mpr (by omega))
    have hmem : m ∈ List.range n.commodities.length := List.mem_range.mpr (by omega)
    exact ⟨(b5 e he).1.gone m hmem (by omega) x hx, (b5 e he).2.gone m hmem (by omega) x hx⟩

/-- Two commodities of different predictors. -/
def pictureNet : Network (Fin 3) := { buildNet with commodities := [0, 2].map combineObj }

theorem pictureNet_ok : InputOk pictureNet := by
  have hb := combineNet_ok
  have hsub : ∀ c ∈ [0, 2].map combineObj, c ∈ combineNet.commodities := by
    intro c hc
    obtain ⟨x, hx, rfl⟩ := List.mem_map.mp hc
    exact List.mem_map.mpr ⟨x, by revert hx; simp; omega, rfl⟩
  exact ⟨hb.graph, hb.capLen, hb.ttLen, hb.cap, hb.tt, fun c hc => hb.sink c (hsub c hc), fun c hc => hb.keys c (hsub c hc), fun c hc => hb.source c (hsub c hc), by decide +kernel,
    fun c hc s hs c' hc' => hb.apart c (hsub c hc) s hs c' (hsub c' hc')⟩

/-- **C80**, hypotheses met: two commodities with different predictors; the picture merges 0 and 1 and shows 2 and 3, with `split` it hides 1. -/
example : InputOk pictureNet ∧ pictureNet.commodities = [0, 2].map combineObj ∧ (pictureNet.commodities.map (fun c => (c.predictor, c.sink))).Nodup ∧
    (∀ c ∈ pictureNet.commodities, ∀ s ∈ c.sources, s.1 = 0 → ∀ a ∈ s.2.times, a ≠ 5 → eps < |a - 5|) ∧ 2 ≤ pictureNet.commodities.length ∧
    (∃ n' new, setup List.dedup pictureNet combineObj [0, 2] [1, 2] 0 false 5 = .ok (n', new) ∧ new = [2, 3]) ∧
    ∃ n' new, setup List.dedup pictureNet combineObj [0, 2] [1, 2] 0 true 5 = .ok (n', new) ∧ new = [1, 2] :=
  ⟨pictureNet_ok, rfl, by decide +kernel, by unfold eps; decide +kernel, by decide, setup_example (fun _ new => new = [2, 3]) (by decide +kernel), setup_example (fun _ new => new = [1, 2]) (by decide +kernel)⟩

end Verif.Props
