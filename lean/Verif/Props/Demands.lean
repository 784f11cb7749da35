import Verif.Spec.Demands
import Verif.Props.Combine
import Verif.Props.Terminates

/-! Property theorems C84: random demands. -/

namespace Verif.Props
open Verif Verif.Spec Verif.Demands

variable {P : Type} {n : Network P}

theorem const_inflow {x h : ℚ} (hx : 0 ≤ x) (hh : 0 < h) : InflowOk ⟨[0, h], [x, 0], ((0 : ℚ) : WithBot ℚ), ⊤⟩ ∧
    ∀ t, 0 ≤ t → stepValue ⟨[0, h], [x, 0], ((0 : ℚ) : WithBot ℚ), ⊤⟩ t = if t < h then x else 0 := by
  have hd : InflowOk ⟨[0, h], [x, 0], ((0 : ℚ) : WithBot ℚ), ⊤⟩ := by
    refine ⟨rfl, by simp, by simpa using hh, ?_, rfl, rfl, ?_⟩
    · intro t ht
      simp only [List.mem_cons, List.not_mem_nil, or_false] at ht
      rcases ht with rfl | rfl
      · exact le_rfl
      · exact hh.le
    · intro v hv
      simp only [List.mem_cons, List.not_mem_nil, or_false] at hv
      rcases hv with rfl | rfl
      · exact hx
      · exact le_rfl
  refine ⟨hd, fun t ht => ?_⟩
  rw [Builder.stepValue_fn hd ht]
  unfold RC.fn RC.idx RC.cnt
  by_cases hlt : t < h
  · rw [if_pos hlt]
    simp [ht, hlt]
  · rw [if_neg hlt]
    simp [ht, not_lt.mp hlt]

theorem const_forever {x : ℚ} (hx : 0 ≤ x) : InflowOk ⟨[0], [x], ((0 : ℚ) : WithBot ℚ), ⊤⟩ ∧
    ∀ t, 0 ≤ t → stepValue ⟨[0], [x], ((0 : ℚ) : WithBot ℚ), ⊤⟩ t = x := by
  have hd : InflowOk ⟨[0], [x], ((0 : ℚ) : WithBot ℚ), ⊤⟩ :=
    ⟨rfl, by simp, by simp, by simp, rfl, rfl, by simpa using hx⟩
  refine ⟨hd, fun t ht => ?_⟩
  rw [Builder.stepValue_fn hd ht]
  unfold RC.fn RC.idx RC.cnt
  simp [ht]

/-- The times at which a new inflow changes. -/
def drawTimes : WithTop ℚ → List ℚ
  | some h => [0, h]
  | none => [0]

theorem inflowOf_ok {horizon : WithTop ℚ} (hh : ∀ h : ℚ, horizon = h → 0 < h) {x : ℚ} (hx : 0 ≤ x) :
    ∃ g, inflowOf horizon x = .ok g ∧ InflowOk g ∧ g.times = drawTimes horizon ∧ ConstantUntil horizon x g := by
  cases horizon with
  | top =>
    obtain ⟨h1, h2⟩ := const_forever hx
    exact ⟨_, RC.new_ok (Builder.inflowOk_wf h1), h1, rfl, fun t ht => by rw [h2 t ht, if_pos (WithTop.coe_lt_top t)]⟩
  | coe h =>
    obtain ⟨h1, h2⟩ := const_inflow hx (hh h rfl)
    refine ⟨_, RC.new_ok (Builder.inflowOk_wf h1), h1, rfl, fun t ht => ?_⟩
    rw [h2 t ht]
    simp only [WithTop.coe_lt_coe]

theorem drawSources_ok {gauss : Nat → ℚ → ℚ → ℚ} {sigma : ℚ} {horizon : WithTop ℚ} (hh : ∀ h : ℚ, horizon = h → 0 < h) :
    ∀ (l : List (Nat × RC)) (k : Nat), (∀ s ∈ l, InflowOk s.2) → ∃ l', drawSources gauss sigma horizon k l = .ok l' ∧ l'.map Prod.fst = l.map Prod.fst ∧
      (∀ s ∈ l', InflowOk s.2 ∧ s.2.times = drawTimes horizon) ∧
      ∀ (j v : Nat) (f : RC), l[j]? = some (v, f) → ∃ (mean : ℚ) (g : RC), f.values.head? = some mean ∧ l'[j]? = some (v, g) ∧
        ConstantUntil horizon (max 0 (gauss (k + j) mean sigma)) g := by
  intro l
  induction l with
  | nil => intro k _; exact ⟨[], rfl, rfl, by simp, by simp⟩
  | cons s l ih =>
    intro k h
    obtain ⟨v, f⟩ := s
    have hf := h (v, f) (by simp)
    obtain ⟨mean, hm⟩ : ∃ m, f.values.head? = some m := by
      cases hv : f.values with
      | nil =>
        have := hf.len
        rw [hv] at this
        exact absurd (List.length_eq_zero_iff.mp this.symm) hf.ne
      | cons m _ => exact ⟨m, rfl⟩
    have hrd : rd f.values 0 = .ok mean := rd_eq_ok.mpr (by rw [← List.head?_eq_getElem?]; exact hm)
    obtain ⟨g, g1, g2, g3, g4⟩ := inflowOf_ok hh (le_max_left 0 (gauss k mean sigma))
    obtain ⟨l', a1, a2, a3, a4⟩ := ih (k + 1) (fun s hs => h s (by simp [hs]))
    refine ⟨(v, g) :: l', ?_, by rw [List.map_cons, List.map_cons, a2], ?_, ?_⟩
    · unfold drawSources
      rw [hrd, ok_bind, g1, ok_bind, a1, ok_bind]; rfl
    · intro s hs
      rcases List.mem_cons.mp hs with rfl | hs
      · exact ⟨g2, g3⟩
      · exact a3 s hs
    · intro j u f' hj
      cases j with
      | zero =>
        simp only [List.getElem?_cons_zero, Option.some.injEq, Prod.mk.injEq] at hj
        obtain ⟨rfl, rfl⟩ := hj
        exact ⟨mean, g, hm, rfl, g4⟩
      | succ j =>
        obtain ⟨m', g', b1, b2, b3⟩ := a4 j u f' (by simpa using hj)
        exact ⟨m', g', b1, by simpa using b2, by rw [show k + (j + 1) = k + 1 + j by ring]; exact b3⟩

/-- The number of sources of the commodities before the `i`-th. -/
def sourcesBefore (l : List (Commodity P)) (i : Nat) : Nat := ((l.take i).map (fun c => c.sources.length)).sum

theorem drawAll_ok {gauss : Nat → ℚ → ℚ → ℚ} {sigma : ℚ} {horizon : WithTop ℚ} (hh : ∀ h : ℚ, horizon = h → 0 < h) :
    ∀ (l : List (Commodity P)) (k : Nat), (∀ c ∈ l, ∀ s ∈ c.sources, InflowOk s.2) → ∃ l', drawAll gauss sigma horizon k l = .ok l' ∧ l'.length = l.length ∧
      (∀ c' ∈ l', ∃ c ∈ l, c'.sink = c.sink ∧ c'.predictor = c.predictor ∧ c'.sources.map Prod.fst = c.sources.map Prod.fst ∧
        ∀ s ∈ c'.sources, InflowOk s.2 ∧ s.2.times = drawTimes horizon) ∧
      ∀ (i : Nat) (c : Commodity P), l[i]? = some c → ∃ c', l'[i]? = some c' ∧
        Redrawn horizon (fun j mean => max 0 (gauss (k + sourcesBefore l i + j) mean sigma)) c c' := by
  intro l
  induction l with
  | nil => intro k _; exact ⟨[], rfl, rfl, by simp, by simp⟩
  | cons c l ih =>
    intro k h
    obtain ⟨s', b1, b2, b3, b4⟩ := drawSources_ok (gauss := gauss) (sigma := sigma) hh c.sources k (h c (by simp))
    obtain ⟨l', a1, a2, a3, a4⟩ := ih (k + c.sources.length) (fun c hc => h c (by simp [hc]))
    refine ⟨{ c with sources := s' } :: l', ?_, by simp [a2], ?_, ?_⟩
    · unfold drawAll
      rw [b1, ok_bind, a1, ok_bind]; rfl
    · intro c' hc'
      rcases List.mem_cons.mp hc' with rfl | hc'
      · exact ⟨c, by simp, rfl, rfl, b2, b3⟩
      · obtain ⟨d, d1, d2⟩ := a3 c' hc'
        exact ⟨d, by simp [d1], d2⟩
    · intro i d hi
      cases i with
      | zero =>
        simp only [List.getElem?_cons_zero, Option.some.injEq] at hi
        subst hi
        refine ⟨_, rfl, rfl, rfl, ?_, ?_⟩
        · have := congrArg List.length b2
          simpa using this
        · intro j v f hj
          simpa [sourcesBefore] using b4 j v f hj
      | succ i =>
        obtain ⟨c', c1, c2⟩ := a4 i d (by simpa using hi)
        refine ⟨c', by simpa using c1, ?_⟩
        have : k + sourcesBefore (c :: l) (i + 1) = k + c.sources.length + sourcesBefore l i := by
          unfold sourcesBefore
          rw [List.take_succ_cons, List.map_cons, List.sum_cons]; ring
        rw [this]
        exact c2

/-- **C84**: `generate_network_demands` replaces every inflow by a constant one up to the inflow horizon, with the rate drawn for it, or 0 if that is negative; the mean is the first rate before, the standard
deviation the given one or half of the smallest capacity. Nothing else changes, and the network is valid. `gauss k` is the answer of the `k`-th call of `random.gauss`. -/
theorem C84_demands (hn : InputOk n) (gauss : Nat → ℚ → ℚ → ℚ) {horizon : WithTop ℚ} (hh : ∀ h : ℚ, horizon = h → eps < h) (sigma : Option ℚ) {σ : ℚ}
    (hσ : sigma = some σ ∨ (sigma = none ∧ ∃ m ∈ n.capacity, (∀ c ∈ n.capacity, m ≤ c) ∧ σ = m / 2)) :
    ∃ n', generate gauss n horizon sigma = .ok n' ∧ InputOk n' ∧ n'.graph = n.graph ∧ n'.capacity = n.capacity ∧ n'.travelTime = n.travelTime ∧
      n'.commodities.length = n.commodities.length ∧
      ∀ (i : Nat) (c : Commodity P), n.commodities[i]? = some c → ∃ c', n'.commodities[i]? = some c' ∧
        Redrawn horizon (fun j mean => max 0 (gauss (((n.commodities.take i).map (fun c => c.sources.length)).sum + j) mean σ)) c c' := by
  have he := eps_pos
  have hs : sigmaOf n.capacity sigma = .ok σ := by
    rcases hσ with rfl | ⟨rfl, m, h1, h2, rfl⟩
    · rfl
    · unfold sigmaOf
      rw [List.min?_eq_some_iff.mpr ⟨h1, h2⟩]
  obtain ⟨l', a1, a2, a3, a4⟩ := drawAll_ok (gauss := gauss) (sigma := σ) (horizon := horizon) (fun h e => lt_trans he (hh h e)) n.commodities 0
    (fun c hc s hs => (hn.source c hc s hs).2.2)
  have h0 : (0 : ℚ) ∈ drawTimes horizon := by cases horizon <;> simp [drawTimes]
  have hkey : ∀ c' ∈ l', ∀ s ∈ c'.sources, ∃ c ∈ n.commodities, c'.sink = c.sink ∧ ∃ s0 ∈ c.sources, s0.1 = s.1 := by
    intro c' hc' s hs
    obtain ⟨c, c1, c2, _, c4, _⟩ := a3 c' hc'
    obtain ⟨s0, s1, s2⟩ := List.mem_map.mp (show s.1 ∈ c.sources.map Prod.fst by rw [← c4]; exact List.mem_map.mpr ⟨s, hs, rfl⟩)
    exact ⟨c, c1, c2, s0, s1, s2⟩
  have htimes : ∀ c' ∈ l', ∀ s ∈ c'.sources, InflowOk s.2 ∧ s.2.times = drawTimes horizon := fun c' hc' s hs => by
    obtain ⟨_, _, _, _, _, h⟩ := a3 c' hc'
    exact h s hs
  refine ⟨{ n with commodities := l' }, ?_, ⟨hn.graph, hn.capLen, hn.ttLen, hn.cap, hn.tt, ?_, ?_, ?_, ?_, ?_⟩, rfl, rfl, rfl, a2, ?_⟩
  · unfold generate
    rw [hs, ok_bind, a1, ok_bind]; rfl
  · intro c' hc'
    obtain ⟨c, c1, c2, _⟩ := a3 c' hc'
    rw [c2]; exact hn.sink c c1
  · intro c' hc'
    obtain ⟨c, c1, _, _, c4, _⟩ := a3 c' hc'
    rw [c4]; exact hn.keys c c1
  · intro c' hc' s hs
    obtain ⟨c, c1, c2, s0, s1, s2⟩ := hkey c' hc' s hs
    obtain ⟨b1, b2, _⟩ := hn.source c c1 s0 s1
    rw [← s2, c2]
    exact ⟨b1, b2, (htimes c' hc' s hs).1⟩
  · intro c' hc' s hs
    exact ⟨c', hc', s, hs, rfl, by rw [(htimes c' hc' s hs).2]; exact h0⟩
  · intro c hc s hs c' hc' s' hs' _ a ha b hb hab
    rw [(htimes c hc s hs).2] at ha
    rw [(htimes c' hc' s' hs').2] at hb
    cases horizon with
    | top =>
      simp only [drawTimes, List.mem_singleton] at ha hb
      subst ha hb
      exact absurd hab (lt_irrefl _)
    | coe h =>
      have := hh h rfl
      simp only [drawTimes, List.mem_cons, List.not_mem_nil, or_false] at ha hb
      rcases ha with rfl | rfl <;> rcases hb with rfl | rfl
      · exact absurd hab (lt_irrefl _)
      · linarith
      · linarith
      · exact absurd hab (lt_irrefl _)
  · intro i c hi
    obtain ⟨c', c1, c2⟩ := a4 i c hi
    refine ⟨c', c1, ?_⟩
    simpa [sourcesBefore] using c2

end Verif.Props
