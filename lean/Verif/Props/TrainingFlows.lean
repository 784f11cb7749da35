import Verif.Props.Demands
import Mathlib.Data.Nat.Digits.Lemmas

/-! Property theorems C85 and C86: the flows of the training data and their files; the seeds of training and evaluation. -/

namespace Verif.Props
open Verif Verif.Spec Verif.Demands Verif.Builder Verif.Combine

variable {P : Type} [DecidableEq P] {n : Network P}

omit [DecidableEq P] in
theorem objects_range (l : List (Commodity P)) (p : P) : (List.range l.length).map (objectOf l p) = l := by
  refine List.ext_getElem (by simp) (fun i h1 h2 => ?_)
  simp [objectOf, List.getD_eq_getElem?_getD, h2]

/-- **C85**: every flow of the training data is built, whatever the random generator draws: the demands of the network are drawn anew, the total demand per sink and source is the drawn one, there is one commodity
per sink, and the flow is the one that the flow builder makes for it with `ConstantPredictor`, up to the horizon (so **C43**–**C48** and **C73** apply). The rounds before the horizon must touch no tolerance (as in C43). -/
theorem C85_training_flow (hn : InputOk n) {ord : List Nat → List Nat} (ho : OrderOk ord) (rand : Nat → Nat → ℚ → ℚ → ℚ) {constant : P} (hc : ∀ c ∈ n.commodities, c.predictor = constant)
    {inflowHorizon : WithTop ℚ} (hh : ∀ h : ℚ, inflowHorizon = h → eps < h) (sigma : Option ℚ) (hσ : sigma ≠ none ∨ n.capacity ≠ []) (hpos : ∀ t ∈ n.travelTime, 0 < t)
    {reroute horizon : ℚ} (hr : 0 < reroute) (hhor : 0 < horizon) (tick : Nat → Bool) (index : Nat)
    (hclear : ∀ n1 n' b k, training rand n inflowHorizon sigma index = .ok n1 → combine ord n1 (objectOf n1.commodities constant) (List.range n1.commodities.length) [] = .ok n' →
      Builder.init n' (some reroute) = .ok b → (∀ m < k, ∃ c, rounds ord (fun _ : P => Predictors.const n'.graph.edges.length) m { b with built := true } = .ok c ∧ c.flow.phi < horizon) →
      ClearRounds ord (fun _ : P => Predictors.const n'.graph.edges.length) { b with built := true } k) :
    ∃ n1 n2 flow fuel, training rand n inflowHorizon sigma index = .ok n1 ∧ InputOk n2 ∧ n2.graph = n.graph ∧ n2.capacity = n.capacity ∧ n2.travelTime = n.travelTime ∧
      (∀ p k v t, 0 ≤ t → demand n2.commodities p k v t = demand n1.commodities p k v t) ∧ (n2.commodities.map Commodity.sink).Nodup ∧
      buildFlow ord rand n constant inflowHorizon sigma reroute horizon tick fuel index = .ok (n2, flow) ∧ horizon ≤ flow.phi ∧
      ∃ b0 k b, Building n2 ord (fun _ => Predictors.const n2.graph.edges.length) reroute b0 k ∧
        rounds ord (fun _ => Predictors.const n2.graph.edges.length) k b0 = .ok b ∧ b.flow = flow := by
  obtain ⟨σ, hσ'⟩ : ∃ σ, sigma = some σ ∨ (sigma = none ∧ ∃ m ∈ n.capacity, (∀ c ∈ n.capacity, m ≤ c) ∧ σ = m / 2) := by
    cases sigma with
    | some σ => exact ⟨σ, .inl rfl⟩
    | none =>
      have hne := hσ.resolve_left (by simp)
      cases hm : n.capacity.min? with
      | none => exact absurd (List.min?_eq_none_iff.mp hm) hne
      | some m => exact ⟨m / 2, .inr ⟨rfl, m, (List.min?_eq_some_iff.mp hm).1, (List.min?_eq_some_iff.mp hm).2, rfl⟩⟩
  obtain ⟨n1, a1, a2, a3, a4, a5, a6, a7⟩ := C84_demands hn (seeded rand index) hh sigma hσ'
  have hpred : ∀ c ∈ n1.commodities, c.predictor = constant := by
    intro c' hc'
    obtain ⟨i, hi, rfl⟩ := List.getElem_of_mem hc'
    obtain ⟨c2, c1, _, c3, _⟩ := a7 i (n.commodities[i]'(by omega)) (List.getElem?_eq_getElem _)
    rw [List.getElem?_eq_getElem hi] at c1
    injection c1 with c1
    rw [c1, c3]
    exact hc _ (List.getElem_mem _)
  have hobj := objects_range n1.commodities constant
  obtain ⟨n2, b1, b2, b3, b4, b5, b6, merged, kept, b7, b8, b9, b10⟩ := C52_combine a2 ho (obj := objectOf n1.commodities constant) (refs := List.range n1.commodities.length) (ex := [])
    hobj.symm List.nodup_range (by simp)
  have hk : kept = [] := by simpa using b8
  rw [hk, List.append_nil] at b7
  have hpred2 : ∀ c ∈ n2.commodities, c.predictor = constant := by
    intro c hc
    rw [b7] at hc
    obtain ⟨r, r1, _, r2⟩ := (b10 (c.predictor, c.sink)).mp (List.mem_map.mpr ⟨c, hc, rfl⟩)
    have : objectOf n1.commodities constant r ∈ n1.commodities := by
      have h4 : objectOf n1.commodities constant r ∈ (List.range n1.commodities.length).map (objectOf n1.commodities constant) := List.mem_map.mpr ⟨r, r1, rfl⟩
      rwa [hobj] at h4
    have h3 := hpred _ this
    rw [Prod.mk.injEq] at r2
    rw [← r2.1]; exact h3
  obtain ⟨b, f0, i1, _⟩ := init_spec b2 (some reroute)
  have hP : PredictorsOk n2 (fun _ : P => Predictors.const n2.graph.edges.length) := fun p f0 f calls t h0 hcalls hrun _ ht => Predictors.const_ok b2 h0 hcalls hrun ht
  obtain ⟨fuel, k, c, b', t1, t2, t3, _, t4⟩ := terminates_building b2 ho hP hr (by rw [b5, a5]; exact hpos) i1 (interval := reroute) (ne_of_gt hr) hhor none false tick
    (fun k hk => hclear n1 n2 b k a1 b1 i1 hk) (fun _ l hl => by cases hl)
  refine ⟨n1, n2, c.flow, fuel, a1, b2, by rw [b3, a3], by rw [b4, a4], by rw [b5, a5], b6, ?_, ?_, t3, _, k, c, t1, t2, rfl⟩
  · have h1 : n2.commodities.map (fun c => (c.predictor, c.sink)) = (n2.commodities.map Commodity.sink).map (fun k => (constant, k)) := by
      rw [List.map_map]
      exact List.map_congr_left (fun c hc => by simp [hpred2 c hc])
    rw [← b7, h1] at b9
    exact b9.of_map _
  · unfold buildFlow
    rw [show training rand n inflowHorizon sigma index = .ok n1 from a1, ok_bind, b1, ok_bind, i1, ok_bind,
      if_pos (List.all_eq_true.mpr (fun c hc => decide_eq_true (hpred2 c hc))), t4, ok_bind]
    rfl

/-- Two commodities with the same sink and predictor, and a common source. -/
def trainNet : Network (Fin 3) := { buildNet with commodities := [0, 1].map combineObj }

theorem trainNet_ok : InputOk trainNet := by
  have h := combineNet_ok
  have hsub : ∀ c ∈ trainNet.commodities, c ∈ combineNet.commodities := by
    intro c hc
    obtain ⟨i, hi, rfl⟩ := List.mem_map.mp hc
    exact List.mem_map.mpr ⟨i, by simp at hi ⊢; omega, rfl⟩
  refine ⟨h.graph, h.capLen, h.ttLen, h.cap, h.tt, fun c hc => h.sink c (hsub c hc), fun c hc => h.keys c (hsub c hc), fun c hc => h.source c (hsub c hc), ?_,
    fun c hc s hs c' hc' => h.apart c (hsub c hc) s hs c' (hsub c' hc')⟩
  have : ∀ c ∈ trainNet.commodities, ∀ s ∈ c.sources, ∃ c' ∈ trainNet.commodities, ∃ s' ∈ c'.sources, s'.1 = s.1 ∧ (0 : ℚ) ∈ s'.2.times := by decide +kernel
  exact this

/-- A generator that draws alternately one more and five less than the mean. -/
def trainRand : Nat → Nat → ℚ → ℚ → ℚ := fun _ k mean _ => if k % 2 = 0 then mean + 1 else mean - 5

/-- The network of the flow 0, as a check. -/
def trainB (post : Network (Fin 3) → Bool) : Bool :=
  match training trainRand trainNet (4 : ℚ) none 0 with
  | .error _ => false
  | .ok n1 => match combine List.dedup n1 (objectOf n1.commodities 0) (List.range n1.commodities.length) [] with
    | .error _ => false
    | .ok n2 => post n2

/-- The hypotheses of `C84_demands` and `C85_training_flow` are met: a network with two commodities, flow 0, up to time 4. -/
example : InputOk trainNet ∧ (∀ c ∈ trainNet.commodities, c.predictor = 0) ∧ eps < 4 ∧ trainNet.capacity ≠ [] ∧ (∀ t ∈ trainNet.travelTime, 0 < t) ∧
    ∀ n1 n' b k, training trainRand trainNet (4 : ℚ) none 0 = .ok n1 → combine List.dedup n1 (objectOf n1.commodities 0) (List.range n1.commodities.length) [] = .ok n' →
      Builder.init n' (some 2) = .ok b → (∀ m < k, ∃ c, rounds List.dedup (fun _ : Fin 3 => Predictors.const n'.graph.edges.length) m { b with built := true } = .ok c ∧ c.flow.phi < 4) →
      ClearRounds List.dedup (fun _ : Fin 3 => Predictors.const n'.graph.edges.length) { b with built := true } k := by
  refine ⟨trainNet_ok, by decide +kernel, by unfold eps; norm_num, by decide +kernel, by decide +kernel, ?_⟩
  intro n1 n' b k h1 h2 h3 hk
  have hB : trainB (fun n2 => buildB List.dedup (fun _ => Predictors.const n2.graph.edges.length) n2 2 5 (fun b => decide (4 ≤ b.flow.phi))) = true := by decide +kernel
  unfold trainB at hB
  rw [h1] at hB
  simp only at hB
  rw [h2] at hB
  simp only at hB
  obtain ⟨b0, e1, e2, c, e3, e4⟩ := buildB_sound hB
  rw [h3] at e1; injection e1 with e1; subst e1
  intro m hm
  have hm5 : m < 5 := by
    by_contra hge
    obtain ⟨c', c1, c2⟩ := hk 5 (by omega)
    rw [e3] at c1; injection c1 with c1; subst c1
    have := of_decide_eq_true e4
    linarith
  exact e2 m hm5

/-! ### Files -/

theorem strOf_value (i : Nat) : Nat.ofDigits 10 (strOf i).reverse = i ∧ ∀ d ∈ strOf i, d < 10 := by
  unfold strOf
  split
  · next h => subst h; simp
  · rw [List.reverse_reverse, Nat.ofDigits_digits]
    exact ⟨rfl, fun d hd => Nat.digits_lt_base (by norm_num) (by simpa using hd)⟩

theorem flowName_value (number i : Nat) : Nat.ofDigits 10 (flowName number i).reverse = i ∧ ∀ d ∈ flowName number i, d < 10 := by
  unfold flowName
  obtain ⟨h1, h2⟩ := strOf_value i
  refine ⟨?_, ?_⟩
  · rw [List.reverse_append, List.reverse_replicate, Nat.ofDigits_append, Nat.ofDigits_replicate_zero, h1]; simp
  · intro d hd
    rcases List.mem_append.mp hd with hd | hd
    · rw [(List.mem_replicate.mp hd).2]; norm_num
    · exact h2 d hd

theorem flowName_length {number i : Nat} (hn : 1 < number) (hi : i < number) : (flowName number i).length = Nat.clog 10 number := by
  have hw : i < 10 ^ Nat.clog 10 number := lt_of_lt_of_le hi (Nat.le_pow_clog (by norm_num) _)
  have hle : (strOf i).length ≤ Nat.clog 10 number := by
    unfold strOf
    split
    · exact Nat.clog_pos (by norm_num) (by omega)
    · rw [List.length_reverse]
      exact (Nat.digits_length_le_iff (by norm_num) i).mpr hw
  unfold flowName
  rw [List.length_append, List.length_replicate]
  omega

theorem digits_order : ∀ (l m : List Nat), l.length = m.length → (∀ d ∈ l, d < 10) → (∀ d ∈ m, d < 10) → Nat.ofDigits 10 l.reverse < Nat.ofDigits 10 m.reverse → l < m := by
  intro l
  induction l with
  | nil =>
    intro m hl _ _ h
    cases m with
    | nil => simp at h
    | cons d m => simp at hl
  | cons a l ih =>
    intro m hl h1 h2 h
    cases m with
    | nil => simp at hl
    | cons b m =>
      have hlen : l.length = m.length := by simpa using hl
      rw [List.reverse_cons, List.reverse_cons, Nat.ofDigits_append, Nat.ofDigits_append] at h
      simp only [Nat.ofDigits_singleton, List.length_reverse, hlen] at h
      have p1 := Nat.ofDigits_lt_base_pow_length (b := 10) (l := l.reverse) (by norm_num) (fun d hd => h1 d (by simp at hd; simp [hd]))
      have p2 := Nat.ofDigits_lt_base_pow_length (b := 10) (l := m.reverse) (by norm_num) (fun d hd => h2 d (by simp at hd; simp [hd]))
      rw [List.length_reverse, hlen] at p1
      rw [List.length_reverse] at p2
      rcases lt_trichotomy a b with hab | hab | hab
      · exact List.cons_lt_cons_iff.mpr (.inl hab)
      · subst hab
        exact List.cons_lt_cons_iff.mpr (.inr ⟨rfl, ih m hlen (fun d hd => h1 d (by simp [hd])) (fun d hd => h2 d (by simp [hd])) (by omega)⟩)
      · exfalso
        have : 10 ^ m.length * (b + 1) ≤ 10 ^ m.length * a := Nat.mul_le_mul_left _ hab
        rw [Nat.mul_add, Nat.mul_one] at this
        omega

/-- **C85**: the names of the files of `number` flows are different and, sorted as text, in the order of the flows. -/
theorem C85_names {number i j : Nat} (hij : i < j) (hj : j < number) : flowName number i < flowName number j ∧ flowName number i ≠ flowName number j := by
  obtain ⟨a1, a2⟩ := flowName_value number i
  obtain ⟨b1, b2⟩ := flowName_value number j
  refine ⟨digits_order _ _ ?_ a2 b2 (by rw [a1, b1]; exact hij), ?_⟩
  · rw [flowName_length (by omega) (by omega), flowName_length (by omega) hj]
  · intro h
    rw [h, b1] at a1
    omega

/-! ### C86 -/

omit [DecidableEq P] in
/-- **C86** is false: the demands of the evaluation flow `k` are those of the training flow `k + 1`, because seeds differ only in sign. -/
theorem C86_same_demands (rand : Nat → Nat → ℚ → ℚ → ℚ) (n : Network P) (horizon : WithTop ℚ) (sigma : Option ℚ) (k : Nat) :
    evaluation rand n horizon sigma k = training rand n horizon sigma (k + 1) := by
  unfold evaluation training seeded
  rw [show (-(k : Int) - 1).natAbs = ((k + 1 : Nat) : Int).natAbs by omega]

/-- **C86**, within one kind: different flows have differently seeded generators. -/
theorem C86_own_streams_partial {i j : Nat} (rand : Nat → Nat → ℚ → ℚ → ℚ) (hrand : Function.Injective rand) (hij : i ≠ j) :
    seeded rand i ≠ seeded rand j ∧ seeded rand (-(i : Int) - 1) ≠ seeded rand (-(j : Int) - 1) := by
  unfold seeded
  constructor <;> intro h <;> have := hrand h <;> omega

end Verif.Props
