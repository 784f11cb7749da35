import Verif.Proofs.Terminates
import Verif.Props.FlowBuilder

/-! Property theorems C81: building a flow ends. -/

namespace Verif.Props
open Verif Verif.Spec Verif.Builder

variable {P : Type} [DecidableEq P] {n : Network P} {ord : List Nat → List Nat} {preds : P → Predictor} {d : ℚ}

/-- The shortest travel time is positive. -/
theorem shortest_pos : ∀ {l : List ℚ}, (∀ t ∈ l, 0 < t) → ∃ τ : ℚ, 0 < τ ∧ ∀ t ∈ l, τ ≤ t := by
  intro l
  induction l with
  | nil => intro _; exact ⟨1, by norm_num, by simp⟩
  | cons a l ih =>
    intro h
    obtain ⟨τ, h1, h2⟩ := ih (fun t ht => h t (by simp [ht]))
    refine ⟨min a τ, lt_min (h a (by simp)) h1, ?_⟩
    intro t ht
    rcases List.mem_cons.mp ht with rfl | ht
    · exact min_le_left _ _
    · exact le_trans (min_le_right _ _) (h2 t ht)

omit [DecidableEq P] in
theorem going_built {b : Builder P} (h : Going n d b) : Going n d { b with built := true } :=
  ⟨h.net, h.interval, h.safe, h.head, h.next, h.le, h.nonneg, h.heap, h.handle⟩

/-- The state after some rounds. -/
theorem going_rounds (hn : InputOk n) (hord : OrderOk ord) (hd : 0 < d) (hpos : ∀ t ∈ n.travelTime, 0 < t) {b : Builder P} (hb : Builder.init n (some d) = .ok b) :
    ∀ (m : Nat) {c : Builder P}, rounds ord preds m { b with built := true } = .ok c → Going n d c := by
  obtain ⟨τ, h1, h2⟩ := shortest_pos hpos
  intro m
  induction m with
  | zero => intro c hc; injection hc with hc; subst hc; exact going_built (going_init hn hb)
  | succ m ih =>
    intro c hc
    obtain ⟨c', a1, a2⟩ := bind_eq_ok.mp hc
    obtain ⟨Q, C, hs⟩ := (ih a1).safe
    exact (going_step hn hord hd h1 h2 (ih a1) hs.rep a2).1

/-- **C81.** If all travel times are positive, every round moves the time forward, whatever the predictors predict. -/
theorem C81_advances (hn : InputOk n) (hord : OrderOk ord) (hd : 0 < d) (hpos : ∀ t ∈ n.travelTime, 0 < t) {b : Builder P} (hb : Builder.init n (some d) = .ok b) {m : Nat} {c c' : Builder P}
    (hc : rounds ord preds m { b with built := true } = .ok c) (hs : c.step ord preds = .ok c') : c.flow.phi < c'.flow.phi := by
  obtain ⟨τ, h1, h2⟩ := shortest_pos hpos
  have hg := going_rounds hn hord hd hpos hb m hc
  obtain ⟨Q, C, hsafe⟩ := hg.safe
  exact (going_step hn hord hd h1 h2 hg hsafe.rep hs).2.1

/-- **C81.** If all travel times are positive, no time is approached by infinitely many rounds: after finitely many rounds every time is reached, or a round has raised, whatever the predictors predict. -/
theorem C81_reaches (hn : InputOk n) (hord : OrderOk ord) (hd : 0 < d) (hpos : ∀ t ∈ n.travelTime, 0 < t) {b : Builder P} (hb : Builder.init n (some d) = .ok b) (time : ℚ) :
    ∃ N, (∃ e, rounds ord preds N { b with built := true } = .error e) ∨ ∃ c, rounds ord preds N { b with built := true } = .ok c ∧ time ≤ c.flow.phi := by
  obtain ⟨τ, h1, h2⟩ := shortest_pos hpos
  obtain ⟨j, hj⟩ := exists_nat_gt (time / τ)
  have hj' : time < j * τ := (div_lt_iff₀ h1).mp hj
  obtain ⟨N, h | ⟨c, c1, _, c3⟩⟩ := going_reaches hn hord (preds := preds) hd h1 h2 j (going_built (going_init hn hb))
  · exact ⟨N, .inl h⟩
  · exact ⟨N, .inr ⟨c, c1, by linarith⟩⟩

/-- `build_with_times` ends with the flow after some rounds. -/
theorem terminates_building (hn : InputOk n) (hord : OrderOk ord) (hp : PredictorsOk n preds) (hd : 0 < d) (hpos : ∀ t ∈ n.travelTime, 0 < t) {b : Builder P} (hb : Builder.init n (some d) = .ok b)
    {interval horizon : ℚ} (hi : interval ≠ 0) (hh : 0 < horizon) (observe : Option (List Nat)) (suppress : Bool) (tick : Nat → Bool)
    (hclear : ∀ k, (∀ m < k, ∃ c, rounds ord preds m { b with built := true } = .ok c ∧ c.flow.phi < horizon) → ClearRounds ord preds { b with built := true } k)
    (hobs : suppress = false → ∀ l, observe = some l → ∀ m c, 0 < m → (∀ j < m, ∃ c', rounds ord preds j { b with built := true } = .ok c' ∧ c'.flow.phi < horizon) →
      rounds ord preds m { b with built := true } = .ok c → ∀ i ∈ l, ∃ a, AvgTravelTime.avgTravelTime n c.flow i c.flow.phi = .ok a) :
    ∃ fuel k c b', Building n ord preds d { b with built := true } k ∧ rounds ord preds k { b with built := true } = .ok c ∧ horizon ≤ c.flow.phi ∧
      (∀ m < k, ∃ c, rounds ord preds m { b with built := true } = .ok c ∧ c.flow.phi < horizon) ∧ buildWithTimes ord preds interval horizon observe suppress tick fuel b = .ok (c.flow, b') := by
  classical
  obtain ⟨N, hN⟩ := C81_reaches hn hord (preds := preds) hd hpos hb horizon
  have hex : ∃ N, ¬ ∃ c, rounds ord preds N { b with built := true } = .ok c ∧ c.flow.phi < horizon := by
    refine ⟨N, ?_⟩
    rintro ⟨c, c1, c2⟩
    rcases hN with ⟨e, h⟩ | ⟨c', h1, h2⟩
    · rw [h] at c1; cases c1
    · rw [h1] at c1; injection c1 with c1; subst c1; linarith
  have hlow : ∀ m < Nat.find hex, ∃ c, rounds ord preds m { b with built := true } = .ok c ∧ c.flow.phi < horizon := by
    intro m hm
    have := Nat.find_min hex hm
    exact not_not.mp this
  have hB : Building n ord preds d { b with built := true } (Nat.find hex) := ⟨hn, hord, hp, hd, ⟨b, hb, rfl⟩, hclear _ hlow⟩
  obtain ⟨c, c1, _⟩ := C43_conservation hB
  have hc : horizon ≤ c.flow.phi := by
    by_contra hlt
    exact Nat.find_spec hex ⟨c, c1, not_le.mp hlt⟩
  obtain ⟨b', f0, i1, i2, _, _, _, i3, _, i4, _⟩ := init_spec hn (some d)
  rw [hb] at i1
  injection i1 with i1
  subst i1
  obtain ⟨s, j1, j2, _⟩ := DFlow.init_ok (netOk hn)
  rw [i2] at j1
  injection j1 with j1
  subst j1
  have h0 : 0 < Nat.find hex := by
    rw [Nat.pos_iff_ne_zero]
    intro h
    rw [h] at c1
    injection c1 with c1
    subst c1
    have : horizon ≤ b.flow.phi := hc
    rw [i4, j2] at this
    linarith
  exact ⟨_, _, c, _, hB, c1, hc, hlow, C48_returns hi observe suppress tick hB i3 rfl h0 le_rfl c1 hc hlow (fun s l o m c' m1 m2 => hobs s l o m c' m1 (fun j hj => hlow j (by omega))) (Nat.lt_succ_self _)⟩

/-- **C81.** `build_with_times` ends and returns a flow that reaches the horizon, for valid predictors, if the rounds before the horizon touch no tolerance. -/
theorem C81_terminates (hn : InputOk n) (hord : OrderOk ord) (hp : PredictorsOk n preds) (hd : 0 < d) (hpos : ∀ t ∈ n.travelTime, 0 < t) {b : Builder P} (hb : Builder.init n (some d) = .ok b)
    {interval horizon : ℚ} (hi : interval ≠ 0) (hh : 0 < horizon) (observe : Option (List Nat)) (suppress : Bool) (tick : Nat → Bool)
    (hclear : ∀ k, (∀ m < k, ∃ c, rounds ord preds m { b with built := true } = .ok c ∧ c.flow.phi < horizon) → ClearRounds ord preds { b with built := true } k)
    (hobs : suppress = false → ∀ l, observe = some l → ∀ m c, 0 < m → (∀ j < m, ∃ c', rounds ord preds j { b with built := true } = .ok c' ∧ c'.flow.phi < horizon) →
      rounds ord preds m { b with built := true } = .ok c → ∀ i ∈ l, ∃ a, AvgTravelTime.avgTravelTime n c.flow i c.flow.phi = .ok a) :
    ∃ fuel f b', buildWithTimes ord preds interval horizon observe suppress tick fuel b = .ok (f, b') ∧ horizon ≤ f.phi := by
  obtain ⟨fuel, k, c, b', _, _, h1, _, h2⟩ := terminates_building hn hord hp hd hpos hb hi hh observe suppress tick hclear hobs
  exact ⟨fuel, _, _, h2, h1⟩

/-- **C81**, hypotheses met: a network with queues, built up to time 7. -/
example : ∃ b, InputOk buildNet ∧ PredictorsOk buildNet buildPreds ∧ (∀ t ∈ buildNet.travelTime, 0 < t) ∧ Builder.init buildNet (some 2) = .ok b ∧
    ∀ k, (∀ m < k, ∃ c, rounds List.dedup buildPreds m { b with built := true } = .ok c ∧ c.flow.phi < 7) → ClearRounds List.dedup buildPreds { b with built := true } k := by
  obtain ⟨b0, h1, h2, c, h3, h4⟩ := buildB_sound (show buildB List.dedup buildPreds buildNet 2 7 (fun b => decide (b.flow.phi = 7)) = true by decide +kernel)
  refine ⟨b0, buildNet_ok, buildPreds_ok, by decide +kernel, h1, ?_⟩
  intro k hk m hm
  have hm7 : m < 7 := by
    by_contra hge
    obtain ⟨c', c1, c2⟩ := hk 7 (by omega)
    rw [h3] at c1
    injection c1 with c1
    subst c1
    have := of_decide_eq_true h4
    rw [this] at c2
    exact absurd c2 (lt_irrefl _)
  exact h2 m hm7

end Verif.Props
