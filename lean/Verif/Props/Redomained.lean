import Verif.Proofs.Redomained
import Verif.Props.AvgTravelTime
import Verif.Props.Accepted

/-! Property C122 (src/core/flow_builder.py:35-142, src/core/dynamic_flow.py:219-240, src/utilities/right_constant.py:17-25, 101-121): the domains of the inflow functions. -/

namespace Verif.Props
open Verif Verif.Spec Verif.AvgTravelTime

variable {P : Type} {n n' : Network P}

/-- **C122**: the flow builder does not look at the domains of the inflow functions. If the constructor accepts a network whose inflow functions are defined on
`[0, ∞)`, it accepts the same network with larger domains, and round by round the two builders give the same flow or raise the same exception. -/
theorem C122_same_flow [DecidableEq P] (hn : InputOk n) (hr : Redomained n n') {interval : Option ℚ} {b : Builder P} (hb : Builder.init n interval = .ok b) :
    ∃ b', Builder.init n' interval = .ok b' ∧
      ∀ (ord : List Nat → List Nat) (preds : P → Predictor) (k : Nat), (rounds ord preds k b').map Builder.flow = (rounds ord preds k b).map Builder.flow := by
  obtain ⟨F, hF⟩ := Redom.init_same hn hr.commodities hb
  have e : n' = { n with commodities := n'.commodities } := by
    obtain ⟨h1, h2, h3, _⟩ := hr
    obtain ⟨g, c, t, cs⟩ := n
    obtain ⟨g', c', t', cs'⟩ := n'
    simp only at h1 h2 h3
    subst h1; subst h2; subst h3
    rfl
  have hc : b.net.commodities = n.commodities := by rw [Redom.init_net hb]
  refine ⟨Redom.swap n'.commodities F b, by rw [e]; exact hF, fun ord preds k => Redom.flow_same (Redom.rounds_same hr.commodities hc k)⟩

/-- A sum that meets a function with another domain. -/
theorem sumFrom_refuses {H : List ℚ} (hH : Apart eps H) {fs fs' : List RC} (h : List.Forall₂ StepsOn fs fs') : ∀ acc : RC, InflowOk acc → (∀ t ∈ acc.times, t ∈ H) →
    (∀ f ∈ fs, InflowOk f ∧ ∀ t ∈ f.times, t ∈ H) → (∃ f' ∈ fs', f'.lo ≠ ((0 : ℚ) : WithBot ℚ)) → sumFrom acc fs' = .error .assertion := by
  induction h with
  | nil => intro acc _ _ _ ⟨f', hf, _⟩; cases hf
  | @cons f f' fs fs' h _ ih =>
    intro acc h1 h2 h3 ⟨g, hg, hl⟩
    unfold sumFrom
    by_cases hlo : f'.lo = ((0 : ℚ) : WithBot ℚ)
    · have hf := (h3 f List.mem_cons_self).1
      have e : f' = f := by
        obtain ⟨a, b, c, d⟩ := f
        obtain ⟨a', b', c', d'⟩ := f'
        have e1 := h.times; have e2 := h.values; have e3 := h.hi; have e4 := hf.lo; have e5 := hf.hi
        simp only at e1 e2 e3 e4 e5 hlo
        subst e1; subst e2; rw [e3, e5, hlo, e4]
      rw [e]
      obtain ⟨s, s1, s2, s3, _⟩ := sumFrom_spec hH [f] acc h1 h2 (fun x hx => by rw [List.mem_singleton.mp hx]; exact h3 f List.mem_cons_self)
      have : acc.add f = .ok s := by
        unfold sumFrom at s1
        obtain ⟨u, u1, u2⟩ := bind_eq_ok.mp s1
        unfold sumFrom at u2
        injection u2 with u2
        rw [u1, u2]
      rw [this, ok_bind]
      refine ih s s2 s3 (fun x hx => h3 x (List.mem_cons_of_mem _ hx)) ⟨g, ?_, hl⟩
      rcases List.mem_cons.mp hg with rfl | hg
      · exact absurd hlo hl
      · exact hg
    · unfold RC.add
      rw [pyAssert_false (fun hc => hlo (by rw [← hc.1, h1.lo]))]
      rfl

/-- **C122**: `avg_travel_time` does look at them: for a commodity with an inflow function on a domain other than `[0, ∞)`, for example the default domain of
`RightConstant`, it raises `AssertionError`, whatever the horizon. -/
theorem C122_average (hn : InputOk n) (hr : Redomained n n') {s : DFlow} (h : Reached n'.data s) {i : Nat} {c : Commodity P} (hc : n'.commodities[i]? = some c)
    (hlo : ∃ p ∈ c.sources, p.2.lo ≠ ((0 : ℚ) : WithBot ℚ)) (hin : Apart eps (0 :: (c.sources.map (fun s => s.2.times)).flatten))
    (hout : Apart eps (0 :: ((sinkOutflows n' s i c).map RC.times).flatten)) (horizon : ℚ) : avgTravelTime n' s i horizon = .error .assertion := by
  have ho : ∀ f ∈ sinkOutflows n' s i c, InflowOk f := by
    intro f hf
    unfold sinkOutflows at hf
    obtain ⟨e, _, he⟩ := List.mem_filterMap.mp hf
    exact (outflow_ok h he).1
  obtain ⟨Fo, o1, _⟩ := accumulate_spec ho hout
  obtain ⟨c0, hc0, hs⟩ : ∃ c0 ∈ n.commodities, CommoditySteps c0 c := by
    have : ∀ {l l' : List (Commodity P)}, List.Forall₂ CommoditySteps l l' → ∀ i : Nat, l'[i]? = some c → ∃ c0 ∈ l, CommoditySteps c0 c := by
      intro l l' hl
      induction hl with
      | nil => intro i hi; cases hi
      | cons q _ ih =>
        intro i hi
        cases i with
        | zero => injection hi with hi; subst hi; exact ⟨_, List.mem_cons_self, q⟩
        | succ i => obtain ⟨c0, h1, h2⟩ := ih i hi; exact ⟨c0, List.mem_cons_of_mem _ h1, h2⟩
    exact this hr.commodities i hc
  have hf : List.Forall₂ StepsOn (c0.sources.map Prod.snd) (c.sources.map Prod.snd) := by
    have hsrc := hs.sources
    generalize c0.sources = l at hsrc
    clear hlo hin
    generalize c.sources = l' at hsrc
    induction hsrc with
    | nil => exact .nil
    | cons q _ ih => exact .cons q.2 ih
  have ht := Redom.times_same hf
  rw [List.map_map, List.map_map] at ht
  have hbad : accumulate (c.sources.map Prod.snd) = .error .assertion := by
    unfold accumulate
    have hz := zero_inflow
    have h1 : ∀ f ∈ c0.sources.map Prod.snd, InflowOk f ∧ ∀ t ∈ f.times, t ∈ 0 :: (c.sources.map (fun s => s.2.times)).flatten := by
      intro f hm
      obtain ⟨p, hp, rfl⟩ := List.mem_map.mp hm
      refine ⟨(hn.source c0 hc0 p hp).2.2, fun t ht' => List.mem_cons_of_mem _ ?_⟩
      have hm : t ∈ (c0.sources.map (RC.times ∘ Prod.snd)).flatten := List.mem_flatten.mpr ⟨_, List.mem_map_of_mem hp, ht'⟩
      rw [← ht] at hm
      exact hm
    obtain ⟨p, hp, hl⟩ := hlo
    rw [RC.new_ok (Builder.inflowOk_wf hz), ok_bind, sumFrom_refuses hin hf _ hz (by simp) h1 ⟨p.2, List.mem_map_of_mem hp, hl⟩]
    rfl
  unfold avgTravelTime
  rw [rd_eq_ok.mpr hc, ok_bind, o1, ok_bind, hbad]
  rfl

/-- The commodity of `promptNet` on the domain `[0, ∞)`. -/
def plainNet : Network Nat := { buildNet with commodities := [⟨[(0, ⟨[0, 1600], [20, 0], ((0 : ℚ) : WithBot ℚ), ⊤⟩)], 2, 0⟩] }

theorem promptNet_redomained : Redomained plainNet promptNet :=
  ⟨rfl, rfl, rfl, .cons ⟨rfl, rfl, .cons ⟨rfl, rfl, rfl, bot_le, rfl⟩ .nil⟩ .nil⟩

theorem plainNet_ok : InputOk plainNet := by
  have e01 : Path buildNet.graph 0 1 := Relation.ReflTransGen.single ⟨0, by decide +kernel, rfl, rfl⟩
  have e12 : Path buildNet.graph 1 2 := Relation.ReflTransGen.single ⟨3, by decide +kernel, rfl, rfl⟩
  refine ⟨buildNet_ok.graph, rfl, rfl, buildNet_ok.cap, buildNet_ok.tt, by decide +kernel, by decide +kernel, ?_, ?_, ?_⟩ <;>
    simp only [plainNet, List.mem_singleton, forall_eq, exists_eq_left]
  · exact ⟨by decide +kernel, e01.trans e12, ⟨rfl, by simp, by decide +kernel, by decide +kernel, rfl, rfl, by decide +kernel⟩⟩
  · exact ⟨trivial, by decide +kernel⟩
  · unfold eps; decide +kernel

/-- The hypotheses are met: by the network of one commodity on `[0, ∞)` and on the default domain; the constructor accepts it. -/
example : InputOk plainNet ∧ Redomained plainNet promptNet ∧ ∃ b, Builder.init plainNet (some 1) = .ok b :=
  ⟨plainNet_ok, promptNet_redomained, (C121_accepts (C121_valid plainNet_ok).1 _).mpr (C121_valid plainNet_ok).2⟩

theorem plainPreds_ok : PredictorsOk plainNet (fun _ => buildPreds 0) := by
  intro p f0 f calls t h0 hc hr _ ht
  exact Predictors.zero_ok plainNet_ok t f

/-- **C122**, in particular: the flow of either network after two rounds has an average travel time up to 3 for the one and none for the other. -/
example : ∃ s, Reached plainNet.data s ∧ Reached promptNet.data s ∧ avgTravelTime plainNet s 0 3 = .ok (179 / 120) ∧ avgTravelTime promptNet s 0 3 = .error .assertion := by
  obtain ⟨b0, h1, h2, b, h3, h4⟩ := Builder.buildB_sound (show Builder.buildB List.dedup (fun _ => buildPreds 0) plainNet 2 2 (fun b =>
    apartListB eps (0 :: ((sinkOutflows promptNet b.flow 0 (promptNet.commodities[0])).map RC.times).flatten) &&
    decide ((avgTravelTime plainNet b.flow 0 3).toOption = some (179 / 120))) = true by unfold eps; decide +kernel)
  simp only [Bool.and_eq_true, decide_eq_true_eq] at h4
  have hB : Building plainNet List.dedup (fun _ => buildPreds 0) 2 { b0 with built := true } 2 := ⟨plainNet_ok, dedup_order, plainPreds_ok, by norm_num, ⟨b0, h1, rfl⟩, h2⟩
  obtain ⟨b', hb', f0, cs, _, hf0, hcs, hrun, _⟩ := C43_conservation hB
  rw [h3] at hb'; injection hb' with hb'; subst hb'
  have hR : Reached plainNet.data b.flow := ⟨Builder.netOk plainNet_ok, f0, cs, hf0, hcs, hrun⟩
  refine ⟨b.flow, hR, hR, ?_, C122_average (i := 0) plainNet_ok promptNet_redomained hR rfl ⟨_, List.mem_singleton_self _, by decide⟩ ?_ (apartListB_sound h4.1) 3⟩
  · have := h4.2
    cases he : avgTravelTime plainNet b.flow 0 3 with
    | error e => rw [he] at this; cases this
    | ok v => rw [he] at this; injection this with this; rw [this]
  · exact apartListB_sound (by unfold eps; decide +kernel)

end Verif.Props
