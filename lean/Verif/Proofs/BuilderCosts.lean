import Verif.Proofs.BuilderBase

/-! The costs that the flow builder computes from predictions. -/

namespace Verif
open Spec

namespace PL

theorem interpolates {f : PL} (hw : f.WF) : Interpolates f.times f.values f.first f.last f.fn := by
  refine ⟨?_, ?_, ?_, ?_⟩
  · intro i t v ht hv
    obtain ⟨hi, rfl⟩ := List.getElem?_eq_some_iff.mp ht
    obtain ⟨hi', rfl⟩ := List.getElem?_eq_some_iff.mp hv
    exact PL.fn_time hw i hi
  · intro i s t hs ht x h1 h2
    obtain ⟨hi, rfl⟩ := List.getElem?_eq_some_iff.mp hs
    obtain ⟨hi', rfl⟩ := List.getElem?_eq_some_iff.mp ht
    rw [PL.fn_time hw, PL.fn_time hw, PL.fn_mid hw i hi' h1 h2]; ring
  · intro t ht x hx
    rw [List.head?_eq_getElem?, List.getElem?_eq_getElem hw.pos] at ht
    injection ht with ht; subst ht
    exact PL.fn_left_aff hw (fun s hs => le_trans hx (head_le hw.lt hw.pos hs)) (fun s hs => head_le hw.lt hw.pos hs)
  · intro t ht x hx
    rw [List.getLast?_eq_some_getLast hw.ne] at ht
    injection ht with ht; subst ht
    exact PL.fn_right_aff hw (fun s hs => le_trans (le_getLast hw.lt hw.ne hs) hx) (fun s hs => le_getLast hw.lt hw.ne hs)

theorem interpolates_unique {f : PL} (hw : f.WF) {F : ℚ → ℚ} (h : Interpolates f.times f.values f.first f.last F) (x : ℚ) : F x = f.fn x := by
  refine (fn_eq_of hw F (fun _ => True) ?_ ?_ ?_ ?_ x trivial).symm
  · intro i hi
    exact (h.at_break i _ _ (List.getElem?_eq_getElem hi) (List.getElem?_eq_getElem (by rw [hw.len]; exact hi))).symm
  · intro i hi
    refine ⟨(F f.times[i + 1] - F f.times[i]) / (f.times[i + 1] - f.times[i]), fun y h1 h2 => ?_⟩
    rw [h.between i _ _ (List.getElem?_eq_getElem (by omega)) (List.getElem?_eq_getElem hi) y h1 h2]
    ring
  · intro y _ hy
    exact h.before _ (by rw [List.head?_eq_getElem?, List.getElem?_eq_getElem hw.pos]) y hy
  · intro y _ hy
    exact h.after _ (List.getLast?_eq_some_getLast hw.ne) y hy

end PL

namespace Builder
variable {P : Type}

theorem edge_id {g : Graph} (hg : Consistent g) {e : Nat} (he : e ∈ g.edges) :
    (g.edge e).id < g.edges.length ∧ g.edges[(g.edge e).id]? = some e := by
  obtain ⟨i, hi, rfl⟩ := List.getElem_of_mem he
  rw [hg.ids i hi]
  exact ⟨hi, List.getElem?_eq_getElem hi⟩

theorem id_inj {g : Graph} (hg : Consistent g) {e e' : Nat} (he : e ∈ g.edges) (he' : e' ∈ g.edges) (h : (g.edge e).id = (g.edge e').id) : e = e' := by
  have h1 := (edge_id hg he).2
  have h2 := (edge_id hg he').2
  rw [h, h2] at h1
  injection h1 with h1; exact h1.symm

variable {n : Network P}

/-- The cost functions made from a prediction. -/
structure CostsFrom (n : Network P) (t : ℚ) (ps costs : List PL) : Prop where
  len : costs.length = n.graph.edges.length
  made : ∀ e ∈ n.graph.edges, ∃ f, costs[(n.graph.edge e).id]? = some f ∧ f.WF ∧ f.lo = ((t : ℚ) : WithBot ℚ) ∧ f.hi = ⊤ ∧
    (∀ c, Costs n ps c → ∀ x, c e x = f.fn x) ∧ ∃ v, f.values[0]? = some v ∧ (∀ x ∈ f.times, t ≤ x) ∧ ∀ c, FixedCosts n ps c → c e = v
  costs : ∃ c, Costs n ps c
  fixed : ∃ c, FixedCosts n ps c

theorem costOfEdge_gen (hn : InputOk n) {t : ℚ} {ps : List PL} (hlen : ps.length = n.graph.edges.length)
    (hvalid : ∀ p ∈ ps, p.values.length = p.times.length ∧ p.times ≠ [] ∧ p.times.Pairwise (fun a b => a < b - eps) ∧ ∀ x ∈ p.times, t ≤ x)
    {e : Nat} (he : e < n.graph.edges.length) :
    ∃ p tt cap f, ps[e]? = some p ∧ n.travelTime[e]? = some tt ∧ n.capacity[e]? = some cap ∧ 0 < cap ∧ costOfEdge n t ps e = .ok f ∧
      p.values.length = p.times.length ∧ p.times ≠ [] ∧ p.times.Pairwise (fun a b => a < b - eps) ∧ (∀ x ∈ p.times, t ≤ x) ∧
      f = ⟨p.times, p.values.map (fun v => tt + v / cap), p.first / cap, p.last / cap, ((t : ℚ) : WithBot ℚ), ⊤⟩ := by
  have h1 : e < ps.length := by rw [hlen]; exact he
  have h2 : e < n.travelTime.length := by rw [hn.ttLen]; exact he
  have h3 : e < n.capacity.length := by rw [hn.capLen]; exact he
  have hcap := hn.cap _ (List.getElem_mem h3)
  obtain ⟨v1, v2, v3, v4⟩ := hvalid _ (List.getElem_mem h1)
  have hm : ∀ (vs : List ℚ), mapPy (fun v => do
      let x ← pyDiv v n.capacity[e]
      pure (n.travelTime[e] + x)) vs = (.ok (vs.map (fun v => n.travelTime[e] + v / n.capacity[e])) : Py (List ℚ)) := by
    intro vs
    induction vs with
    | nil => rfl
    | cons v vs ih =>
      unfold mapPy
      rw [ih]
      unfold pyDiv
      rw [if_neg (ne_of_gt hcap)]; rfl
  refine ⟨ps[e], n.travelTime[e], n.capacity[e], _, List.getElem?_eq_getElem h1, List.getElem?_eq_getElem h2, List.getElem?_eq_getElem h3, hcap, ?_,
    v1, v2, v3, v4, rfl⟩
  unfold costOfEdge
  rw [rd_lt _ _ h1, ok_bind, rd_lt _ _ h2, ok_bind, rd_lt _ _ h3, ok_bind, hm, ok_bind]
  have hd : ∀ v, pyDiv v n.capacity[e] = .ok (v / n.capacity[e]) := by
    intro v; unfold pyDiv; rw [if_neg (ne_of_gt hcap)]
  rw [hd, ok_bind, hd, ok_bind]
  exact PL.new_ok ⟨by simpa using v1, v2, v3, fun x hx => ⟨WithBot.coe_le_coe.mpr (v4 x hx), le_top⟩⟩

theorem costOfEdge_ok (hn : InputOk n) {t : ℚ} {ps : List PL} (hp : PredictionOk n t ps) {e : Nat} (he : e < n.graph.edges.length) :
    ∃ p tt cap f, ps[e]? = some p ∧ n.travelTime[e]? = some tt ∧ n.capacity[e]? = some cap ∧ 0 < cap ∧ costOfEdge n t ps e = .ok f ∧
      p.values.length = p.times.length ∧ p.times ≠ [] ∧ p.times.Pairwise (fun a b => a < b - eps) ∧ (∀ x ∈ p.times, t ≤ x) ∧
      f = ⟨p.times, p.values.map (fun v => tt + v / cap), p.first / cap, p.last / cap, ((t : ℚ) : WithBot ℚ), ⊤⟩ :=
  costOfEdge_gen hn hp.len hp.valid he

theorem fn_scale {p : PL} {tt cap t : ℚ} (h1 : p.values.length = p.times.length) (h2 : p.times ≠ [])
    (h3 : p.times.Pairwise (fun a b => a < b - eps)) (h4 : ∀ x ∈ p.times, t ≤ x) {F : ℚ → ℚ}
    (hF : Interpolates p.times p.values p.first p.last F) (x : ℚ) :
    tt + F x / cap = PL.fn ⟨p.times, p.values.map (fun v => tt + v / cap), p.first / cap, p.last / cap, ((t : ℚ) : WithBot ℚ), ⊤⟩ x := by
  refine PL.interpolates_unique (f := ⟨p.times, p.values.map (fun v => tt + v / cap), p.first / cap, p.last / cap, ((t : ℚ) : WithBot ℚ), ⊤⟩)
    (F := fun x => tt + F x / cap) ⟨by simpa using h1, h2, h3, fun x hx => ⟨WithBot.coe_le_coe.mpr (h4 x hx), le_top⟩⟩ ?_ x
  refine ⟨?_, ?_, ?_, ?_⟩
  · intro i s v hs hv
    simp only [List.getElem?_map, Option.map_eq_some_iff] at hv
    obtain ⟨w, hw, rfl⟩ := hv
    rw [hF.at_break i s w hs hw]
  · intro i s u hs hu y g1 g2
    rw [hF.between i s u hs hu y g1 g2]; ring
  · intro s hs y hy
    rw [hF.before s hs y hy]; ring
  · intro s hs y hy
    rw [hF.after s hs y hy]; ring

theorem costs_ok (hn : InputOk n) {t : ℚ} {ps : List PL} (hp : PredictionOk n t ps) :
    ∃ costs, mapPy (costOfEdge n t ps) (List.range n.graph.edges.length) = .ok costs ∧ CostsFrom n t ps costs := by
  obtain ⟨costs, c1, c2, c3⟩ := mapPy_ok (costOfEdge n t ps) (List.range n.graph.edges.length) (fun e he => by
    obtain ⟨_, _, _, f, _, _, _, _, h, _⟩ := costOfEdge_ok hn hp (List.mem_range.mp he); exact ⟨f, h⟩)
  refine ⟨costs, c1, by simpa using c2, ?_, ?_, ?_⟩
  · intro e he
    have hid := (edge_id hn.graph he).1
    obtain ⟨p, tt, cap, f, a1, a2, a3, a4, a5, v1, v2, v3, v4, rfl⟩ := costOfEdge_ok hn hp hid
    obtain ⟨f', b1, b2⟩ := c3 (n.graph.edge e).id (n.graph.edge e).id (by rw [List.getElem?_range hid])
    rw [a5] at b2; injection b2 with b2; subst b2
    refine ⟨_, b1, ⟨by simpa using v1, v2, v3, fun x hx => ⟨WithBot.coe_le_coe.mpr (v4 x hx), le_top⟩⟩, rfl, rfl, ?_, ?_⟩
    · intro c hc x
      obtain ⟨p', tt', cap', F, g1, g2, g3, g4, g5⟩ := hc e he
      rw [a1] at g1; injection g1 with g1; subst g1
      rw [a2] at g2; injection g2 with g2; subst g2
      rw [a3] at g3; injection g3 with g3; subst g3
      rw [g5, fn_scale v1 v2 v3 v4 g4]
    · have hpos : 0 < p.values.length := by rw [v1]; exact List.length_pos_iff.mpr v2
      refine ⟨tt + p.values[0] / cap, by simp [hpos], v4, ?_⟩
      intro c hc
      obtain ⟨p', tt', cap', v, g1, g2, g3, g4, g5⟩ := hc e he
      rw [a1] at g1; injection g1 with g1; subst g1
      rw [a2] at g2; injection g2 with g2; subst g2
      rw [a3] at g3; injection g3 with g3; subst g3
      rw [List.head?_eq_getElem?, List.getElem?_eq_getElem hpos] at g4
      injection g4 with g4
      rw [g5, g4]
  · have : ∀ e, ∃ C : ℚ → ℚ, e ∈ n.graph.edges → ∃ p tt cap F, ps[(n.graph.edge e).id]? = some p ∧ n.travelTime[(n.graph.edge e).id]? = some tt ∧
        n.capacity[(n.graph.edge e).id]? = some cap ∧ Interpolates p.times p.values p.first p.last F ∧ ∀ x, C x = tt + F x / cap := by
      intro e
      by_cases he : e ∈ n.graph.edges
      · obtain ⟨p, tt, cap, f, a1, a2, a3, _, _, v1, v2, v3, v4, _⟩ := costOfEdge_ok hn hp (edge_id hn.graph he).1
        refine ⟨fun x => tt + PL.fn ⟨p.times, p.values, p.first, p.last, ⊥, ⊤⟩ x / cap, fun _ => ⟨p, tt, cap, _, a1, a2, a3, ?_, fun _ => rfl⟩⟩
        exact PL.interpolates (f := ⟨p.times, p.values, p.first, p.last, ⊥, ⊤⟩) ⟨v1, v2, v3, fun x _ => ⟨bot_le, le_top⟩⟩
      · exact ⟨fun _ => 0, fun h => absurd h he⟩
    choose C hC using this
    exact ⟨C, hC⟩
  · have : ∀ e, ∃ C : ℚ, e ∈ n.graph.edges → ∃ p tt cap v, ps[(n.graph.edge e).id]? = some p ∧ n.travelTime[(n.graph.edge e).id]? = some tt ∧
        n.capacity[(n.graph.edge e).id]? = some cap ∧ p.values.head? = some v ∧ C = tt + v / cap := by
      intro e
      by_cases he : e ∈ n.graph.edges
      · obtain ⟨p, tt, cap, f, a1, a2, a3, _, _, v1, v2, v3, v4, _⟩ := costOfEdge_ok hn hp (edge_id hn.graph he).1
        have hpos : 0 < p.values.length := by rw [v1]; exact List.length_pos_iff.mpr v2
        exact ⟨tt + p.values[0] / cap, fun _ => ⟨p, tt, cap, p.values[0], a1, a2, a3, by rw [List.head?_eq_getElem?, List.getElem?_eq_getElem hpos], rfl⟩⟩
      · exact ⟨0, fun h => absurd h he⟩
    choose C hC using this
    exact ⟨C, hC⟩

/-- The first value of a cost function is a value of it at or after the prediction time. -/
theorem fixed_nonneg {t : ℚ} {ps costs : List PL} (hp : PredictionOk n t ps) (hc : CostsFrom n t ps costs) {e : Nat} (he : e ∈ n.graph.edges) :
    ∃ f v, costs[(n.graph.edge e).id]? = some f ∧ f.values[0]? = some v ∧ 0 ≤ v := by
  obtain ⟨f, a1, a2, _, _, a3, v, a4, a5, _⟩ := hc.made e he
  refine ⟨f, v, a1, a4, ?_⟩
  obtain ⟨c, hcc⟩ := hc.costs
  have h1 := hp.nonneg c hcc e he (f.times[0]'a2.pos) (a5 _ (List.getElem_mem _))
  rw [a3 c hcc, PL.fn_time a2 0 a2.pos] at h1
  rw [List.getElem?_eq_getElem (by rw [a2.len]; exact a2.pos)] at a4
  injection a4 with a4
  rw [← a4]; exact h1

theorem consts_ok (hn : InputOk n) {t : ℚ} {ps costs : List PL} (hp : PredictionOk n t ps) (hc : CostsFrom n t ps costs) :
    ∃ consts, mapPy (fun f : PL => rd f.values 0) costs = .ok consts ∧ consts.length = n.graph.edges.length ∧ (∀ x ∈ consts, 0 ≤ x) ∧
      ∀ c, FixedCosts n ps c → ∀ e ∈ n.graph.edges, costOf n.graph consts e = c e := by
  have hat : ∀ (j : Nat) (f : PL), costs[j]? = some f → ∃ v, f.values[0]? = some v ∧ 0 ≤ v ∧ ∃ e ∈ n.graph.edges, (n.graph.edge e).id = j := by
    intro j f hj
    have hj' : j < n.graph.edges.length := by rw [← hc.len]; exact (List.getElem?_eq_some_iff.mp hj).1
    have hid := hn.graph.ids j hj'
    obtain ⟨f', v, b1, b2, b3⟩ := fixed_nonneg hp hc (List.getElem_mem hj')
    rw [hid, hj] at b1; injection b1 with b1; subst b1
    exact ⟨v, b2, b3, _, List.getElem_mem hj', hid⟩
  obtain ⟨consts, c1, c2, c3⟩ := mapPy_ok (fun f : PL => rd f.values 0) costs (fun f hf => by
    obtain ⟨j, hj, e⟩ := List.getElem_of_mem hf
    obtain ⟨v, h1, _⟩ := hat j f (by rw [List.getElem?_eq_getElem hj, e])
    exact ⟨v, rd_eq_ok.mpr h1⟩)
  refine ⟨consts, c1, by rw [c2, hc.len], ?_, ?_⟩
  · intro x hx
    obtain ⟨j, hj, e⟩ := List.getElem_of_mem hx
    have hj' : j < costs.length := by omega
    obtain ⟨b, b1, b2⟩ := c3 j _ (List.getElem?_eq_getElem hj')
    obtain ⟨v, h1, h2, _⟩ := hat j _ (List.getElem?_eq_getElem hj')
    rw [rd_eq_ok] at b2
    rw [h1] at b2; injection b2 with b2
    rw [List.getElem?_eq_getElem hj, e] at b1
    injection b1 with b1
    rw [b1, ← b2]; exact h2
  · intro c hcf e he
    obtain ⟨f, a1, _, _, _, _, v, a4, _, a6⟩ := hc.made e he
    obtain ⟨b, b1, b2⟩ := c3 _ f a1
    rw [rd_eq_ok, a4] at b2; injection b2 with b2
    unfold costOf
    rw [List.getD_eq_getElem?_getD, b1, ← b2, a6 c hcf]; rfl

theorem fifo_ok {t : ℚ} {ps costs : List PL} (hp : PredictionOk n t ps) (hc : CostsFrom n t ps costs) {c : Nat → ℚ → ℚ} (hcc : Costs n ps c) :
    FifoCosts n.graph t (costs.map PL.eval) c := by
  refine ⟨?_, hp.nonneg c hcc, hp.fifo c hcc⟩
  intro e he
  obtain ⟨f, a1, a2, a3, a4, a5, _⟩ := hc.made e he
  refine ⟨f.eval, by rw [List.getElem?_map, a1]; rfl, ?_⟩
  intro x hx
  rw [PL.eval_eq a2 (by unfold PL.inDom; rw [a3, a4]; exact ⟨WithBot.coe_le_coe.mpr hx, le_top⟩), a5 c hcc]

end Builder
end Verif
