import Verif.Proofs.BuilderCosts

/-! The active edges that the flow builder finds. -/

namespace Verif
open Spec

namespace Builder
variable {P : Type} {n : Network P}

section
variable {g : Graph} {c : Nat → ℚ} {L : List Nat} {sink : Nat}

theorem route_path {nodes : List Nat} {v k : Nat} {x : ℚ} (h : Route g c nodes sink v k x) : Path g v sink := by
  induction h with
  | nil => exact .refl
  | cons e he _ _ ih => exact Relation.ReflTransGen.head ⟨e, he, rfl, rfl⟩ ih

theorem route_mono {nodes nodes' : List Nat} (hs : ∀ v ∈ nodes, v ∈ nodes') {v k : Nat} {x : ℚ} (h : Route g c nodes sink v k x) :
    Route g c nodes' sink v k x := by
  induction h with
  | nil => exact .nil
  | cons e he hv _ ih => exact .cons e he (hs _ hv) ih

/-- `L` holds, with a node, every node that lies on a path from it to the sink. -/
def ClosedTo (g : Graph) (sink : Nat) (L : List Nat) : Prop :=
  ∀ e ∈ g.edges, g.nodeFrom e ∈ L → Path g (g.nodeTo e) sink → g.nodeTo e ∈ L

theorem route_inside (hcl : ClosedTo g sink L) {nodes : List Nat} {v k : Nat} {x : ℚ} (h : Route g c nodes sink v k x) (hv : v ∈ L) :
    Route g c L sink v k x := by
  induction h with
  | nil => exact .nil
  | cons e he _ h ih => exact .cons e he hv (ih (hcl e he hv (route_path h)))

theorem route_of_path (hcl : ClosedTo g sink L) (c : Nat → ℚ) {v : Nat} (h : Path g v sink) (hv : v ∈ L) : ∃ k x, Route g c L sink v k x := by
  induction h using Relation.ReflTransGen.head_induction_on with
  | refl => exact ⟨0, 0, .nil⟩
  | head h1 h2 ih =>
    obtain ⟨e, he, e1, e2⟩ := h1
    obtain ⟨k, x, hr⟩ := ih (e2 ▸ hcl e he (e1 ▸ hv) (e2 ▸ h2))
    rw [← e2] at hr
    rw [← e1]
    exact ⟨_, _, .cons e he (e1 ▸ hv) hr⟩

theorem route_congr {c' : Nat → ℚ} (h : ∀ e ∈ g.edges, c e = c' e) {nodes : List Nat} {v k : Nat} {x : ℚ} (hr : Route g c nodes sink v k x) :
    Route g c' nodes sink v k x := by
  induction hr with
  | nil => exact .nil
  | cons e he hv _ ih => rw [h e he]; exact .cons e he hv ih

variable {d : Nat → ℚ → ℚ} {source : Nat} {phi : ℚ}

theorem arrives_mono {nodes nodes' : List Nat} (hs : ∀ v ∈ nodes, v ∈ nodes') {w : Nat} {t : ℚ} (h : Arrives g d nodes source phi w t) :
    Arrives g d nodes' source phi w t := by
  induction h with
  | start => exact .start
  | step e he hw _ ih => exact .step e he (hs _ hw) ih

theorem arrives_inside (hcl : ClosedTo g sink L) (hs : source ∈ L) {nodes : List Nat} {w : Nat} {t : ℚ} (h : Arrives g d nodes source phi w t)
    (hw : Path g w sink) : w ∈ L ∧ Arrives g d L source phi w t := by
  induction h with
  | start => exact ⟨hs, .start⟩
  | step e he _ h ih =>
    obtain ⟨a, b⟩ := ih (Relation.ReflTransGen.head ⟨e, he, rfl, rfl⟩ hw)
    have := hcl e he a hw
    exact ⟨this, .step e he this b⟩

theorem arrives_in {w : Nat} {t : ℚ} (hs : source ∈ L) (h : Arrives g d L source phi w t) : w ∈ L := by
  cases h with
  | start => exact hs
  | step e he hw h => exact hw

theorem arrives_ge (hpos : ∀ e ∈ g.edges, ∀ t, phi ≤ t → 0 ≤ d e t) {nodes : List Nat} {w : Nat} {t : ℚ} (h : Arrives g d nodes source phi w t) : phi ≤ t := by
  induction h with
  | start => exact le_rfl
  | step e he _ _ ih => have := hpos e he _ ih; linarith

theorem arrives_of_path (hcl : ClosedTo g sink L) (hs : source ∈ L) (h : Path g source sink) : ∃ t, Arrives g d L source phi sink t := by
  have : ∀ v, Path g v sink → (∃ t, Arrives g d L source phi v t) → ∃ t, Arrives g d L source phi sink t := by
    intro v hv
    induction hv using Relation.ReflTransGen.head_induction_on with
    | refl => exact id
    | head h1 h2 ih =>
      rintro ⟨t, ht⟩
      obtain ⟨e, he, e1, e2⟩ := h1
      refine ih ⟨t + d e t, ?_⟩
      rw [← e2]
      rw [← e1] at ht
      exact .step e he (hcl e he (arrives_in hs ht) (e2 ▸ h2)) ht
  exact this source h ⟨phi, .start⟩

end

/-- The nodes of a commodity are closed along paths to its sink. -/
theorem between_closed {g : Graph} {c : Commodity P} {L : List Nat} (hL : ∀ v, v ∈ L ↔ Between g c v) : ClosedTo g c.sink L := by
  intro e he h1 h2
  rw [hL] at h1 ⊢
  obtain ⟨s, hs, hp⟩ := h1.2
  exact ⟨h2, s, hs, hp.tail ⟨e, he, rfl, rfl⟩⟩

theorem constActive_spec {g : Graph} (hg : Consistent g) {costs : List ℚ} (hlen : costs.length = g.edges.length) {dist : Nat → Option ℚ} {v : Nat} {dv : ℚ}
    (hv : dist v = some dv) : ∀ (es : List Nat), (∀ e ∈ es, e ∈ g.edges) →
    ∃ A, constActive g costs dist v es = .ok A ∧ A.Sublist es ∧ ∀ e, e ∈ A ↔ e ∈ es ∧ ∃ dw, dist (g.nodeTo e) = some dw ∧ costOf g costs e + dw ≤ dv + eps := by
  intro es
  induction es with
  | nil => intro _; exact ⟨[], rfl, List.Sublist.slnil, by simp⟩
  | cons e es ih =>
    intro h
    obtain ⟨A, a1, a2, a3⟩ := ih (fun e he => h e (by simp [he]))
    unfold constActive
    cases hd : dist (g.nodeTo e) with
    | none =>
      refine ⟨A, a1, a2.cons _, ?_⟩
      intro e'
      rw [a3]
      constructor
      · rintro ⟨x, y⟩; exact ⟨List.mem_cons_of_mem _ x, y⟩
      · rintro ⟨x, y⟩
        rcases List.mem_cons.mp x with rfl | x
        · obtain ⟨dw, y, _⟩ := y; rw [hd] at y; cases y
        · exact ⟨x, y⟩
    | some dw =>
      simp only
      rw [(Dijkstra.cost_rd hg hlen (h e (by simp))).1, ok_bind, Dijkstra.look_some hv, ok_bind, a1, ok_bind]
      by_cases hc : costOf g costs e + dw ≤ dv + eps
      · refine ⟨e :: A, by rw [if_pos hc]; rfl, a2.cons₂ _, ?_⟩
        intro e'
        rw [List.mem_cons, a3, List.mem_cons]
        constructor
        · rintro (rfl | ⟨x, y⟩)
          · exact ⟨Or.inl rfl, dw, hd, hc⟩
          · exact ⟨Or.inr x, y⟩
        · rintro ⟨rfl | x, y⟩
          · exact Or.inl rfl
          · exact Or.inr ⟨x, y⟩
      · refine ⟨A, by rw [if_neg hc]; rfl, a2.cons _, ?_⟩
        intro e'
        rw [a3, List.mem_cons]
        constructor
        · rintro ⟨x, y⟩; exact ⟨Or.inr x, y⟩
        · rintro ⟨rfl | x, y⟩
          · obtain ⟨dw', y, z⟩ := y
            rw [hd] at y; injection y with y; subst y; exact absurd z hc
          · exact ⟨x, y⟩

/-- What is claimed of a set of active edges at `v`, independently of how it was found. -/
structure EdgesOk (g : Graph) (sink v : Nat) (A : List Nat) : Prop where
  ne : A ≠ []
  nodup : A.Nodup
  out : ∀ e ∈ A, e ∈ g.outgoing v
  reach : ∀ e ∈ A, Path g (g.nodeTo e) sink

theorem out_mem {g : Graph} (hg : Consistent g) {v e : Nat} (hv : v ∈ g.nodes) : e ∈ g.outgoing v ↔ e ∈ g.edges ∧ g.nodeFrom e = v := by
  rw [hg.out v hv, List.mem_filter]; simp

theorem inc_mem {g : Graph} (hg : Consistent g) {v e : Nat} (hv : v ∈ g.nodes) : e ∈ g.incoming v ↔ e ∈ g.edges ∧ g.nodeTo e = v := by
  rw [hg.inc v hv, List.mem_filter]; simp

theorem out_nodup {g : Graph} (hg : Consistent g) {v : Nat} (hv : v ∈ g.nodes) : (g.outgoing v).Nodup := by
  rw [hg.out v hv]; exact hg.edges.filter _

theorem constActive_ok {g : Graph} (hg : Consistent g) {costs : List ℚ} (hlen : costs.length = g.edges.length) (hpos : ∀ x ∈ costs, 0 ≤ x)
    {sink : Nat} {L : List Nat} (hsub : ∀ v ∈ L, v ∈ g.nodes) (hs : sink ∈ L) (hcl : ClosedTo g sink L) {dist : Nat → Option ℚ}
    (hd : Dijkstra.reverseDijkstra g sink costs L = .ok dist) {v : Nat} (hv : v ∈ L) (hvs : v ≠ sink) (hp : Path g v sink) :
    ∃ A, constActive g costs dist v (g.outgoing v) = .ok A ∧ EdgesOk g sink v A ∧ FirstEdges g (costOf g costs) sink v A := by
  obtain ⟨dist', h1, h2, h3, h4, h5, h6⟩ := Dijkstra.reverseDijkstra_spec hg hlen hpos hsub hs
  rw [hd] at h1; injection h1 with h1; subst h1
  obtain ⟨dv, hdv⟩ := (h2 v).mpr (route_of_path hcl _ hp hv)
  have hvn := hsub v hv
  obtain ⟨A, a1, a2, a3⟩ := constActive_spec hg hlen hdv (g.outgoing v) (fun e he => ((out_mem hg hvn).mp he).1)
  have ho : ∀ e ∈ A, e ∈ g.outgoing v := fun e he => ((a3 e).mp he).1
  refine ⟨A, a1, ⟨?_, a2.nodup (out_nodup hg hvn), ho, ?_⟩, ⟨?_, ?_⟩⟩
  · obtain ⟨e, he, e1, dw, e2, e3⟩ := h5 v dv hdv hvs
    have := eps_pos
    exact List.ne_nil_of_mem ((a3 e).mpr ⟨(out_mem hg hvn).mpr ⟨he, e1⟩, dw, e2, by rw [e3]; linarith⟩)
  · intro e he
    obtain ⟨dw, e1, _⟩ := ((a3 e).mp he).2
    obtain ⟨k, x, hr⟩ := (h2 _).mp ⟨dw, e1⟩
    exact route_path hr
  · intro e he
    obtain ⟨dw, e1, e2⟩ := ((a3 e).mp he).2
    obtain ⟨⟨k, hr⟩, _⟩ := h3 _ _ e1
    refine ⟨k, dw, route_mono hsub hr, ?_⟩
    intro k' L' hr'
    have := (h3 v dv hdv).2 k' L' (route_inside hcl hr' hv)
    linarith
  · intro e he k x hr hmin
    obtain ⟨hee, hef⟩ := (out_mem hg hvn).mp he
    have hw : g.nodeTo e ∈ L := hcl e hee (hef ▸ hv) (route_path hr)
    have hr2 := route_inside hcl hr hw
    obtain ⟨dw, hdw⟩ := (h2 _).mpr ⟨k, x, hr2⟩
    have hb := (h3 _ _ hdw).2 k x hr2
    obtain ⟨⟨k0, hr0⟩, _⟩ := h3 v dv hdv
    have := hmin k0 dv (route_mono hsub hr0)
    exact (a3 e).mpr ⟨he, dw, hdw, by linarith⟩

theorem dynamic_ok {g : Graph} (hg : Consistent g) {costs : List (ℚ → Py ℚ)} {d : Nat → ℚ → ℚ} {phi : ℚ} (hc : FifoCosts g phi costs d)
    {sink : Nat} {L : List Nat} (hsub : ∀ v ∈ L, v ∈ g.nodes) (hs : sink ∈ L) (hcl : ClosedTo g sink L) (hL : ∀ v ∈ L, Path g v sink)
    {v : Nat} (hv : v ∈ L) (hvs : v ≠ sink) :
    ∃ res A, Dijkstra.dynamicDijkstra g phi v sink L costs = .ok res ∧ Dijkstra.activeEdges g res v sink = .ok A ∧
      EdgesOk g sink v A ∧ FirstEdgesAt g d phi sink v A := by
  obtain ⟨res, r1, post⟩ := Dijkstra.dynamicDijkstra_spec (sink := sink) hg hc (hsub v hv) hsub
  have hp := hL v hv
  obtain ⟨ts, hts⟩ := arrives_of_path (d := d) (phi := phi) hcl hv hp
  obtain ⟨bs, hbs⟩ : ∃ b, res.arrival sink = some b := by
    rcases post.all sink ts hts with h | ⟨b, hb, _⟩
    · exact h
    · exact ⟨b, hb⟩
  obtain ⟨A, a1, a2, a3, a4⟩ := Dijkstra.activeEdges_spec hg (fun e x hx => by obtain ⟨_, _, a, ha, _⟩ := post.real e x hx; exact ⟨a, ha⟩)
    ⟨bs, hbs⟩ (hsub sink hs) (post.path sink bs hbs) hvs
  have hvn := hsub v hv
  -- returned times are earliest arrivals in the whole graph
  have hear : ∀ w a, res.arrival w = some a → phi ≤ a ∧ Earliest g d v phi w a := by
    intro w a ha
    obtain ⟨x1, x2, x3⟩ := post.earliest w a ha
    refine ⟨x1, arrives_mono hsub x2, ?_⟩
    intro t ht
    exact x3 t (arrives_inside hcl hv ht (hL w (arrives_in hv x2))).2
  have huniq : ∀ {w a a'}, Earliest g d v phi w a → Earliest g d v phi w a' → a = a' := by
    intro w a a' h1 h2
    exact le_antisymm (h1.2 _ h2.1) (h2.2 _ h1.1)
  have hpt : ∀ e, Tight g res eps e → e ∈ g.edges ∧ g.nodeTo e ∈ L ∧ Punctual g d v phi e := by
    rintro e ⟨x, a, b, y1, y2, y3, y4⟩
    obtain ⟨z1, z2, a', z3, z4⟩ := post.real e x y1
    rw [y2] at z3; injection z3 with z3; subst z3; subst z4
    exact ⟨z1, z2, a, b, (hear _ _ y2).2, (hear _ _ y3).2, y4⟩
  refine ⟨res, A, r1, a1, ⟨a2, a3, ?_, ?_⟩, ⟨?_, ?_⟩⟩
  · intro e he
    obtain ⟨x1, x2, _⟩ := (a4 e).mp he
    exact (out_mem hg hvn).mpr ⟨x1, x2⟩
  · intro e he
    obtain ⟨_, _, x3, _⟩ := (a4 e).mp he
    exact hL _ (hpt e x3).2.1
  · intro e he
    obtain ⟨x1, x2, x3, x4⟩ := (a4 e).mp he
    unfold StartsPunctual
    rw [x2]
    exact ⟨(hpt e x3).2.2, Dijkstra.rtg_mono (fun a b ⟨e', y1, y2, y3, y4⟩ => ⟨e', y1, y2, y3, (hpt e' y4).2.2⟩) x4⟩
  · intro hbig e he hst
    obtain ⟨hee, hef⟩ := (out_mem hg hvn).mp he
    unfold StartsPunctual at hst
    rw [hef] at hst
    obtain ⟨s1, s2⟩ := hst
    have hstep : ∀ e' ∈ g.edges, Punctual g d v phi e' → (∃ b, res.arrival (g.nodeTo e') = some b ∧ b ≤ bs) → Path g (g.nodeTo e') sink →
        Tight g res eps e' ∧ ∃ a, res.arrival (g.nodeFrom e') = some a ∧ a ≤ bs := by
      rintro e' he' ⟨a, b, q1, q2, q3⟩ ⟨b', hb', hle⟩ hpath
      have hbb := huniq q2 (hear _ _ hb').2
      subst hbb
      have hphi := arrives_ge hc.nonneg q1.1
      have hbig' := hbig e' he' a hphi
      have hpf : Path g (g.nodeFrom e') sink := Relation.ReflTransGen.head ⟨e', he', rfl, rfl⟩ hpath
      obtain ⟨hin, harr⟩ := arrives_inside hcl hv q1.1 hpf
      have hto := hcl e' he' hin hpath
      have harrival : ∃ a', res.arrival (g.nodeFrom e') = some a' := by
        rcases post.all _ a harr with h | ⟨b2, h1, h2⟩
        · exact h
        · rw [hbs] at h1; injection h1 with h1; subst h1; exfalso; linarith
      obtain ⟨a', ha'⟩ := harrival
      have haa := huniq q1 (hear _ _ ha').2
      subst haa
      have hns : g.nodeFrom e' ≠ sink := by
        intro es
        rw [es, hbs] at ha'; injection ha' with ha'; linarith
      refine ⟨?_, a, ha', by linarith⟩
      rcases post.explored _ a ha' hns e' he' rfl hto with hx | ⟨b2, h1, h2⟩
      · exact ⟨_, a, b, hx, ha', hb', q3⟩
      · rw [hb'] at h2; injection h2 with h2; subst h2; exfalso; linarith
    have hall : ∀ u, Relation.ReflTransGen (fun u w => ∃ e' ∈ g.edges, g.nodeFrom e' = u ∧ g.nodeTo e' = w ∧ Punctual g d v phi e') u sink →
        (∃ a, res.arrival u = some a ∧ a ≤ bs) ∧ TightPath g res eps u sink ∧ Path g u sink := by
      intro u hu
      induction hu using Relation.ReflTransGen.head_induction_on with
      | refl => exact ⟨⟨bs, hbs, le_rfl⟩, .refl, .refl⟩
      | head h1 h2 ih =>
        obtain ⟨e', y1, y2, y3, y4⟩ := h1
        obtain ⟨i1, i2, i3⟩ := ih
        rw [← y3] at i1 i2 i3
        obtain ⟨t1, t2⟩ := hstep e' y1 y4 i1 i3
        rw [← y2]
        exact ⟨t2, Relation.ReflTransGen.head ⟨e', y1, rfl, rfl, t1⟩ i2, Relation.ReflTransGen.head ⟨e', y1, rfl, rfl⟩ i3⟩
    obtain ⟨i1, i2, i3⟩ := hall _ s2
    exact (a4 e).mpr ⟨hee, hef, (hstep e hee s1 i1 i3).1, i2⟩

end Builder
end Verif
