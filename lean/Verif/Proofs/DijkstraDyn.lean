import Verif.Proofs.DijkstraBack

/-! `dynamic_dijkstra` is label setting under FIFO; the backward search for active edges. -/

namespace Verif
open Verif.Spec
namespace Dijkstra

theorem rtg_mono {R S : Nat → Nat → Prop} (h : ∀ a b, R a b → S a b) {u v : Nat} (hr : Relation.ReflTransGen R u v) :
    Relation.ReflTransGen S u v := by
  induction hr with
  | refl => exact .refl
  | tail _ hs ih => exact ih.tail (h _ _ hs)

theorem Tight.mono {g : Graph} {r r' : Result} {tol : ℚ} (ha : ∀ v a, r.arrival v = some a → r'.arrival v = some a)
    (hr : ∀ e x, r.realized e = some x → r'.realized e = some x) {e : Nat} (h : Tight g r tol e) : Tight g r' tol e := by
  obtain ⟨x, a, b, h1, h2, h3, h4⟩ := h
  exact ⟨x, a, b, hr _ _ h1, ha _ _ h2, ha _ _ h3, h4⟩

theorem TightPath.mono {g : Graph} {r r' : Result} {tol : ℚ} (ha : ∀ v a, r.arrival v = some a → r'.arrival v = some a)
    (hr : ∀ e x, r.realized e = some x → r'.realized e = some x) {u v : Nat} (h : TightPath g r tol u v) : TightPath g r' tol u v := by
  unfold TightPath at *
  exact rtg_mono (fun a b ⟨e, h1, h2, h3, h4⟩ => ⟨e, h1, h2, h3, Tight.mono ha hr h4⟩) h

section
variable (g : Graph) (c : Nat → ℚ → ℚ) (relevant : List Nat) (source sink : Nat) (phi : ℚ)

/-- Labels `arr`, realised costs `real`, queue `M`, popped nodes `D`, relaxed edges `R`. -/
structure DInv (arr real M : Nat → Option ℚ) (D R : List Nat) : Prop where
  fin : ∀ v a, arr v = some a → Arrives g c relevant source phi v a ∧ phi ≤ a ∧ v ∈ D
  done : ∀ v ∈ D, ∃ a, arr v = some a
  inside : ∀ v ∈ D, v = source ∨ v ∈ relevant
  key : ∀ w k, M w = some k → arr w = none ∧ Arrives g c relevant source phi w k ∧ phi ≤ k ∧ (w = source ∨ w ∈ relevant)
  order : ∀ v a, arr v = some a → ∀ u k, M u = some k → a ≤ k
  relaxed : ∀ e ∈ R, e ∈ g.edges ∧ ∃ a, arr (g.nodeFrom e) = some a ∧ (g.nodeTo e ∈ relevant →
    (∃ k, k ≤ a + c e a ∧ (arr (g.nodeTo e) = some k ∨ M (g.nodeTo e) = some k)) ∧
    (real e = some (c e a) ∨ ∃ b, b ≤ a ∧ arr (g.nodeTo e) = some b))
  start : arr source = some phi ∨ M source = some phi
  rlz : ∀ e x, real e = some x → e ∈ g.edges ∧ g.nodeTo e ∈ relevant ∧ ∃ a, arr (g.nodeFrom e) = some a ∧ x = c e a
  path : ∀ v a, arr v = some a → TightPath g ⟨arr, real⟩ 0 source v
  par : ∀ w k, M w = some k → w = source ∨ ∃ e ∈ g.edges, g.nodeTo e = w ∧ ∃ x a, real e = some x ∧ arr (g.nodeFrom e) = some a ∧ a + x = k

variable {g c relevant source sink phi}

theorem relax_spec {costs : List (ℚ → Py ℚ)} (hc : FifoCosts g phi costs c)
    {arr real M : Nat → Option ℚ} {D R : List Nat} {q : Heap ℚ Nat} (h : DInv g c relevant source phi arr real M D R) (hq : q.Rep M)
    {v : Nat} {a : ℚ} (hv : arr v = some a) (hmax : ∀ u b, arr u = some b → b ≤ a) {e : Nat} (he : e ∈ g.edges) (hf : g.nodeFrom e = v) :
    ∃ real' q' M', relax g relevant costs v e arr real q = .ok (real', q') ∧ q'.Rep M' ∧
      DInv g c relevant source phi arr real' M' D (e :: R) := by
  obtain ⟨hva, hpa, hvD⟩ := h.fin v a hv
  have hc0 := hc.nonneg e he a hpa
  unfold relax
  simp only
  by_cases hskip : (arr (g.nodeTo e)).isSome = true ∨ ¬ g.nodeTo e ∈ relevant
  · rw [if_pos hskip]
    refine ⟨real, q, M, rfl, hq, { h with relaxed := ?_ }⟩
    intro e' he'
    rcases List.mem_cons.mp he' with rfl | he'
    · refine ⟨he, a, by rw [hf]; exact hv, fun hw => ?_⟩
      rcases hskip with hs | hs
      · obtain ⟨b, hb⟩ := Option.isSome_iff_exists.mp hs
        have := hmax _ b hb
        exact ⟨⟨b, by linarith, Or.inl hb⟩, Or.inr ⟨b, this, hb⟩⟩
      · exact absurd hw hs
    · exact h.relaxed e' he'
  · rw [if_neg hskip]
    rw [not_or, not_not] at hskip
    obtain ⟨hns, hrel⟩ := hskip
    have hnone : arr (g.nodeTo e) = none := by
      cases ha : arr (g.nodeTo e) with
      | none => rfl
      | some b => rw [ha] at hns; simp at hns
    obtain ⟨f, hf1, hf2⟩ := hc.call e he
    rw [rd_eq_ok.mpr hf1, ok_bind, look_some hv, ok_bind, hf2 a hpa, ok_bind]
    have harr : Arrives g c relevant source phi (g.nodeTo e) (a + c e a) := by
      rw [← hf] at hva; exact Arrives.step e he hrel hva
    have hreal : ∀ e' x, real e' = some x → put real e (c e a) e' = some x := by
      intro e' x hx
      by_cases ee : e' = e
      · subst ee
        obtain ⟨_, _, a', h1, h2⟩ := h.rlz e' x hx
        rw [hf, hv] at h1; injection h1 with h1; subst h1
        rw [put_self, h2]
      · rw [put_ne _ _ ee]; exact hx
    have upd : ∀ (M' : Nat → Option ℚ) (k' : ℚ), M' (g.nodeTo e) = some k' → k' ≤ a + c e a → (k' = a + c e a ∨ M (g.nodeTo e) = some k') →
        (∀ k, M (g.nodeTo e) = some k → k' ≤ k) → (∀ u, u ≠ g.nodeTo e → M' u = M u) → g.nodeTo e ≠ source ∨ M source = some phi →
        DInv g c relevant source phi arr (put real e (c e a)) M' D (e :: R) := by
      intro M' k' m1 m2 m3 m4 m5 m6
      have hk' : a ≤ k' := by
        rcases m3 with m3 | m3
        · rw [m3]; linarith
        · exact h.order v a hv _ _ m3
      refine ⟨h.fin, h.done, h.inside, ?_, ?_, ?_, ?_, ?_, ?_, ?_⟩
      · intro w k hk
        by_cases ew : w = g.nodeTo e
        · subst ew
          rw [m1] at hk; injection hk with hk; subst hk
          refine ⟨hnone, ?_, by linarith, Or.inr hrel⟩
          rcases m3 with m3 | m3
          · rw [m3]; exact harr
          · exact (h.key _ _ m3).2.1
        · rw [m5 w ew] at hk; exact h.key w k hk
      · intro u b hb w k hk
        by_cases ew : w = g.nodeTo e
        · subst ew
          rw [m1] at hk; injection hk with hk; subst hk
          exact le_trans (hmax u b hb) hk'
        · rw [m5 w ew] at hk; exact h.order u b hb w k hk
      · intro e' he'
        rcases List.mem_cons.mp he' with rfl | he'
        · exact ⟨he, a, by rw [hf]; exact hv, fun _ => ⟨⟨k', m2, Or.inr m1⟩, Or.inl (put_self _ _ _)⟩⟩
        · obtain ⟨x1, a', x2, x3⟩ := h.relaxed e' he'
          refine ⟨x1, a', x2, fun hw => ?_⟩
          obtain ⟨⟨k, y1, y2⟩, y3⟩ := x3 hw
          constructor
          · by_cases ew : g.nodeTo e' = g.nodeTo e
            · rw [ew] at y2 ⊢
              rcases y2 with y2 | y2
              · rw [hnone] at y2; cases y2
              · exact ⟨k', le_trans (m4 k y2) y1, Or.inr m1⟩
            · rw [m5 _ ew]; exact ⟨k, y1, y2⟩
          · rcases y3 with y3 | y3
            · exact Or.inl (hreal _ _ y3)
            · exact Or.inr y3
      · rcases h.start with hs | hs
        · exact Or.inl hs
        · by_cases es : source = g.nodeTo e
          · right
            rcases m6 with m6 | m6
            · exact absurd es.symm m6
            · rw [es, m1]
              rw [es] at hs
              have h1 := m4 _ hs
              rcases m3 with m3 | m3
              · congr 1
                rw [m3] at h1 ⊢
                linarith
              · rw [hs] at m3; rw [m3]
          · right; rw [m5 _ es]; exact hs
      · intro e' x hx
        by_cases ee : e' = e
        · subst ee
          rw [put_self] at hx; injection hx with hx
          exact ⟨he, hrel, a, by rw [hf]; exact hv, hx.symm⟩
        · rw [put_ne _ _ ee] at hx; exact h.rlz e' x hx
      · intro u b hb
        exact TightPath.mono (r := ⟨arr, real⟩) (r' := ⟨arr, put real e (c e a)⟩) (fun _ _ h => h) hreal (h.path u b hb)
      · intro w k hk
        by_cases ew : w = g.nodeTo e
        · subst ew
          rw [m1] at hk; injection hk with hk; subst hk
          rcases m3 with m3 | m3
          · exact Or.inr ⟨e, he, rfl, c e a, a, put_self _ _ _, by rw [hf]; exact hv, m3.symm⟩
          · rcases h.par _ _ m3 with h1 | ⟨e', h1, h2, x, a', h3, h4, h5⟩
            · exact Or.inl h1
            · exact Or.inr ⟨e', h1, h2, x, a', hreal _ _ h3, h4, h5⟩
        · rw [m5 w ew] at hk
          rcases h.par _ _ hk with h1 | ⟨e', h1, h2, x, a', h3, h4, h5⟩
          · exact Or.inl h1
          · exact Or.inr ⟨e', h1, h2, x, a', hreal _ _ h3, h4, h5⟩
    have hsrc : g.nodeTo e ≠ source ∨ M source = some phi := by
      rcases h.start with hs | hs
      · left; intro es; rw [es, hs] at hnone; cases hnone
      · exact Or.inr hs
    rw [hq.has]
    cases hM : M (g.nodeTo e) with
    | none =>
      simp only [Option.isSome_none, Bool.false_eq_true, if_false]
      obtain ⟨q', p1, p2⟩ := hq.push (a + c e a) hM
      rw [p1, ok_bind]
      exact ⟨_, q', _, rfl, p2, upd _ (a + c e a) (by simp) (le_refl _) (Or.inl rfl) (fun k hk => by rw [hM] at hk; cases hk)
        (fun u hu => by simp [hu]) hsrc⟩
    | some k =>
      simp only [Option.isSome_some, if_true]
      rw [hq.keyOf, ok_bind, hM]
      simp only
      by_cases hlt : a + c e a < k
      · rw [if_pos hlt]
        obtain ⟨q', p1, p2⟩ := hq.decrease (k := a + c e a) hM (le_of_lt hlt)
        rw [p1, ok_bind]
        exact ⟨_, q', _, rfl, p2, upd _ (a + c e a) (by simp) (le_refl _) (Or.inl rfl)
          (fun k1 hk1 => by rw [hM] at hk1; injection hk1 with hk1; subst hk1; exact le_of_lt hlt)
          (fun u hu => by simp [hu]) hsrc⟩
      · rw [if_neg hlt]
        exact ⟨_, q, M, rfl, hq, upd M k hM (not_lt.mp hlt) (Or.inr hM)
          (fun k1 hk1 => by rw [hM] at hk1; injection hk1 with hk1; rw [hk1]) (fun u _ => rfl) hsrc⟩

theorem relaxAll_spec {costs : List (ℚ → Py ℚ)} (hc : FifoCosts g phi costs c) {arr : Nat → Option ℚ} {D : List Nat}
    {v : Nat} {a : ℚ} (hv : arr v = some a) (hmax : ∀ u b, arr u = some b → b ≤ a) (es : List Nat) :
    ∀ {real M : Nat → Option ℚ} {R : List Nat} {q : Heap ℚ Nat}, DInv g c relevant source phi arr real M D R → q.Rep M →
    (∀ e ∈ es, e ∈ g.edges ∧ g.nodeFrom e = v) →
    ∃ real' q' M' R', relaxAll g relevant costs v arr es real q = .ok (real', q') ∧ q'.Rep M' ∧
      DInv g c relevant source phi arr real' M' D R' ∧ (∀ e ∈ R, e ∈ R') ∧ ∀ e ∈ es, e ∈ R' := by
  induction es with
  | nil => intro real M R q h hq _; exact ⟨real, q, M, R, rfl, hq, h, fun _ h => h, by simp⟩
  | cons e es ih =>
    intro real M R q h hq hes
    obtain ⟨he, hf⟩ := hes e (by simp)
    obtain ⟨r1, q1, M1, a1, a2, a3⟩ := relax_spec hc h hq hv hmax he hf
    obtain ⟨r2, q2, M2, R2, b1, b2, b3, b4, b5⟩ := ih a3 a2 (fun e' he' => hes e' (by simp [he']))
    refine ⟨r2, q2, M2, R2, ?_, b2, b3, fun e' he' => b4 e' (by simp [he']), ?_⟩
    · unfold relaxAll; rw [a1, ok_bind]; exact b1
    · intro e' he'
      rcases List.mem_cons.mp he' with rfl | he'
      · exact b4 _ (by simp)
      · exact b5 e' he'

/-- Who can be at a node at time `t` meets a label or a queued key not later. -/
theorem arrives_bound {costs : List (ℚ → Py ℚ)} (hg : Consistent g) (hc : FifoCosts g phi costs c)
    {arr real M : Nat → Option ℚ} {D R : List Nat} (h : DInv g c relevant source phi arr real M D R)
    (hR : ∀ v ∈ D, ∀ e ∈ g.outgoing v, e ∈ R) {v : Nat} {t : ℚ} (ht : Arrives g c relevant source phi v t) :
    phi ≤ t ∧ ((∃ a, arr v = some a ∧ a ≤ t) ∨ ∃ u k, M u = some k ∧ k ≤ t) := by
  induction ht with
  | start =>
    refine ⟨le_refl _, ?_⟩
    rcases h.start with hs | hs
    · exact Or.inl ⟨phi, hs, le_refl _⟩
    · exact Or.inr ⟨source, phi, hs, le_refl _⟩
  | @step t e he hw _ ih =>
    obtain ⟨hp, ih⟩ := ih
    have h0 := hc.nonneg e he t hp
    refine ⟨by linarith, ?_⟩
    rcases ih with ⟨a, ha, hat⟩ | ⟨u, k, hk, hkt⟩
    · obtain ⟨_, hpa, hD⟩ := h.fin _ a ha
      have heR : e ∈ R := hR _ hD e (by
        rw [hg.out _ (hg.ends e he).1, List.mem_filter]; exact ⟨he, by simp⟩)
      obtain ⟨_, a', h1, h2⟩ := h.relaxed e heR
      rw [ha] at h1; injection h1 with h1; subst h1
      obtain ⟨⟨k, k1, k2⟩, _⟩ := h2 hw
      have hf := hc.fifo e he a t hpa hat
      rcases k2 with k2 | k2
      · exact Or.inl ⟨k, k2, by linarith⟩
      · exact Or.inr ⟨_, k, k2, by linarith⟩
    · exact Or.inr ⟨u, k, hk, by linarith⟩

/-- What the search returns. -/
structure DPost (g : Graph) (c : Nat → ℚ → ℚ) (relevant : List Nat) (source sink : Nat) (phi : ℚ) (res : Result) : Prop where
  earliest : ∀ v a, res.arrival v = some a → phi ≤ a ∧ Arrives g c relevant source phi v a ∧ ∀ t, Arrives g c relevant source phi v t → a ≤ t
  all : ∀ v t, Arrives g c relevant source phi v t → (∃ a, res.arrival v = some a) ∨ ∃ b, res.arrival sink = some b ∧ b ≤ t
  last : ∀ v a b, res.arrival v = some a → res.arrival sink = some b → a ≤ b
  real : ∀ e x, res.realized e = some x → e ∈ g.edges ∧ g.nodeTo e ∈ relevant ∧ ∃ a, res.arrival (g.nodeFrom e) = some a ∧ x = c e a
  explored : ∀ v a, res.arrival v = some a → v ≠ sink → ∀ e ∈ g.edges, g.nodeFrom e = v → g.nodeTo e ∈ relevant →
    res.realized e = some (c e a) ∨ ∃ b, b ≤ a ∧ res.arrival (g.nodeTo e) = some b
  path : ∀ v a, res.arrival v = some a → TightPath g res 0 source v

theorem dynamicLoop_spec {costs : List (ℚ → Py ℚ)} (hg : Consistent g) (hc : FifoCosts g phi costs c) (hsrc : source ∈ g.nodes)
    (hsub : ∀ v ∈ relevant, v ∈ g.nodes) :
    ∀ (fuel : Nat) {arr real M : Nat → Option ℚ} {D R : List Nat} {q : Heap ℚ Nat}, DInv g c relevant source phi arr real M D R → q.Rep M →
    D.Nodup → (∀ v ∈ D, ∀ e ∈ g.outgoing v, e ∈ R) → sink ∉ D → relevant.length + 2 ≤ fuel + D.length →
    ∃ res, dynamicLoop g sink relevant costs fuel arr real q = .ok res ∧ DPost g c relevant source sink phi res := by
  intro fuel
  induction fuel with
  | zero =>
    intro arr real M D R q h hq hD hR hsD hf
    exfalso
    have : D.length ≤ (source :: relevant).length := (List.Nodup.subperm hD (fun x hx => by
      rcases h.inside x hx with h1 | h1
      · simp [h1]
      · simp [h1])).length_le
    simp only [List.length_cons] at this
    omega
  | succ fuel ih =>
    intro arr real M D R q h hq hD hR hsD hf
    unfold dynamicLoop
    rcases hq.cases with ⟨hd, hn⟩ | ⟨q1, w, k, hd, hkey, _, hpop, hM, hmin, hq1, _⟩
    · have : ¬ q.len > 0 := by unfold Heap.len; rw [hd]; simp
      rw [if_neg this]
      have hall : ∀ v t, Arrives g c relevant source phi v t → ∃ a, arr v = some a ∧ a ≤ t := by
        intro v t ht
        rcases (arrives_bound hg hc h hR ht).2 with h1 | ⟨u, k, hk, _⟩
        · exact h1
        · rw [hn] at hk; cases hk
      refine ⟨_, rfl, ⟨?_, ?_, ?_, h.rlz, ?_, h.path⟩⟩
      · intro v a ha
        refine ⟨(h.fin v a ha).2.1, (h.fin v a ha).1, fun t ht => ?_⟩
        obtain ⟨a', h1, h2⟩ := hall v t ht
        rw [show arr v = some a from ha] at h1; injection h1 with h1; subst h1; exact h2
      · intro v t ht; obtain ⟨a, h1, _⟩ := hall v t ht; exact Or.inl ⟨a, h1⟩
      · intro v a b _ hb; exact absurd (h.fin sink b hb).2.2 hsD
      · intro v a ha _ e he hf' hw
        obtain ⟨_, _, hvD⟩ := h.fin v a ha
        obtain ⟨_, a', h1, h2⟩ := h.relaxed e (hR v hvD e (by
          rw [hg.out v (hf' ▸ (hg.ends e he).1), List.mem_filter]; exact ⟨he, by simp [hf']⟩))
        rw [hf', show arr v = some a from ha] at h1; injection h1 with h1; subst h1
        exact (h2 hw).2
    · have hlen' : q.len > 0 := List.length_pos_iff.mpr hd
      rw [if_pos hlen']
      obtain ⟨root, hr0, hrk⟩ := Option.map_eq_some_iff.mp hkey
      rw [rd_eq_ok.mpr hr0, ok_bind, hpop, ok_bind]
      obtain ⟨hnone, hwA, hpk, hwin⟩ := h.key w k hM
      have hwD : w ∉ D := by
        intro hw; obtain ⟨a, ha⟩ := h.done w hw; rw [hnone] at ha; cases ha
      have harr' : ∀ v a, arr v = some a → put arr w k v = some a := by
        intro v a ha
        rw [put_ne _ _ (fun e => by rw [e, hnone] at ha; cases ha)]; exact ha
      have hwpath : TightPath g ⟨put arr w k, real⟩ 0 source w := by
        rcases h.par w k hM with e | ⟨e, he, hto, x, a, h3, h4, h5⟩
        · rw [e]; exact Relation.ReflTransGen.refl
        · refine Relation.ReflTransGen.tail (TightPath.mono (g := g) (tol := 0) (r := ⟨arr, real⟩) (r' := ⟨put arr w k, real⟩) harr' (fun _ _ h => h) (h.path _ a h4)) ⟨e, he, rfl, hto, x, a, k, h3, harr' _ _ h4, ?_, ?_⟩
          · rw [hto]; exact put_self _ _ _
          · rw [h5, add_zero]
      have h1 : DInv g c relevant source phi (put arr w k) real (fun y => if y = w then none else M y) (w :: D) R := by
        refine ⟨?_, ?_, ?_, ?_, ?_, ?_, ?_, ?_, ?_, ?_⟩
        · intro v a ha
          by_cases e : v = w
          · subst e; rw [put_self] at ha; injection ha with ha; subst ha; exact ⟨hwA, hpk, by simp⟩
          · rw [put_ne _ _ e] at ha
            obtain ⟨x1, x2, x3⟩ := h.fin v a ha
            exact ⟨x1, x2, by simp [x3]⟩
        · intro v hv
          rcases List.mem_cons.mp hv with rfl | hv
          · exact ⟨k, put_self _ _ _⟩
          · obtain ⟨a, ha⟩ := h.done v hv; exact ⟨a, harr' v a ha⟩
        · intro v hv
          rcases List.mem_cons.mp hv with rfl | hv
          · exact hwin
          · exact h.inside v hv
        · intro u k' hk'
          by_cases e : u = w
          · rw [if_pos e] at hk'; cases hk'
          · rw [if_neg e] at hk'; rw [put_ne _ _ e]; exact h.key u k' hk'
        · intro v a ha u k' hk'
          have hk2 : M u = some k' := by
            by_cases e : u = w
            · rw [if_pos e] at hk'; cases hk'
            · rw [if_neg e] at hk'; exact hk'
          by_cases e : v = w
          · subst e; rw [put_self] at ha; injection ha with ha; subst ha; exact hmin u k' hk2
          · rw [put_ne _ _ e] at ha; exact h.order v a ha u k' hk2
        · intro e he
          obtain ⟨x1, a, x2, x3⟩ := h.relaxed e he
          refine ⟨x1, a, harr' _ _ x2, fun hw => ?_⟩
          obtain ⟨⟨k', y1, y2⟩, y3⟩ := x3 hw
          constructor
          · refine ⟨k', y1, ?_⟩
            rcases y2 with y2 | y2
            · exact Or.inl (harr' _ _ y2)
            · by_cases ew : g.nodeTo e = w
              · left; rw [ew] at y2 ⊢; rw [hM] at y2; rw [put_self]; exact y2
              · right; rw [if_neg ew]; exact y2
          · rcases y3 with y3 | ⟨b, b1, b2⟩
            · exact Or.inl y3
            · exact Or.inr ⟨b, b1, harr' _ _ b2⟩
        · rcases h.start with hs | hs
          · exact Or.inl (harr' _ _ hs)
          · by_cases es : source = w
            · left; rw [es, put_self]; rw [es, hM] at hs; exact hs
            · right; rw [if_neg es]; exact hs
        · intro e x hx
          obtain ⟨x1, x2, a, x3, x4⟩ := h.rlz e x hx
          exact ⟨x1, x2, a, harr' _ _ x3, x4⟩
        · intro v a ha
          by_cases e : v = w
          · subst e; exact hwpath
          · rw [put_ne _ _ e] at ha
            exact TightPath.mono (r := ⟨arr, real⟩) (r' := ⟨put arr w k, real⟩) harr' (fun _ _ h => h) (h.path v a ha)
        · intro u k' hk'
          by_cases e : u = w
          · rw [if_pos e] at hk'; cases hk'
          · rw [if_neg e] at hk'
            rcases h.par u k' hk' with h2 | ⟨e', h2, h3, x, a', h4, h5, h6⟩
            · exact Or.inl h2
            · exact Or.inr ⟨e', h2, h3, x, a', h4, harr' _ _ h5, h6⟩
      have hmax : ∀ u b, put arr w k u = some b → b ≤ k := by
        intro u b hb
        by_cases e : u = w
        · subst e; rw [put_self] at hb; injection hb with hb; rw [hb]
        · rw [put_ne _ _ e] at hb; exact h.order u b hb w k hM
      rw [hrk]
      by_cases hsink : w = sink
      · simp only [if_pos hsink]
        have hearly : ∀ v a, put arr w k v = some a → ∀ t, Arrives g c relevant source phi v t → a ≤ t := by
          intro v a ha t ht
          rcases (arrives_bound hg hc h hR ht).2 with ⟨a', h2, h3⟩ | ⟨u, k', h2, h3⟩
          · have := harr' _ _ h2; rw [ha] at this; injection this with this; subst this; exact h3
          · exact le_trans (hmax v a ha) (le_trans (hmin u k' h2) h3)
        refine ⟨_, rfl, ⟨?_, ?_, ?_, h1.rlz, ?_, h1.path⟩⟩
        · intro v a ha
          exact ⟨(h1.fin v a ha).2.1, (h1.fin v a ha).1, hearly v a ha⟩
        · intro v t ht
          rcases (arrives_bound hg hc h hR ht).2 with ⟨a', h2, h3⟩ | ⟨u, k', h2, h3⟩
          · exact Or.inl ⟨a', harr' _ _ h2⟩
          · right
            exact ⟨k, by show put arr w k sink = _; rw [hsink]; exact put_self _ _ _, le_trans (hmin u k' h2) h3⟩
        · intro v a b ha hb
          have hb' : put arr w k sink = some b := hb
          rw [hsink, put_self] at hb'; injection hb' with hb'; subst hb'
          exact hmax v a ha
        · intro v a ha hne e he hf' hw
          have ha' : arr v = some a := by
            have : v ≠ w := by rw [hsink]; exact hne
            have h3 : put arr w k v = some a := ha
            rw [put_ne _ _ this] at h3; exact h3
          obtain ⟨_, _, hvD⟩ := h.fin v a ha'
          obtain ⟨_, a', x1, x2⟩ := h1.relaxed e (hR v hvD e (by
            rw [hg.out v (hf' ▸ (hg.ends e he).1), List.mem_filter]; exact ⟨he, by simp [hf']⟩))
          rw [hf', show put arr w k v = some a from ha] at x1; injection x1 with x1; subst x1
          exact (x2 hw).2
      · simp only [if_neg hsink]
        have hwn : w ∈ g.nodes := by
          rcases hwin with e | e
          · rw [e]; exact hsrc
          · exact hsub w e
        obtain ⟨r2, q2, M2, R2, b1, b2, b3, b4, b5⟩ := relaxAll_spec hc (put_self arr w k) hmax (g.outgoing w) h1 hq1
          (by
            intro e he
            rw [hg.out w hwn, List.mem_filter] at he
            exact ⟨he.1, by simpa using he.2⟩)
        rw [b1, ok_bind]
        exact ih b3 b2 (List.nodup_cons.mpr ⟨hwD, hD⟩)
          (by
            intro v hv e he
            rcases List.mem_cons.mp hv with rfl | hv
            · exact b5 e he
            · exact b4 e (hR v hv e he))
          (by simp only [List.mem_cons, not_or]; exact ⟨fun e => hsink e.symm, hsD⟩)
          (by simp only [List.length_cons]; omega)

theorem dynamicDijkstra_spec {costs : List (ℚ → Py ℚ)} (hg : Consistent g) (hc : FifoCosts g phi costs c) (hsrc : source ∈ g.nodes)
    (hsub : ∀ v ∈ relevant, v ∈ g.nodes) :
    ∃ res, dynamicDijkstra g phi source sink relevant costs = .ok res ∧ DPost g c relevant source sink phi res := by
  obtain ⟨q, q1, q2⟩ := Heap.rep_single (K := ℚ) (T := Nat) source phi
  have h0 : DInv g c relevant source phi (fun _ => none) (fun _ => none) (fun y => if y = source then some phi else none) [] [] := by
    refine ⟨by simp, by simp, by simp, ?_, by simp, by simp, Or.inr (by simp), by simp, by simp, ?_⟩
    · intro w k hk
      by_cases e : w = source
      · subst e
        rw [if_pos rfl] at hk; injection hk with hk; subst hk
        exact ⟨rfl, Arrives.start, le_refl _, Or.inl rfl⟩
      · rw [if_neg e] at hk; cases hk
    · intro w k hk
      by_cases e : w = source
      · exact Or.inl e
      · rw [if_neg e] at hk; cases hk
  obtain ⟨res, a1, a2⟩ := dynamicLoop_spec (sink := sink) hg hc hsrc hsub (relevant.length + 2) h0 q2 (by simp) (by simp) (by simp) (by simp)
  refine ⟨res, ?_, a2⟩
  unfold dynamicDijkstra
  rw [q1, ok_bind]; exact a1

open Classical in
theorem activeScan_spec {res : Result} (hreal : ∀ e x, res.realized e = some x → ∃ a, res.arrival (g.nodeFrom e) = some a)
    {w : Nat} {aw : ℚ} (hw : res.arrival w = some aw) (es : List Nat) : (∀ e ∈ es, g.nodeTo e = w) →
    ∀ (active touched queue : List Nat), touched.Nodup →
    ∃ new, activeScan g res source w es active touched queue =
        .ok (active ++ es.filter (fun e => g.nodeFrom e = source ∧ Tight g res eps e), new ++ touched, new ++ queue) ∧
      (new ++ touched).Nodup ∧ (∀ x ∈ new, ∃ e ∈ es, g.nodeFrom e = x ∧ Tight g res eps e) ∧
      ∀ e ∈ es, Tight g res eps e → g.nodeFrom e ∈ new ++ touched := by
  induction es with
  | nil => intro _ active touched queue hn; exact ⟨[], by simp [activeScan], hn, by simp, by simp⟩
  | cons e es ih =>
    intro hes active touched queue hn
    have hto := hes e (by simp)
    have hes' : ∀ e' ∈ es, g.nodeTo e' = w := fun e' he' => hes e' (by simp [he'])
    -- the edge is passed over
    have skip : ¬ Tight g res eps e → activeScan g res source w (e :: es) active touched queue = activeScan g res source w es active touched queue →
        ∃ new, activeScan g res source w (e :: es) active touched queue =
          .ok (active ++ (e :: es).filter (fun e => g.nodeFrom e = source ∧ Tight g res eps e), new ++ touched, new ++ queue) ∧
        (new ++ touched).Nodup ∧ (∀ x ∈ new, ∃ e' ∈ e :: es, g.nodeFrom e' = x ∧ Tight g res eps e') ∧
        ∀ e' ∈ e :: es, Tight g res eps e' → g.nodeFrom e' ∈ new ++ touched := by
      intro hnt heq
      obtain ⟨new, h1, h2, h3, h4⟩ := ih hes' active touched queue hn
      refine ⟨new, ?_, h2, fun x hx => ?_, fun e' he' ht => ?_⟩
      · rw [heq, h1, List.filter_cons_of_neg (by simp [hnt])]
      · obtain ⟨e', a, b⟩ := h3 x hx; exact ⟨e', by simp [a], b⟩
      · rcases List.mem_cons.mp he' with rfl | he'
        · exact absurd ht hnt
        · exact h4 e' he' ht
    cases hr : res.realized e with
    | none =>
      apply skip
      · rintro ⟨x, _, _, hx, _⟩; rw [hr] at hx; cases hx
      · rw [activeScan, hr]
    | some x =>
      obtain ⟨a, ha⟩ := hreal e x hr
      have hstep : activeScan g res source w (e :: es) active touched queue =
          if a + x ≤ aw + eps then
            (if g.nodeFrom e ∈ touched then activeScan g res source w es (if g.nodeFrom e = source then active ++ [e] else active) touched queue
             else activeScan g res source w es (if g.nodeFrom e = source then active ++ [e] else active) (g.nodeFrom e :: touched) (g.nodeFrom e :: queue))
          else activeScan g res source w es active touched queue := by
        rw [activeScan, hr]
        simp only
        rw [look_some ha, ok_bind, look_some hw, ok_bind]
      by_cases hle : a + x ≤ aw + eps
      · have ht : Tight g res eps e := ⟨x, a, aw, hr, ha, by rw [hto]; exact hw, hle⟩
        rw [hstep, if_pos hle]
        have hact : (if g.nodeFrom e = source then active ++ [e] else active) ++ es.filter (fun e => g.nodeFrom e = source ∧ Tight g res eps e) =
            active ++ (e :: es).filter (fun e => g.nodeFrom e = source ∧ Tight g res eps e) := by
          by_cases hs : g.nodeFrom e = source
          · rw [if_pos hs, List.filter_cons_of_pos (by simp [hs, ht])]; simp
          · rw [if_neg hs, List.filter_cons_of_neg (by simp [hs])]
        by_cases hm : g.nodeFrom e ∈ touched
        · rw [if_pos hm]
          obtain ⟨new, h1, h2, h3, h4⟩ := ih hes' (if g.nodeFrom e = source then active ++ [e] else active) touched queue hn
          refine ⟨new, by rw [h1, hact], h2, fun y hy => ?_, fun e' he' ht' => ?_⟩
          · obtain ⟨e', a', b'⟩ := h3 y hy; exact ⟨e', by simp [a'], b'⟩
          · rcases List.mem_cons.mp he' with rfl | he'
            · exact List.mem_append_right _ hm
            · exact h4 e' he' ht'
        · rw [if_neg hm]
          obtain ⟨new, h1, h2, h3, h4⟩ := ih hes' (if g.nodeFrom e = source then active ++ [e] else active)
            (g.nodeFrom e :: touched) (g.nodeFrom e :: queue) (List.nodup_cons.mpr ⟨hm, hn⟩)
          refine ⟨new ++ [g.nodeFrom e], by rw [h1, hact]; simp, by simpa using h2, fun y hy => ?_, fun e' he' ht' => ?_⟩
          · rcases List.mem_append.mp hy with hy | hy
            · obtain ⟨e', a', b'⟩ := h3 y hy; exact ⟨e', by simp [a'], b'⟩
            · simp at hy; exact ⟨e, by simp, hy.symm, ht⟩
          · rcases List.mem_cons.mp he' with rfl | he'
            · simp
            · have := h4 e' he' ht'; simpa using this
      · apply skip
        · rintro ⟨x', a', b', h1, h2, h3, h4⟩
          rw [hr] at h1; injection h1 with h1
          rw [ha] at h2; injection h2 with h2
          rw [hto, hw] at h3; injection h3 with h3
          subst h1 h2 h3
          exact hle h4
        · rw [hstep, if_neg hle]

theorem activeLoop_spec {res : Result} (hg : Consistent g) (hreal : ∀ e x, res.realized e = some x → ∃ a, res.arrival (g.nodeFrom e) = some a)
    (hs : ∃ b, res.arrival sink = some b) (hsn : sink ∈ g.nodes) :
    ∀ (fuel : Nat) (active touched queue : List Nat), touched.Nodup → queue.Nodup → (∀ x ∈ queue, x ∈ touched) → sink ∈ touched →
      (∀ x ∈ touched, x ∈ g.nodes ∧ TightPath g res eps x sink ∧ ∃ a, res.arrival x = some a) →
      (∀ x ∈ touched, x ∉ queue → ∀ e ∈ g.edges, g.nodeTo e = x → Tight g res eps e → g.nodeFrom e ∈ touched) →
      active.Nodup → (∀ e, e ∈ active ↔ e ∈ g.edges ∧ g.nodeFrom e = source ∧ Tight g res eps e ∧ g.nodeTo e ∈ touched ∧ g.nodeTo e ∉ queue) →
      g.nodes.length + queue.length ≤ fuel + touched.length →
      ∃ S, activeLoop g res source fuel active touched queue = .ok S ∧ S.Nodup ∧
        ∀ e, e ∈ S ↔ e ∈ g.edges ∧ g.nodeFrom e = source ∧ Tight g res eps e ∧ TightPath g res eps (g.nodeTo e) sink := by
  intro fuel
  have fin : ∀ (active touched : List Nat), (∀ x ∈ touched, x ∈ g.nodes ∧ TightPath g res eps x sink ∧ ∃ a, res.arrival x = some a) → sink ∈ touched →
      (∀ x ∈ touched, ∀ e ∈ g.edges, g.nodeTo e = x → Tight g res eps e → g.nodeFrom e ∈ touched) →
      ∀ v, TightPath g res eps v sink → v ∈ touched := by
    intro active touched h1 h2 h3 v hv
    unfold TightPath at hv
    induction hv using Relation.ReflTransGen.head_induction_on with
    | refl => exact h2
    | head hstep _ ih => obtain ⟨e, he, rfl, rfl, ht⟩ := hstep; exact h3 _ ih e he rfl ht
  induction fuel with
  | zero =>
    intro active touched queue hn hq hqt hst ht hcl ha hact hf
    cases queue with
    | nil =>
      unfold activeLoop
      refine ⟨active, rfl, ha, fun e => ?_⟩
      rw [hact]
      constructor
      · rintro ⟨h1, h2, h3, h4, _⟩; exact ⟨h1, h2, h3, (ht _ h4).2.1⟩
      · rintro ⟨h1, h2, h3, h4⟩
        exact ⟨h1, h2, h3, fin active touched ht hst (fun x hx => hcl x hx (by simp)) _ h4, by simp⟩
    | cons a q =>
      exfalso
      have : touched.length ≤ g.nodes.length := (List.Nodup.subperm hn (fun x hx => (ht x hx).1)).length_le
      simp at hf; omega
  | succ fuel ih =>
    intro active touched queue hn hq hqt hst ht hcl ha hact hf
    cases queue with
    | nil =>
      unfold activeLoop
      refine ⟨active, rfl, ha, fun e => ?_⟩
      rw [hact]
      constructor
      · rintro ⟨h1, h2, h3, h4, _⟩; exact ⟨h1, h2, h3, (ht _ h4).2.1⟩
      · rintro ⟨h1, h2, h3, h4⟩
        exact ⟨h1, h2, h3, fin active touched ht hst (fun x hx => hcl x hx (by simp)) _ h4, by simp⟩
    | cons w q =>
      obtain ⟨hwn, hwp, aw, haw⟩ := ht w (hqt w (by simp))
      have hinc : ∀ e, e ∈ g.incoming w ↔ e ∈ g.edges ∧ g.nodeTo e = w := by
        intro e; rw [hg.inc w hwn, List.mem_filter]; simp
      obtain ⟨new, h1, h2, h3, h4⟩ := activeScan_spec (source := source) hreal haw (g.incoming w) (fun e he => ((hinc e).mp he).2) active touched q hn
      unfold activeLoop
      rw [h1, ok_bind]
      rw [List.nodup_cons] at hq
      have hdisj : ∀ x ∈ new, x ∉ touched := by
        intro x hx hx'
        exact (List.nodup_append.mp h2).2.2 x hx x hx' rfl
      apply ih
      · exact h2
      · rw [List.nodup_append]
        exact ⟨(List.nodup_append.mp h2).1, hq.2, fun x hx y hy e => hdisj x hx (hqt x (by subst e; simp [hy]))⟩
      · intro x hx
        rcases List.mem_append.mp hx with hx | hx
        · exact List.mem_append_left _ hx
        · exact List.mem_append_right _ (hqt x (by simp [hx]))
      · exact List.mem_append_right _ hst
      · intro x hx
        rcases List.mem_append.mp hx with hx | hx
        · obtain ⟨e, he, rfl, hte⟩ := h3 x hx
          obtain ⟨he1, he2⟩ := (hinc e).mp he
          refine ⟨(hg.ends e he1).1, Relation.ReflTransGen.head ⟨e, he1, rfl, he2, hte⟩ hwp, ?_⟩
          obtain ⟨_, a, _, _, haa, _⟩ := hte
          exact ⟨a, haa⟩
        · exact ht x hx
      · intro x hx hxq e he hto hte
        rcases List.mem_append.mp hx with hx | hx
        · exact absurd (List.mem_append_left _ hx) hxq
        · by_cases hxa : x = w
          · subst hxa; exact h4 e ((hinc e).mpr ⟨he, hto⟩) hte
          · refine List.mem_append_right _ (hcl x hx ?_ e he hto hte)
            intro hm
            rcases List.mem_cons.mp hm with hm | hm
            · exact hxa hm
            · exact hxq (List.mem_append_right _ hm)
      · rw [List.nodup_append]
        refine ⟨ha, ?_, ?_⟩
        · apply List.Nodup.filter
          rw [hg.inc w hwn]; exact hg.edges.filter _
        · intro x hx y hy e
          subst e
          rw [List.mem_filter] at hy
          exact ((hact x).mp hx).2.2.2.2 (by rw [((hinc x).mp hy.1).2]; simp)
      · intro e
        rw [List.mem_append, hact, List.mem_filter, hinc]
        have hnw : w ∉ new := fun h => hdisj w h (hqt w (by simp))
        simp only [List.mem_cons, not_or, List.mem_append, decide_eq_true_eq]
        constructor
        · rintro (⟨x1, x2, x3, x4, x5, x6⟩ | ⟨⟨x1, x2⟩, x3, x4⟩)
          · exact ⟨x1, x2, x3, Or.inr x4, fun h => hdisj _ h x4, x6⟩
          · refine ⟨x1, x3, x4, Or.inr (by rw [x2]; exact hqt w (by simp)), by rw [x2]; exact hnw, by rw [x2]; exact hq.1⟩
        · rintro ⟨x1, x2, x3, x4, x5, x6⟩
          by_cases e' : g.nodeTo e = w
          · exact Or.inr ⟨⟨x1, e'⟩, x2, x3⟩
          · left
            rcases x4 with x4 | x4
            · exact absurd x4 x5
            · exact ⟨x1, x2, x3, x4, e', x6⟩
      · simp only [List.length_append, List.length_cons] at hf ⊢; omega

theorem activeEdges_spec {res : Result} (hg : Consistent g) (hreal : ∀ e x, res.realized e = some x → ∃ a, res.arrival (g.nodeFrom e) = some a)
    (hs : ∃ b, res.arrival sink = some b) (hsn : sink ∈ g.nodes) (hpath : TightPath g res 0 source sink) (hne : source ≠ sink) :
    ∃ S, activeEdges g res source sink = .ok S ∧ S ≠ [] ∧ S.Nodup ∧
      ∀ e, e ∈ S ↔ e ∈ g.edges ∧ g.nodeFrom e = source ∧ Tight g res eps e ∧ TightPath g res eps (g.nodeTo e) sink := by
  obtain ⟨S, h1, h2, h3⟩ := activeLoop_spec (source := source) hg hreal hs hsn (g.nodes.length + 1) [] [sink] [sink] (by simp) (by simp) (by simp) (by simp)
    (by intro x hx; simp at hx; subst hx; exact ⟨hsn, Relation.ReflTransGen.refl, hs⟩)
    (by intro x hx hx'; simp at hx hx'; exact absurd hx hx')
    (by simp)
    (by
      intro e
      constructor
      · intro he; simp at he
      · rintro ⟨_, _, _, x1, x2⟩; exact absurd x1 x2)
    (by simp)
  have htol : ∀ {e}, Tight g res 0 e → Tight g res eps e := by
    rintro e ⟨x, a, b, y1, y2, y3, y4⟩
    exact ⟨x, a, b, y1, y2, y3, by have := eps_pos; linarith⟩
  have hSne : S ≠ [] := by
    rcases Relation.ReflTransGen.cases_head hpath with e | ⟨v, ⟨e, he, x1, x2, x3⟩, hrest⟩
    · exact absurd e hne
    · have : e ∈ S := (h3 e).mpr ⟨he, x1, htol x3, by
        rw [x2]
        exact rtg_mono (fun a b ⟨e', y1, y2, y3, y4⟩ => ⟨e', y1, y2, y3, htol y4⟩) hrest⟩
      exact List.ne_nil_of_mem this
  refine ⟨S, ?_, hSne, h2, h3⟩
  unfold activeEdges
  rw [h1, ok_bind, pyAssert_true (List.length_pos_iff.mpr hSne), ok_bind]
  rfl

end
end Dijkstra
end Verif
