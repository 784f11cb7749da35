import Verif.Proofs.BFLines

/-! From costs to arrival times, and the search on lines. -/

namespace Verif
open Verif.Spec
namespace BF

variable {phi : ℚ} {lines : List (ℚ × ℚ)} {kinks : List ℚ}

theorem fifoLoop_same : ∀ (ts : List ℚ) (a : ℚ) (vs : List ℚ), vs.length = ts.length → (a :: vs).Pairwise (· ≤ ·) → (∀ i (h : i < ts.length) (h' : i < vs.length), ts[i] ≤ vs[i]) →
    fifoLoop ts (a :: vs) = .ok (a :: vs) := by
  intro ts
  induction ts with
  | nil => intro a vs hl _ _; cases vs with
    | nil => rfl
    | cons => simp at hl
  | cons t ts ih =>
    intro a vs hl hp hge
    cases vs with
    | nil => simp at hl
    | cons b vs =>
      have hab : a ≤ b := (List.pairwise_cons.mp hp).1 b (by simp)
      have htb : t ≤ b := hge 0 (by simp) (by simp)
      have he := eps_pos
      rw [fifoLoop, pyAssert_true (by linarith), ok_bind, max_eq_right hab, max_eq_left htb, ih b vs (by simpa using hl) (List.pairwise_cons.mp hp).2 (by
        intro i h h'
        exact hge (i + 1) (by simpa using h) (by simpa using h')), ok_bind]
      rfl

/-- What is asked of a cost function. -/
structure CostOk (phi : ℚ) (c : PL) : Prop where
  wf : c.WF
  lo : c.lo ≤ (phi : WithBot ℚ)
  hi : c.hi = ⊤
  first : c.first = 0
  last : c.last = 0
  nonneg : ∀ t, phi ≤ t → 0 ≤ c.fn t
  order : ∀ s t, phi ≤ s → s ≤ t → s + c.fn s ≤ t + c.fn t
  apart : ∀ t ∈ c.times, t ≠ phi → eps < |t - phi|
  slopes : ∀ i j m n, c.gradient i = .ok m → c.gradient j = .ok n → m = n ∨ 1000 * eps ≤ |m - n|

theorem piece_slope {c : PL} (hc : c.WF) {a b : ℚ} (hno : ∀ t ∈ c.times, ¬ (a < t ∧ t < b)) : ∃ i m, c.gradient i = .ok m ∧ ∀ x, a ≤ x → x ≤ b → c.fn x = c.fn a + m * (x - a) := by
  have key := fun i hi => lt_countP_le_iff hc.le a i hi
  obtain ⟨m, h1, h2⟩ := PL.seg_affine hc (i := c.times.countP (· ≤ a)) (p := a) (s := b) List.countP_le_length
    (fun j hj h => (key j hj).mp h)
    (fun j hj h => by
      by_contra hcon
      rw [not_le] at hcon
      rcases le_or_gt c.times[j] a with h3 | h3
      · have := (key j hj).mpr h3; omega
      · exact hno _ (List.getElem_mem hj) ⟨h3, hcon⟩)
  exact ⟨_, m, h1, h2⟩

theorem ident_wf (phi : ℚ) (H : WithTop ℚ) (hH : (phi : WithTop ℚ) ≤ H) : PL.WF ⟨[phi], [phi], 1, 1, (phi : WithBot ℚ), H⟩ :=
  ⟨rfl, by simp, by simp, by intro t ht; have : t = phi := by simpa using ht
                             subst this; exact ⟨le_refl _, hH⟩⟩

theorem ident_fn (phi : ℚ) (H : WithTop ℚ) (hH : (phi : WithTop ℚ) ≤ H) (t : ℚ) : PL.fn ⟨[phi], [phi], 1, 1, (phi : WithBot ℚ), H⟩ t = t := by
  rcases le_total t phi with h | h
  · rw [PL.fn_left (ident_wf phi H hH) (by simp) (by simpa using h)]; simp
  · rw [PL.fn_right (ident_wf phi H hH) (by simpa using h)]; simp

theorem arrivalTime_ok {c : PL} (hc : CostOk phi c) (hk : ∀ t ∈ c.times, t ∈ kinks) :
    ∃ T, arrivalTime ⟨[phi], [phi], 1, 1, (phi : WithBot ℚ), ⊤⟩ c = .ok T ∧ ArrFn phi kinks (fun t => t + c.fn t) T := by
  have hiw := ident_wf phi ⊤ le_top
  have hmax : max (phi : WithBot ℚ) c.lo = (phi : WithBot ℚ) := max_eq_left hc.lo
  have hmin : min (⊤ : WithTop ℚ) c.hi = ⊤ := by rw [hc.hi, min_self]
  have hsep : PL.Sep2 ⟨[phi], [phi], 1, 1, (phi : WithBot ℚ), ⊤⟩ c := by
    intro a ha b hb hab
    simp only [hmax, hmin] at ha hb
    have hm : ∀ a, a ∈ [phi] ++ c.times ++ ends (phi : WithBot ℚ) ⊤ → a = phi ∨ a ∈ c.times := by
      intro a ha
      rcases List.mem_append.mp ha with h | h
      · rcases List.mem_append.mp h with h | h
        · exact Or.inl (by simpa using h)
        · exact Or.inr h
      · have : a ∈ [phi] := h
        exact Or.inl (by simpa using this)
    rcases hm a ha with rfl | ha' <;> rcases hm b hb with rfl | hb'
    · exact absurd hab (lt_irrefl _)
    · have := hc.apart b hb' hab.ne'
      rwa [abs_of_pos (by linarith)] at this
    · have := hc.apart a ha' hab.ne
      rw [abs_of_neg (by linarith)] at this
      linarith
    · obtain ⟨i, hi, rfl⟩ := List.getElem_of_mem ha'
      obtain ⟨j, hj, rfl⟩ := List.getElem_of_mem hb'
      have hij : i < j := by
        by_contra hcon
        have := PL.getElem_le_of hc.wf.lt (show j ≤ i by omega) hi
        linarith
      have := List.pairwise_iff_getElem.mp hc.wf.gap i j hi hj hij
      linarith
  obtain ⟨s, s1, s2, s3, s4, s5, s6, s7, s8, s9⟩ := PL.plus_ok hiw hc.wf (by simp only [hmax, hmin]; rfl) hsep
  simp only [hmax, hmin] at s3 s4
  simp only at s5 s6
  have hdom : ∀ t, s.inDom t ↔ phi ≤ t := by
    intro t
    unfold PL.inDom
    rw [s3, s4]
    simp only [le_top, and_true, WithBot.coe_le_coe]
  have hfn : ∀ t, phi ≤ t → s.fn t = t + c.fn t := by
    intro t ht
    rw [s7 t ((hdom t).mpr ht), ident_fn phi ⊤ le_top]
  have hpos := s2.pos
  have hvl := s2.len
  have hge : ∀ t ∈ s.times, phi ≤ t := fun t ht => (hdom t).mp (s2.dom t ht)
  have hin : phi ∈ s.times := s9 phi ((hdom phi).mpr (le_refl _)) (Or.inl (by simp))
  have hhead : s.times.head? = some phi := by
    rw [List.head?_eq_getElem?, List.getElem?_eq_getElem hpos]
    congr 1
    exact le_antisymm (head_le s2.lt hpos hin) (hge _ (List.getElem_mem _))
  have hmono : s.MonoOn := by
    intro x y hx hy hxy
    rw [hdom] at hx hy
    rw [hfn x hx, hfn y hy]
    exact hc.order x y hx hxy
  have hvals := hmono.values s2
  have hfifo : fifoArrival s = .ok s := by
    unfold fifoArrival
    have hl : fifoLoop s.times.tail s.values = .ok s.values := by
      cases hv : s.values with
      | nil => rw [hv] at hvl; simp at hvl; omega
      | cons a vs =>
        refine fifoLoop_same _ a vs ?_ (hv ▸ hvals) ?_
        · rw [hv] at hvl; simp at hvl ⊢; omega
        · intro i h h'
          have h1 : i + 1 < s.times.length := by rw [List.length_tail] at h; omega
          have e1 : s.times.tail[i] = s.times[i + 1] := by rw [List.getElem_tail]
          have e2 : vs[i] = s.values[i + 1]'(by omega) := by simp [hv]
          have h2 := hge _ (List.getElem_mem h1)
          rw [e1, e2, ← PL.fn_time s2 (i + 1) h1, hfn _ h2]
          have := hc.nonneg _ h2
          linarith
    rw [hl, ok_bind, PL.new_ok (show PL.WF ⟨s.times, s.values, s.first, s.last, s.lo, s.hi⟩ from s2), ok_bind, if_neg]
    · rfl
    · show ¬ s.last < 1
      rw [s6, hc.last]; norm_num
  have hslope : ∀ (j : Nat) g, s.gradient (j : Int) = .ok g → ∃ i m, c.gradient i = .ok m ∧ g = 1 + m := by
    intro j g hg
    obtain ⟨_, hj⟩ := PL.gradient_range hg
    by_cases hlast : j + 1 = s.times.length
    · have e : (j : Int) = (s.times.length : Int) - 1 := by omega
      rw [e, PL.gradient_last s2] at hg
      injection hg with hg
      exact ⟨_, _, PL.gradient_last hc.wf, by rw [← hg, s6]⟩
    · have hj1 : j + 1 < s.times.length := by omega
      have hlt := PL.getElem_lt_of s2.lt (show j < j + 1 by omega) hj1
      have g0 := hge _ (List.getElem_mem (show j < s.times.length by omega))
      have g1 := hge _ (List.getElem_mem hj1)
      obtain ⟨i, m, h1, h2⟩ := piece_slope hc.wf (a := s.times[j]) (b := s.times[j + 1]) (by
        rintro t ht ⟨h1, h2⟩
        exact no_between s2.lt hj1 (s9 t ((hdom t).mpr (by linarith)) (Or.inr ht)) ⟨h1, h2⟩)
      refine ⟨i, m, h1, ?_⟩
      rw [PL.gradient_mid s2 j hj1] at hg
      injection hg with hg
      rw [← hg, ← PL.fn_time s2 (j + 1) hj1, ← PL.fn_time s2 j (by omega), hfn _ g0, hfn _ g1, h2 _ hlt.le (le_refl _)]
      have : s.times[j + 1] - s.times[j] ≠ 0 := by linarith
      field_simp
      ring
  obtain ⟨T, t1, t2, t3, t4, t5, t6, t7, t8, t9⟩ := PL.simplify_ok s2 (by
    intro j hj g0 g1 e0 e1
    obtain ⟨i, m, a1, a2⟩ := hslope j g0 e0
    obtain ⟨i', m', b1, b2⟩ := hslope (j + 1) g1 (by exact_mod_cast e1)
    rcases hc.slopes i i' m m' a1 b1 with h | h
    · left; rw [a2, b2, h]
    · right; rw [a2, b2]; simpa using h)
  refine ⟨T, ?_, ⟨t2, by rw [t3, s3], by rw [t4, s4], by rw [t8, hhead], by rw [t5, s5, hc.first]; norm_num, by rw [t6, s6, hc.last]; norm_num, ?_, ?_, ?_, hc.order⟩⟩
  · unfold arrivalTime
    rw [s1, ok_bind, hfifo, ok_bind, t1]
  · intro t ht
    rw [t9, hfn t ht]
  · intro t ht
    rcases s8 t (t7.subset ht) with h | h | h
    · exact Or.inl (by simpa using h)
    · exact Or.inr (hk t h)
    · rw [s3, s4] at h
      have : t ∈ [phi] := h
      exact Or.inl (by simpa using this)
  · intro t ht
    have := hc.nonneg t ht
    show t ≤ t + c.fn t
    linarith

theorem arrivalTimes_ok : ∀ (cs : List PL), (∀ c ∈ cs, CostOk phi c ∧ ∀ t ∈ c.times, t ∈ kinks) →
    ∃ Ts, arrivalTimes ⟨[phi], [phi], 1, 1, (phi : WithBot ℚ), ⊤⟩ cs = .ok Ts ∧ Ts.length = cs.length ∧
      ∀ i (h : i < cs.length) (h' : i < Ts.length), ArrFn phi kinks (fun t => t + cs[i].fn t) Ts[i] := by
  intro cs
  induction cs with
  | nil => intro _; exact ⟨[], rfl, rfl, by simp⟩
  | cons c cs ih =>
    intro h
    obtain ⟨T, t1, t2⟩ := arrivalTime_ok (h c (by simp)).1 (h c (by simp)).2
    obtain ⟨Ts, u1, u2, u3⟩ := ih (fun c hc => h c (by simp [hc]))
    refine ⟨T :: Ts, ?_, by simp [u2], ?_⟩
    · rw [arrivalTimes, t1, ok_bind, u1, ok_bind]; rfl
    · intro i h1 h2
      cases i with
      | zero => exact t2
      | succ i => exact u3 i (by simpa using h1) (by simpa using h2)

/-- The search on lines. -/
theorem bellmanFord_ok {g : Graph} {nodes : List Nat} {sink : Nat} {costs : List PL} {c : Nat → ℚ → ℚ} {fuel : Nat} (hg : ∀ w ∈ sink :: nodes, g.incoming w = g.edges.filter (fun r => g.nodeTo r = w))
    (hcost : ∀ f ∈ costs, CostOk phi f ∧ ∀ t ∈ f.times, t ∈ kinks)
    (hid : ∀ e ∈ g.edges, ∃ h : (g.edge e).id < costs.length, ∀ t, phi ≤ t → (costs[(g.edge e).id]'h).fn t = c e t)
    (hfuel : (sink :: nodes).toFinset.card + 1 ≤ fuel)
    (hlines : OnLines g (fun e t => t + c e t) nodes sink phi (sink :: nodes).toFinset.card lines) (hclear : ClearCut phi lines kinks) :
    ∃ labels, bellmanFord fuel g sink costs nodes phi ⊤ = .ok labels ∧
      ∀ v, (labels v = none ∧ ∀ t y, phi ≤ t → ¬ GetsTo g (fun e t => t + c e t) nodes sink v t y) ∨
        ∃ p, labels v = some p ∧ p.WF ∧ p.lo = (phi : WithBot ℚ) ∧ p.hi = ⊤ ∧ ∀ t, phi ≤ t →
          GetsTo g (fun e t => t + c e t) nodes sink v t (p.fn t) ∧ ∀ y, GetsTo g (fun e t => t + c e t) nodes sink v t y → p.fn t ≤ y := by
  obtain ⟨Ts, h1, h2, h3⟩ := arrivalTimes_ok costs hcost
  obtain ⟨q, hq, _⟩ := Heap.rep_single sink (0 : ℚ)
  have hiw := ident_wf phi ⊤ le_top
  set N := (sink :: nodes).toFinset.card with hN
  have hNp : 0 < N := Finset.card_pos.mpr ⟨sink, by simp⟩
  have hT : ∀ e ∈ g.edges, ∃ T, rd Ts (g.edge e).id = .ok T ∧ ArrFn phi kinks (fun t => t + c e t) T := by
    intro e he
    obtain ⟨h, hc⟩ := hid e he
    have h' : (g.edge e).id < Ts.length := by omega
    have a := h3 _ h h'
    refine ⟨_, rd_lt _ _ h', ⟨a.wf, a.lo, a.hi, a.head, a.first, a.last, ?_, a.times, ?_, ?_⟩⟩
    · intro t ht; rw [a.fn t ht, hc t ht]
    · intro t ht; have := a.later t ht; rw [hc t ht] at this; exact this
    · intro s t hs hst
      have := a.order s t hs hst
      rw [hc s hs, hc t (le_trans hs hst)] at this
      exact this
  have hfifo : Fifo g phi (fun e t => t + c e t) := by
    refine ⟨fun e he t ht => ?_, fun e he s t hs hst => ?_⟩
    · obtain ⟨T, _, a⟩ := hT e he; exact a.later t ht
    · obtain ⟨T, _, a⟩ := hT e he; exact a.order s t hs hst
  let R : PL → (ℚ → WithTop ℚ) → Prop := fun p φ => OnL phi lines kinks p ∧ ∀ t, phi ≤ t → φ t = (p.fn t : WithTop ℚ)
  let K : PL → (ℚ → WithTop ℚ) → Prop := fun p φ => R p φ ∧ ∀ t ∈ p.times, t = phi ∨ Kink phi p.fn t
  have ops : Ops g Ts nodes sink phi ⊤ (fun e t => t + c e t) N K R := by
    refine ⟨?_, ?_, ?_, ?_, ?_⟩
    · rintro p φ e ⟨⟨hp, hφ⟩, hk⟩ he hv hsh
      obtain ⟨T, t1, t2⟩ := hT e he
      obtain ⟨r, r1, r2, r3⟩ := t2.relax hclear hp hk (by
        intro t ht
        have hl := t2.later t ht
        obtain ⟨_, l, l1, l2⟩ := hsh (t + c e t) _ (le_trans ht hl) (hφ _ (le_trans ht hl))
        exact hlines (l.length + 1) _ t _ (by omega) ht (.drive e he hv l2.ride))
      refine ⟨T, r, t1, r1, r2, fun t ht => ?_⟩
      rw [r3 t ht]
      exact hφ _ (le_trans ht (t2.later t ht))
    · rintro v h φ ⟨hh, hφ⟩ _
      obtain ⟨p, p1, p2, p3, p4⟩ := hh.simplify hclear
      exact ⟨p, p1, ⟨p2, fun t ht => by rw [hφ t ht, p4]⟩, p3⟩
    · rintro v p φ h ψ ⟨⟨hp, hφ⟩, _⟩ ⟨hh, hψ⟩ _ _
      obtain ⟨b, b1, b2⟩ := hp.cmp hclear hh
      refine ⟨b, b1, b2.trans ?_⟩
      constructor
      · intro h t ht
        rw [hφ t ht, hψ t ht]
        exact WithTop.coe_le_coe.mpr (h t ht)
      · intro h t ht
        have := h t ht
        rw [hφ t ht, hψ t ht] at this
        exact WithTop.coe_le_coe.mp this
    · rintro v p φ h ψ ⟨⟨hp, hφ⟩, _⟩ ⟨hh, hψ⟩ _ _ _
      obtain ⟨m, m1, m2, m3⟩ := hp.least hclear hh
      refine ⟨m, m1, m2, fun t ht => ?_⟩
      show min (φ t) (ψ t) = _
      rw [hφ t ht, hψ t ht, m3 t ht]
      exact (WithTop.coe_min _ _).symm
    · rintro h φ ⟨_, hφ⟩
      rw [hφ phi (le_refl _)]
      exact WithTop.coe_ne_top
  have hK : K ⟨[phi], [phi], 1, 1, (phi : WithBot ℚ), ⊤⟩ (fun (t : ℚ) => if (t : WithTop ℚ) ≤ ⊤ then (t : WithTop ℚ) else ⊤) := by
    have hsup : ∀ t, phi ≤ t → ∃ l ∈ lines, PL.fn ⟨[phi], [phi], 1, 1, (phi : WithBot ℚ), ⊤⟩ t = lineAt l t := by
      intro t ht
      rw [ident_fn phi ⊤ le_top]
      exact hlines 0 sink t t (by omega) ht (.here t)
    refine ⟨⟨⟨hiw, rfl, rfl, rfl, rfl, ?_, hsup, ?_⟩, ?_⟩, ?_⟩
    · obtain ⟨l, l1, l2, _⟩ := on_line (m := 1) (a := phi) (b := phi + 1) (by linarith) (fun t ht _ => hsup t ht) (by
        intro x _ _
        rw [ident_fn phi ⊤ le_top, ident_fn phi ⊤ le_top]; ring)
      exact ⟨l, l1, l2⟩
    · intro t ht
      have : t = phi := by simpa using ht
      exact ⟨this.ge, Or.inl this⟩
    · intro t ht
      show (if (t : WithTop ℚ) ≤ ⊤ then (t : WithTop ℚ) else ⊤) = _
      rw [if_pos le_top, ident_fn phi ⊤ le_top]
    · intro t ht
      exact Or.inl (by simpa using ht)
  obtain ⟨labels, l1, l2⟩ := search_ok ops hfifo rfl hg hK hq hfuel
  refine ⟨labels, ?_, fun v => ?_⟩
  · unfold bellmanFord identity
    rw [PL.new_ok hiw, ok_bind, h1, ok_bind, hq, ok_bind, l1]
  · rcases l2 v with ⟨a1, a2⟩ | ⟨p, φ, a1, ⟨⟨a2, a3⟩, _⟩, a4⟩
    · exact Or.inl ⟨a1, fun t y ht => a2 t y ht le_top⟩
    · refine Or.inr ⟨p, a1, a2.wf, a2.lo, a2.hi, fun t ht => ?_⟩
      obtain ⟨b1, b2⟩ := a4 t ht
      refine ⟨(b1 _ (a3 t ht)).2, fun y hy => ?_⟩
      have := b2 y hy le_top
      rw [a3 t ht] at this
      exact WithTop.coe_le_coe.mp this

end BF
end Verif
