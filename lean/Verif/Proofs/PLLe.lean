import Verif.Proofs.PLInt

/-! `smaller_equals`. -/

set_option linter.unusedSimpArgs false
set_option linter.unusedSectionVars false

namespace Verif
namespace PL

theorem precision_pos : 0 < precision := by unfold precision; have := eps_pos; linarith

theorem inPiece_unique {f : PL} (h : f.WF) {x : ℚ} {r : Int} (h1 : -1 ≤ r) (h2 : r < f.times.length)
    (hp1 : ∀ (i : Nat) (hi : i < f.times.length), (i : Int) = r → f.times[i] < x)
    (hp2 : ∀ (i : Nat) (hi : i < f.times.length), (i : Int) = r + 1 → x ≤ f.times[i]) : r = f.rkOf x := by
  have key := fun i hi => lt_countP_lt_iff h.le x i hi
  have hc : f.times.countP (· < x) ≤ f.times.length := List.countP_le_length
  unfold rkOf
  generalize f.times.countP (· < x) = c at *
  by_contra hne
  by_cases hlt : r < (c : Int) - 1
  · have hi : (r + 1).toNat < f.times.length := by omega
    have a := hp2 (r + 1).toNat hi (by omega)
    have b := (key (r + 1).toNat hi).mp (by omega)
    linarith
  · have hi : r.toNat < f.times.length := by omega
    have a := hp1 r.toNat hi (by omega)
    have b := (key r.toNat hi).mpr a
    omega

theorem evalWithRank_sound {f : PL} (h : f.WF) {x v : ℚ} {i : Nat} (hi : i < f.times.length)
    (he : f.evalWithRank x (i : Int) = .ok v) : f.inDom x ∧ f.InPiece i x ∧ v = f.fn x := by
  have hvl := h.len
  have hp := h.pos
  unfold evalWithRank at he
  by_cases hd : f.inDom x
  swap
  · rw [pyAssert_false hd, error_bind] at he; exact absurd he (by simp)
  rw [pyAssert_true hd, ok_bind, pyAssert_true (by omega), ok_bind, rd_lt _ _ hp, ok_bind,
    pyAssert_true (Or.inl (by omega)), ok_bind, rdLast_eq _ h.ne, ok_bind] at he
  by_cases hl : (i : Int) ≠ (f.times.length : Int) - 1 ∨ x > f.times.getLast h.ne
  swap
  · rw [pyAssert_false hl, error_bind] at he; exact absurd he (by simp)
  rw [pyAssert_true hl, ok_bind] at he
  by_cases hm : (i : Int) < (f.times.length : Int) - 1
  · rw [if_pos ⟨by omega, hm⟩] at he
    have hi1 : i + 1 < f.times.length := by omega
    rw [rdI_lt _ _ i rfl hi, ok_bind, rdI_lt _ _ (i + 1) (by omega) hi1, ok_bind] at he
    by_cases hc : f.times[i] < x ∧ x ≤ f.times[i + 1]
    swap
    · rw [pyAssert_false hc, error_bind] at he; exact absurd he (by simp)
    have hr : (i : Int) = f.rkOf x := by
      apply inPiece_unique h (by omega) (by omega)
      · intro k hk e
        have : k = i := by omega
        subst this; exact hc.1
      · intro k hk e
        have : k = i + 1 := by omega
        subst this; exact hc.2
    have := evalWithRank_eq h hd
    rw [← hr] at this
    refine ⟨hd, ?_, ?_⟩
    · constructor
      · intro k hk e
        have : k = i := by omega
        subst this; exact le_of_lt hc.1
      · intro k hk e
        have : k = i + 1 := by omega
        subst this; exact hc.2
    · unfold evalWithRank at this
      rw [pyAssert_true hd, ok_bind, pyAssert_true (by omega), ok_bind, rd_lt _ _ hp, ok_bind,
        pyAssert_true (Or.inl (by omega)), ok_bind, rdLast_eq _ h.ne, ok_bind, pyAssert_true hl, ok_bind,
        if_pos ⟨by omega, hm⟩, rdI_lt _ _ i rfl hi, ok_bind, rdI_lt _ _ (i + 1) (by omega) hi1, ok_bind] at this
      rw [this] at he
      injection he with he
      exact he.symm
  · have e : (i : Int) = (f.times.length : Int) - 1 := by omega
    have hx : x > f.times.getLast h.ne := by
      rcases hl with hh | hh
      · exact absurd e hh
      · exact hh
    have e2 := getLast_idx h.ne i hi (by omega)
    have hr : (i : Int) = f.rkOf x := by
      apply inPiece_unique h (by omega) (by omega)
      · intro k hk e'
        have : k = i := by omega
        subst this; rw [← e2]; exact hx
      · intro k hk e'; omega
    have := evalWithRank_eq h hd
    rw [← hr] at this
    refine ⟨hd, ?_, ?_⟩
    · constructor
      · intro k hk e'
        have : k = i := by omega
        subst this; rw [← e2]; exact le_of_lt hx
      · intro k hk e'; omega
    · unfold evalWithRank at this
      rw [pyAssert_true hd, ok_bind, pyAssert_true (by omega), ok_bind, rd_lt _ _ hp, ok_bind,
        pyAssert_true (Or.inl (by omega)), ok_bind, rdLast_eq _ h.ne, ok_bind, pyAssert_true hl, ok_bind] at this
      rw [this] at he
      injection he with he
      exact he.symm

theorem evalWithRank_of {f : PL} (h : f.WF) {x : ℚ} {i : Nat} (hi : i < f.times.length) (hd : f.inDom x)
    (h1 : f.times[i] < x) (h2 : ∀ hj : i + 1 < f.times.length, x ≤ f.times[i + 1]) :
    f.evalWithRank x (i : Int) = .ok (f.fn x) := by
  have hr : (i : Int) = f.rkOf x := by
    apply inPiece_unique h (by omega) (by omega)
    · intro k hk e
      have : k = i := by omega
      subst this; exact h1
    · intro k hk e
      have : k = i + 1 := by omega
      subst this; exact h2 hk
  rw [hr]; exact evalWithRank_eq h hd

theorem nextTime_spec {f : PL} (h : f.WF) {i : Nat} (_hi : i < f.times.length) :
    ∃ nf, f.nextTime i = .ok nf ∧ nf ≤ f.hi ∧ (∀ hj : i + 1 < f.times.length, nf = (f.times[i + 1] : WithTop ℚ)) ∧
      (¬ i + 1 < f.times.length → nf = f.hi) := by
  unfold nextTime
  by_cases c : i + 1 < f.times.length
  · rw [if_pos c, rd_lt _ _ c, ok_bind, py_pure]
    exact ⟨_, rfl, (h.dom _ (List.getElem_mem c)).2, fun _ => rfl, fun hh => absurd c hh⟩
  · rw [if_neg c, py_pure]
    exact ⟨_, rfl, le_rfl, fun hj => absurd hj c, fun _ => rfl⟩

/-- Two affine functions ordered at both ends are ordered between. -/
theorem between_le {f g : PL} (hf : f.WF) (hg : g.WF) {r s : Int} (hr1 : -1 ≤ r) (hr2 : r < f.times.length)
    (hs1 : -1 ≤ s) (hs2 : s < g.times.length) {T n p : ℚ}
    (a1 : f.InPiece r T) (a2 : f.InPiece r n) (b1 : g.InPiece s T) (b2 : g.InPiece s n)
    (hT : f.fn T ≤ g.fn T + p) (hn : f.fn n ≤ g.fn n + p) {t : ℚ} (h1 : T ≤ t) (h2 : t ≤ n) :
    f.fn t ≤ g.fn t + p := by
  obtain ⟨u, hu⟩ := gradient_ok hf hr1 hr2
  obtain ⟨w, hw⟩ := gradient_ok hg hs1 hs2
  have c1 : f.InPiece r t := ⟨fun i hi e => le_trans (a1.1 i hi e) h1, fun i hi e => le_trans h2 (a2.2 i hi e)⟩
  have c2 : g.InPiece s t := ⟨fun i hi e => le_trans (b1.1 i hi e) h1, fun i hi e => le_trans h2 (b2.2 i hi e)⟩
  have e1 := fn_piece hf hu c1 a1
  have e2 := fn_piece hg hw c2 b1
  have e3 := fn_piece hf hu a2 c1
  have e4 := fn_piece hg hw b2 c2
  rcases le_total u w with hh | hh
  · have := mul_le_mul_of_nonneg_right hh (sub_nonneg.mpr h1); linarith
  · have := mul_le_mul_of_nonneg_right hh (sub_nonneg.mpr h2); linarith

theorem smallerLoop_sound {f g : PL} (hf : f.WF) (hg : g.WF) (hhi : g.hi ≤ f.hi) :
    ∀ (fuel i j : Nat) (T : ℚ), i < f.times.length → j < g.times.length → g.inDom T → f.InPiece i T → g.InPiece j T →
      f.fn T ≤ g.fn T + precision → smallerLoop f g fuel i j = .ok none →
      ∃ T', T ≤ T' ∧ (∀ t, T ≤ t → t ≤ T' → f.fn t ≤ g.fn t + precision) ∧
        (g.hi = (T' : WithTop ℚ) ∨ (f.InPiece ((f.times.length : Int) - 1) T' ∧ g.InPiece ((g.times.length : Int) - 1) T')) := by
  intro fuel
  induction fuel with
  | zero => intro i j T _ _ _ _ _ _ he; exact absurd he (by simp [smallerLoop])
  | succ fuel ih =>
    intro i j T hi hj hTd pf pg hT he
    rw [smallerLoop] at he
    by_cases c : i + 1 < f.times.length ∨ j + 1 < g.times.length
    · rw [if_pos c] at he
      obtain ⟨nf, hnf, nf1, nf2, nf3⟩ := nextTime_spec hf hi
      obtain ⟨ng, hng, ng1, ng2, ng3⟩ := nextTime_spec hg hj
      rw [hnf, ok_bind, hng, ok_bind] at he
      -- next time
      cases hmin : min nf ng with
      | top => rw [hmin] at he; exact absurd he (by simp)
      | coe n =>
        rw [hmin] at he
        have he' : (do
          let a ← f.evalWithRank n i
          let b ← g.evalWithRank n j
          if a > b + precision then pure (some false)
          else
            let i := if nf = (n : WithTop ℚ) then i + 1 else i
            let j := if ng = (n : WithTop ℚ) then j + 1 else j
            if (n : WithTop ℚ) = g.hi then pure none else smallerLoop f g fuel i j : Py (Option Bool)) = .ok none := he
        have hnle1 : (n : WithTop ℚ) ≤ nf := by rw [← hmin]; exact min_le_left _ _
        have hnle2 : (n : WithTop ℚ) ≤ ng := by rw [← hmin]; exact min_le_right _ _
        cases ha : f.evalWithRank n i with
        | error e => rw [ha, error_bind] at he'; exact absurd he' (by simp)
        | ok a =>
          rw [ha, ok_bind] at he'
          cases hb : g.evalWithRank n j with
          | error e => rw [hb, error_bind] at he'; exact absurd he' (by simp)
          | ok b =>
            rw [hb, ok_bind] at he'
            obtain ⟨_, pf', rfl⟩ := evalWithRank_sound hf hi ha
            obtain ⟨hnd, pg', rfl⟩ := evalWithRank_sound hg hj hb
            by_cases cv : f.fn n > g.fn n + precision
            · rw [if_pos cv] at he'; exact absurd he' (by simp)
            · rw [if_neg cv] at he'
              have hnv := not_lt.mp cv
              have hTn : T ≤ n := by
                have k1 : (T : WithTop ℚ) ≤ nf := by
                  by_cases ci : i + 1 < f.times.length
                  · rw [nf2 ci, WithTop.coe_le_coe]; exact pf.2 (i + 1) ci (by omega)
                  · rw [nf3 ci]; exact le_trans hTd.2 hhi
                have k2 : (T : WithTop ℚ) ≤ ng := by
                  by_cases ci : j + 1 < g.times.length
                  · rw [ng2 ci, WithTop.coe_le_coe]; exact pg.2 (j + 1) ci (by omega)
                  · rw [ng3 ci]; exact hTd.2
                have := le_min k1 k2
                rw [hmin, WithTop.coe_le_coe] at this; exact this
              have hbet : ∀ t, T ≤ t → t ≤ n → f.fn t ≤ g.fn t + precision := fun t h1 h2 =>
                between_le hf hg (by omega) (by omega) (by omega) (by omega) pf pf' pg pg' hT hnv h1 h2
              simp only at he'
              by_cases cb : (n : WithTop ℚ) = g.hi
              · exact ⟨n, hTn, hbet, Or.inl cb.symm⟩
              · rw [if_neg cb] at he'
                have hi' : ∃ i', (if nf = (n : WithTop ℚ) then i + 1 else i) = i' ∧ i' < f.times.length ∧ f.InPiece i' n := by
                  by_cases cn : nf = (n : WithTop ℚ)
                  · rw [if_pos cn]
                    by_cases ci : i + 1 < f.times.length
                    · have e := nf2 ci
                      rw [cn, WithTop.coe_inj] at e
                      exact ⟨i + 1, rfl, ci, by rw [e]; exact inPiece_time_left hf (i + 1) ci⟩
                    · exfalso
                      apply cb
                      have e := nf3 ci
                      apply le_antisymm
                      · exact le_trans hnle2 ng1
                      · rw [← cn, e]; exact hhi
                  · rw [if_neg cn]; exact ⟨i, rfl, hi, pf'⟩
                have hj' : ∃ j', (if ng = (n : WithTop ℚ) then j + 1 else j) = j' ∧ j' < g.times.length ∧ g.InPiece j' n := by
                  by_cases cn : ng = (n : WithTop ℚ)
                  · rw [if_pos cn]
                    by_cases ci : j + 1 < g.times.length
                    · have e := ng2 ci
                      rw [cn, WithTop.coe_inj] at e
                      exact ⟨j + 1, rfl, ci, by rw [e]; exact inPiece_time_left hg (j + 1) ci⟩
                    · exfalso
                      apply cb
                      rw [← cn, ng3 ci]
                  · rw [if_neg cn]; exact ⟨j, rfl, hj, pg'⟩
                obtain ⟨i', ei, hi1, hi2⟩ := hi'
                obtain ⟨j', ej, hj1, hj2⟩ := hj'
                rw [ei, ej] at he'
                obtain ⟨T', t1, t2, t3⟩ := ih i' j' n hi1 hj1 hnd hi2 hj2 hnv he'
                refine ⟨T', le_trans hTn t1, ?_, t3⟩
                intro t h1 h2
                rcases le_total t n with hh | hh
                · exact hbet t h1 hh
                · exact t2 t hh h2
    · refine ⟨T, le_rfl, ?_, Or.inr ?_⟩
      · intro t h1 h2
        have : t = T := le_antisymm h2 h1
        subst this; exact hT
      · have e1 : (i : Int) = (f.times.length : Int) - 1 := by omega
        have e2 : (j : Int) = (g.times.length : Int) - 1 := by omega
        rw [← e1, ← e2]; exact ⟨pf, pg⟩

theorem smallerLoop_not_true (f g : PL) : ∀ (fuel i j : Nat), smallerLoop f g fuel i j ≠ .ok (some true) := by
  intro fuel
  induction fuel with
  | zero => intro i j; simp [smallerLoop]
  | succ fuel ih =>
    intro i j he
    rw [smallerLoop] at he
    by_cases c : i + 1 < f.times.length ∨ j + 1 < g.times.length
    · rw [if_pos c] at he
      cases h1 : f.nextTime i with
      | error e => rw [h1, error_bind] at he; exact absurd he (by simp)
      | ok nf =>
        rw [h1, ok_bind] at he
        cases h2 : g.nextTime j with
        | error e => rw [h2, error_bind] at he; exact absurd he (by simp)
        | ok ng =>
          rw [h2, ok_bind] at he
          cases hmin : min nf ng with
          | top => rw [hmin] at he; exact absurd he (by simp)
          | coe n =>
            rw [hmin] at he
            have he' : (do
              let a ← f.evalWithRank n i
              let b ← g.evalWithRank n j
              if a > b + precision then pure (some false)
              else
                let i := if nf = (n : WithTop ℚ) then i + 1 else i
                let j := if ng = (n : WithTop ℚ) then j + 1 else j
                if (n : WithTop ℚ) = g.hi then pure none else smallerLoop f g fuel i j : Py (Option Bool)) = .ok (some true) := he
            cases ha : f.evalWithRank n i with
            | error e => rw [ha, error_bind] at he'; exact absurd he' (by simp)
            | ok a =>
              rw [ha, ok_bind] at he'
              cases hb : g.evalWithRank n j with
              | error e => rw [hb, error_bind] at he'; exact absurd he' (by simp)
              | ok b =>
                rw [hb, ok_bind] at he'
                by_cases cv : a > b + precision
                · rw [if_pos cv] at he'; exact absurd he' (by simp)
                · rw [if_neg cv] at he'
                  simp only at he'
                  by_cases cb : (n : WithTop ℚ) = g.hi
                  · rw [if_pos cb] at he'; exact absurd he' (by simp)
                  · rw [if_neg cb] at he'; exact ih _ _ he'
    · rw [if_neg c] at he; exact absurd he (by simp)

/-- Soundness of `smaller_equals`. -/
theorem smallerEquals_sound {f g : PL} (hf : f.WF) (hg : g.WF) (he : f.smallerEquals g = .ok true) :
    g.hi ≤ f.hi ∧ f.lo = g.lo ∧
    (∀ d : ℚ, g.hi = (d : WithTop ℚ) → ∀ t, g.inDom t → f.fn t ≤ g.fn t + precision) ∧
    (g.hi = ⊤ → f.last ≤ g.last + precision ∧ ∀ t, g.inDom t →
      f.fn t ≤ g.fn t + precision + precision * max 0 (t - max (f.times.getLast hf.ne) (g.times.getLast hg.ne))) := by
  have hpf := hf.pos
  have hpg := hg.pos
  have hvf := hf.len
  have hvg := hg.len
  unfold smallerEquals at he
  rw [rd_lt _ _ hpf, ok_bind, rd_lt _ _ hpg, ok_bind] at he
  by_cases hA : ((f.times[0] : WithBot ℚ) = f.lo ∧ f.lo = (g.times[0] : WithBot ℚ) ∧ (g.times[0] : WithBot ℚ) = g.lo)
  swap
  · rw [pyAssert_false hA, error_bind] at he; exact absurd he (by simp)
  rw [pyAssert_true hA, ok_bind] at he
  by_cases hE : endsBefore f.hi g.hi = true
  · rw [if_pos hE] at he; exact absurd he (by simp)
  rw [if_neg hE, rd_lt _ _ (by omega), ok_bind, rd_lt _ _ (by omega), ok_bind] at he
  by_cases hV : f.values[0] > g.values[0] + precision
  · rw [if_pos hV] at he; exact absurd he (by simp)
  rw [if_neg hV] at he
  cases hr : smallerLoop f g (f.times.length + g.times.length + 1) 0 0 with
  | error e => rw [hr, error_bind] at he; exact absurd he (by simp)
  | ok r =>
    rw [hr, ok_bind] at he
    cases r with
    | some b =>
      simp only [py_pure] at he
      injection he with he
      subst he
      exact absurd hr (smallerLoop_not_true f g _ _ _)
    | none =>
      simp only at he
      have hlo : f.lo = g.lo := hA.2.1.trans hA.2.2
      have h00 : f.times[0] = g.times[0] := WithBot.coe_inj.mp (hA.1.trans hA.2.1)
      have hge0 : ∀ t, g.inDom t → g.times[0] ≤ t := by
        intro t ht
        have := ht.1
        rw [← hA.2.2, WithBot.coe_le_coe] at this; exact this
      have hstart : f.fn g.times[0] ≤ g.fn g.times[0] + precision := by
        rw [← h00, fn_time hf, h00, fn_time hg]; exact not_lt.mp hV
      have pf0 : f.InPiece (0 : Nat) g.times[0] := by
        have := inPiece_time_left hf 0 hpf
        rw [h00] at this; exact this
      have pg0 := inPiece_time_left hg 0 hpg
      have hd0 := hg.dom _ (List.getElem_mem hpg)
      cases hh : g.hi with
      | coe d =>
        rw [hh] at he
        have he' : (do let a ← f.eval d; let b ← g.eval d; pure (decide (a ≤ b + precision)) : Py Bool) = .ok true := he
        by_cases hfd : f.inDom d
        swap
        · rw [eval_err hfd, error_bind] at he'; exact absurd he' (by simp)
        have hgd : g.inDom d := by
          refine ⟨by rw [← hlo]; exact hfd.1, by rw [hh]⟩
        rw [eval_eq hf hfd, ok_bind, eval_eq hg hgd, ok_bind, py_pure] at he'
        injection he' with he'
        have hend := of_decide_eq_true he'
        have hhi : g.hi ≤ f.hi := by rw [hh]; exact hfd.2
        refine ⟨hh ▸ hhi, hlo, ?_, by simp⟩
        intro d' _ t ht
        obtain ⟨T', t1, t2, t3⟩ := smallerLoop_sound hf hg hhi _ 0 0 g.times[0] hpf hpg hd0 pf0 pg0 hstart hr
        have htd : t ≤ d := by have := ht.2; rw [hh, WithTop.coe_le_coe] at this; exact this
        rcases t3 with t3 | t3
        · rw [hh, WithTop.coe_inj] at t3
          exact t2 t (hge0 t ht) (by rw [← t3]; exact htd)
        · rcases le_total t T' with hc | hc
          · exact t2 t (hge0 t ht) hc
          · refine between_le hf hg (by omega) (by omega) (by omega) (by omega) t3.1 ⟨?_, ?_⟩ t3.2 ⟨?_, ?_⟩ (t2 T' t1 le_rfl) hend hc htd
            · intro i hi e; exact le_trans (t3.1.1 i hi e) (le_trans hc htd)
            · intro i hi e; omega
            · intro i hi e; exact le_trans (t3.2.1 i hi e) (le_trans hc htd)
            · intro i hi e; omega
      | top =>
        rw [hh] at he
        have hft : f.hi = ⊤ := by
          cases hfh : f.hi with
          | top => rfl
          | coe a => rw [hfh, hh] at hE; exact absurd rfl hE
        have hhi : g.hi ≤ f.hi := by rw [hft]; exact le_top
        have he' : (do let a ← f.gradient ((f.times.length : Int) - 1); let b ← g.gradient ((g.times.length : Int) - 1)
                       pure (decide (a ≤ b + precision)) : Py Bool) = .ok true := he
        rw [gradient_last hf, ok_bind, gradient_last hg, ok_bind, py_pure] at he'
        injection he' with he'
        have hsl := of_decide_eq_true he'
        refine ⟨hh ▸ hhi, hlo, by simp, fun _ => ⟨hsl, ?_⟩⟩
        intro t ht
        obtain ⟨T', t1, t2, t3⟩ := smallerLoop_sound hf hg hhi _ 0 0 g.times[0] hpf hpg hd0 pf0 pg0 hstart hr
        rcases t3 with t3 | t3
        · rw [hh] at t3; exact absurd t3 (by simp)
        · have hpp := precision_pos
          have hmax0 : 0 ≤ precision * max 0 (t - max (f.times.getLast hf.ne) (g.times.getLast hg.ne)) :=
            mul_nonneg (le_of_lt hpp) (le_max_left _ _)
          set M := max (f.times.getLast hf.ne) (g.times.getLast hg.ne) with hM
          have hMT : M ≤ T' := by
            rw [hM]
            apply max_le
            · rw [getLast_idx hf.ne (f.times.length - 1) (by omega) (by omega)]
              exact t3.1.1 _ (by omega) (by omega)
            · rw [getLast_idx hg.ne (g.times.length - 1) (by omega) (by omega)]
              exact t3.2.1 _ (by omega) (by omega)
          rcases le_total t T' with hc | hc
          · have := t2 t (hge0 t ht) hc; linarith
          · have hM1 : f.times.getLast hf.ne ≤ M := le_max_left _ _
            have hM2 : g.times.getLast hg.ne ≤ M := le_max_right _ _
            have e1 := fn_right_aff hf (x := t) (y := T') (fun s hs => le_trans (le_getLast hf.lt hf.ne hs) (by linarith)) (fun s hs => le_trans (le_getLast hf.lt hf.ne hs) (by linarith))
            have e2 := fn_right_aff hg (x := t) (y := T') (fun s hs => le_trans (le_getLast hg.lt hg.ne hs) (by linarith)) (fun s hs => le_trans (le_getLast hg.lt hg.ne hs) (by linarith))
            have e3 := t2 T' t1 le_rfl
            have k1 := mul_le_mul_of_nonneg_right hsl (sub_nonneg.mpr hc)
            have k2 : precision * (t - T') ≤ precision * max 0 (t - M) :=
              mul_le_mul_of_nonneg_left (le_trans (by linarith) (le_max_right _ _)) (le_of_lt hpp)
            linarith

/-- The loop ends, without a difference if there is none. -/
theorem smallerLoop_total {f g : PL} (hf : f.WF) (hg : g.WF) (hhi : g.hi ≤ f.hi) (hlo : f.lo = g.lo) :
    ∀ (fuel i j : Nat) (T : ℚ), i < f.times.length → j < g.times.length → g.inDom T → (T : WithTop ℚ) < g.hi →
      (∀ hi : i < f.times.length, f.times[i] ≤ T) → (∀ hi : i + 1 < f.times.length, T < f.times[i + 1]) →
      (∀ hi : j < g.times.length, g.times[j] ≤ T) → (∀ hi : j + 1 < g.times.length, T < g.times[j + 1]) →
      (f.times.length - i) + (g.times.length - j) < fuel →
      ∃ r, smallerLoop f g fuel i j = .ok r ∧ ((∀ t, g.inDom t → f.fn t ≤ g.fn t + precision) → r = none) := by
  intro fuel
  induction fuel with
  | zero => intro i j T _ _ _ _ _ _ _ _ hh; omega
  | succ fuel ih =>
    intro i j T hi hj hTd hTg f1 f2 g1 g2 hfu
    rw [smallerLoop]
    by_cases c : i + 1 < f.times.length ∨ j + 1 < g.times.length
    · rw [if_pos c]
      obtain ⟨nf, hnf, nf1, nf2, nf3⟩ := nextTime_spec hf hi
      obtain ⟨ng, hng, ng1, ng2, ng3⟩ := nextTime_spec hg hj
      rw [hnf, ok_bind, hng, ok_bind]
      have k1 : (T : WithTop ℚ) < nf := by
        by_cases ci : i + 1 < f.times.length
        · rw [nf2 ci, WithTop.coe_lt_coe]; exact f2 ci
        · rw [nf3 ci]; exact lt_of_lt_of_le hTg hhi
      have k2 : (T : WithTop ℚ) < ng := by
        by_cases ci : j + 1 < g.times.length
        · rw [ng2 ci, WithTop.coe_lt_coe]; exact g2 ci
        · rw [ng3 ci]; exact hTg
      have hTm := lt_min k1 k2
      have hfin : ∃ n : ℚ, min nf ng = (n : WithTop ℚ) := by
        rcases c with c | c
        · have := min_le_left nf ng
          rw [nf2 c] at this
          obtain ⟨n, hn, _⟩ := WithTop.le_coe_iff.mp this
          exact ⟨n, by rw [← nf2 c] at hn; exact hn⟩
        · have := min_le_right nf ng
          rw [ng2 c] at this
          obtain ⟨n, hn, _⟩ := WithTop.le_coe_iff.mp this
          exact ⟨n, by rw [← ng2 c] at hn; exact hn⟩
      obtain ⟨n, hmin⟩ := hfin
      rw [hmin] at hTm ⊢
      show ∃ r, (do
          let a ← f.evalWithRank n i
          let b ← g.evalWithRank n j
          if a > b + precision then pure (some false)
          else
            let i := if nf = (n : WithTop ℚ) then i + 1 else i
            let j := if ng = (n : WithTop ℚ) then j + 1 else j
            if (n : WithTop ℚ) = g.hi then pure none else smallerLoop f g fuel i j : Py (Option Bool)) = .ok r ∧ _
      have hTn : T < n := WithTop.coe_lt_coe.mp hTm
      have hnle1 : (n : WithTop ℚ) ≤ nf := by rw [← hmin]; exact min_le_left _ _
      have hnle2 : (n : WithTop ℚ) ≤ ng := by rw [← hmin]; exact min_le_right _ _
      have hgn : g.inDom n := ⟨le_trans hTd.1 (WithBot.coe_le_coe.mpr (le_of_lt hTn)), le_trans hnle2 ng1⟩
      have hfn : f.inDom n := ⟨by rw [hlo]; exact hgn.1, le_trans hgn.2 hhi⟩
      have hn1 : ∀ hj : i + 1 < f.times.length, n ≤ f.times[i + 1] := by
        intro hj; rw [nf2 hj, WithTop.coe_le_coe] at hnle1; exact hnle1
      have hn2 : ∀ hj : j + 1 < g.times.length, n ≤ g.times[j + 1] := by
        intro hj; rw [ng2 hj, WithTop.coe_le_coe] at hnle2; exact hnle2
      rw [evalWithRank_of hf hi hfn (lt_of_le_of_lt (f1 hi) hTn) hn1, ok_bind,
        evalWithRank_of hg hj hgn (lt_of_le_of_lt (g1 hj) hTn) hn2, ok_bind]
      by_cases cle : f.fn n > g.fn n + precision
      · rw [if_pos cle]
        exact ⟨_, rfl, fun h => absurd (h n hgn) (not_le.mpr cle)⟩
      rw [if_neg cle]
      simp only
      by_cases cb : (n : WithTop ℚ) = g.hi
      · rw [if_pos cb]; exact ⟨_, rfl, fun _ => rfl⟩
      · rw [if_neg cb]
        have hi' : ∃ i', (if nf = (n : WithTop ℚ) then i + 1 else i) = i' ∧ i' < f.times.length ∧ i ≤ i' ∧ (nf = (n : WithTop ℚ) → i < i') ∧
            (∀ hi : i' < f.times.length, f.times[i'] ≤ n) ∧ (∀ hi : i' + 1 < f.times.length, n < f.times[i' + 1]) := by
          by_cases cn : nf = (n : WithTop ℚ)
          · rw [if_pos cn]
            by_cases ci : i + 1 < f.times.length
            · have e := nf2 ci
              rw [cn, WithTop.coe_inj] at e
              refine ⟨i + 1, rfl, ci, by omega, fun _ => by omega, fun _ => by rw [e], fun h2 => ?_⟩
              rw [e]; exact getElem_lt_of hf.lt (by omega) h2
            · exfalso
              apply cb
              have e := nf3 ci
              apply le_antisymm
              · exact le_trans hnle2 ng1
              · rw [← cn, e]; exact hhi
          · rw [if_neg cn]
            refine ⟨i, rfl, hi, le_rfl, fun h => absurd h cn, fun h => le_trans (f1 h) (le_of_lt hTn), fun h => ?_⟩
            refine lt_of_le_of_ne (hn1 h) (fun e => cn ?_)
            rw [nf2 h, e]
        have hj' : ∃ j', (if ng = (n : WithTop ℚ) then j + 1 else j) = j' ∧ j' < g.times.length ∧ j ≤ j' ∧ (ng = (n : WithTop ℚ) → j < j') ∧
            (∀ hi : j' < g.times.length, g.times[j'] ≤ n) ∧ (∀ hi : j' + 1 < g.times.length, n < g.times[j' + 1]) := by
          by_cases cn : ng = (n : WithTop ℚ)
          · rw [if_pos cn]
            by_cases ci : j + 1 < g.times.length
            · have e := ng2 ci
              rw [cn, WithTop.coe_inj] at e
              refine ⟨j + 1, rfl, ci, by omega, fun _ => by omega, fun _ => by rw [e], fun h2 => ?_⟩
              rw [e]; exact getElem_lt_of hg.lt (by omega) h2
            · exfalso
              apply cb
              rw [← cn, ng3 ci]
          · rw [if_neg cn]
            refine ⟨j, rfl, hj, le_rfl, fun h => absurd h cn, fun h => le_trans (g1 h) (le_of_lt hTn), fun h => ?_⟩
            refine lt_of_le_of_ne (hn2 h) (fun e => cn ?_)
            rw [ng2 h, e]
        obtain ⟨i', ei, i1, i2, i3, i4, i5⟩ := hi'
        obtain ⟨j', ej, j1, j2, j3, j4, j5⟩ := hj'
        rw [ei, ej]
        refine ih i' j' n i1 j1 hgn (lt_of_le_of_ne hgn.2 cb) i4 i5 j4 j5 ?_
        have hor : nf = (n : WithTop ℚ) ∨ ng = (n : WithTop ℚ) := by
          rcases min_choice nf ng with h | h
          · left; rw [← h]; exact hmin
          · right; rw [← h]; exact hmin
        rcases hor with h | h
        · have := i3 h; omega
        · have := j3 h; omega
    · rw [if_neg c]; exact ⟨_, rfl, fun _ => rfl⟩

theorem smallerLoop_complete {f g : PL} (hf : f.WF) (hg : g.WF) (hhi : g.hi ≤ f.hi) (hlo : f.lo = g.lo)
    (hle : ∀ t, g.inDom t → f.fn t ≤ g.fn t + precision)
    (fuel i j : Nat) (T : ℚ) (h1 : i < f.times.length) (h2 : j < g.times.length) (h3 : g.inDom T) (h4 : (T : WithTop ℚ) < g.hi)
    (h5 : ∀ hi : i < f.times.length, f.times[i] ≤ T) (h6 : ∀ hi : i + 1 < f.times.length, T < f.times[i + 1])
    (h7 : ∀ hi : j < g.times.length, g.times[j] ≤ T) (h8 : ∀ hi : j + 1 < g.times.length, T < g.times[j + 1])
    (h9 : (f.times.length - i) + (g.times.length - j) < fuel) : smallerLoop f g fuel i j = .ok none := by
  obtain ⟨r, a, b⟩ := smallerLoop_total hf hg hhi hlo fuel i j T h1 h2 h3 h4 h5 h6 h7 h8 h9
  rw [a, b hle]

/-- Completeness of `smaller_equals`. -/
theorem smallerEquals_complete {f g : PL} (hf : f.WF) (hg : g.WF)
    (h0 : f.lo = (f.times[0]'hf.pos : WithBot ℚ)) (h0' : g.lo = (g.times[0]'hg.pos : WithBot ℚ)) (hlo : f.lo = g.lo)
    (hhi : g.hi ≤ f.hi) (hlt : ((g.times[0]'hg.pos : ℚ) : WithTop ℚ) < g.hi)
    (hle : ∀ t, g.inDom t → f.fn t ≤ g.fn t) : f.smallerEquals g = .ok true := by
  have hpf := hf.pos
  have hpg := hg.pos
  have hvf := hf.len
  have hvg := hg.len
  have hpp := precision_pos
  have h00 : f.times[0] = g.times[0] := WithBot.coe_inj.mp (h0.symm.trans (hlo.trans h0'))
  have hd0 := hg.dom _ (List.getElem_mem hpg)
  have hle' : ∀ t, g.inDom t → f.fn t ≤ g.fn t + precision := fun t ht => by have := hle t ht; linarith
  unfold smallerEquals
  rw [rd_lt _ _ hpf, ok_bind, rd_lt _ _ hpg, ok_bind, pyAssert_true ⟨h0.symm, hlo.trans h0', h0'.symm⟩, ok_bind, if_neg]
  swap
  · intro hE
    cases hgh : g.hi with
    | top =>
      rw [hgh] at hhi
      rw [top_le_iff.mp hhi] at hE
      exact absurd hE (by simp [endsBefore])
    | coe d =>
      cases hfh : f.hi with
      | top => rw [hfh] at hE; exact absurd hE (by simp [endsBefore])
      | coe a =>
        rw [hfh, hgh] at hE
        have := of_decide_eq_true (show decide (a < d - precision) = true from hE)
        rw [hgh, hfh, WithTop.coe_le_coe] at hhi
        linarith
  rw [rd_lt _ _ (by omega), ok_bind, rd_lt _ _ (by omega), ok_bind, if_neg]
  swap
  · have := hle' _ hd0
    rw [fn_time hg, ← h00, fn_time hf] at this
    exact not_lt.mpr this
  rw [smallerLoop_complete hf hg hhi hlo hle' _ 0 0 g.times[0] hpf hpg hd0 hlt (fun _ => by rw [h00])
    (fun hi => by rw [← h00]; exact getElem_lt_of hf.lt (by omega) hi) (fun _ => le_rfl)
    (fun hi => getElem_lt_of hg.lt (by omega) hi) (by omega), ok_bind]
  cases hgh : g.hi with
  | coe d =>
    have hgd : g.inDom d := by
      refine ⟨?_, by rw [hgh]⟩
      rw [h0', WithBot.coe_le_coe]
      have := hlt; rw [hgh, WithTop.coe_lt_coe] at this; exact le_of_lt this
    have hfd : f.inDom d := ⟨by rw [hlo]; exact hgd.1, by rw [hgh] at hhi; exact hhi⟩
    show (do let a ← f.eval d; let b ← g.eval d; pure (decide (a ≤ b + precision)) : Py Bool) = .ok true
    rw [eval_eq hf hfd, ok_bind, eval_eq hg hgd, ok_bind, py_pure, decide_eq_true (hle' d hgd)]
  | top =>
    show (do let a ← f.gradient ((f.times.length : Int) - 1); let b ← g.gradient ((g.times.length : Int) - 1)
             pure (decide (a ≤ b + precision)) : Py Bool) = .ok true
    rw [gradient_last hf, ok_bind, gradient_last hg, ok_bind, py_pure, decide_eq_true]
    by_contra hc
    have hc' := not_le.mp hc
    -- far to the right f exceeds g
    set M := max (f.times.getLast hf.ne) (g.times.getLast hg.ne) with hM
    have hM1 : f.times.getLast hf.ne ≤ M := le_max_left _ _
    have hM2 : g.times.getLast hg.ne ≤ M := le_max_right _ _
    have hdiff : 0 < f.last - g.last := by linarith
    set x := M + (|g.fn M - f.fn M| + 1) / (f.last - g.last) with hx
    have hq : 0 ≤ (|g.fn M - f.fn M| + 1) / (f.last - g.last) :=
      div_nonneg (by have := abs_nonneg (g.fn M - f.fn M); linarith) (le_of_lt hdiff)
    have hxM : M ≤ x := by linarith
    have hxd : g.inDom x := by
      refine ⟨le_trans (hg.dom _ (List.getLast_mem hg.ne)).1 (WithBot.coe_le_coe.mpr (by linarith)), by rw [hgh]; exact le_top⟩
    have e1 := fn_right_aff hf (x := x) (y := M) (fun s hs => le_trans (le_getLast hf.lt hf.ne hs) (by linarith)) (fun s hs => le_trans (le_getLast hf.lt hf.ne hs) hM1)
    have e2 := fn_right_aff hg (x := x) (y := M) (fun s hs => le_trans (le_getLast hg.lt hg.ne hs) (by linarith)) (fun s hs => le_trans (le_getLast hg.lt hg.ne hs) hM2)
    have e3 : (f.last - g.last) * (x - M) = |g.fn M - f.fn M| + 1 := by
      rw [hx]; field_simp; ring
    have e4 := hle x hxd
    have e5 := le_abs_self (g.fn M - f.fn M)
    linarith

/-- `smaller_equals` returns. -/
theorem smallerEquals_total {f g : PL} (hf : f.WF) (hg : g.WF)
    (h0 : f.lo = (f.times[0]'hf.pos : WithBot ℚ)) (h0' : g.lo = (g.times[0]'hg.pos : WithBot ℚ)) (hlo : f.lo = g.lo)
    (hhi : g.hi ≤ f.hi) (hlt : ((g.times[0]'hg.pos : ℚ) : WithTop ℚ) < g.hi) : ∃ b, f.smallerEquals g = .ok b := by
  have hpf := hf.pos
  have hpg := hg.pos
  have hvf := hf.len
  have hvg := hg.len
  have h00 : f.times[0] = g.times[0] := WithBot.coe_inj.mp (h0.symm.trans (hlo.trans h0'))
  have hd0 := hg.dom _ (List.getElem_mem hpg)
  unfold smallerEquals
  rw [rd_lt _ _ hpf, ok_bind, rd_lt _ _ hpg, ok_bind, pyAssert_true ⟨h0.symm, hlo.trans h0', h0'.symm⟩, ok_bind]
  split_ifs
  · exact ⟨_, rfl⟩
  rw [rd_lt _ _ (by omega), ok_bind, rd_lt _ _ (by omega), ok_bind]
  split_ifs
  · exact ⟨_, rfl⟩
  obtain ⟨r, e, -⟩ := smallerLoop_total hf hg hhi hlo (f.times.length + g.times.length + 1) 0 0 g.times[0] hpf hpg hd0 hlt (fun _ => by rw [h00])
    (fun hi => by rw [← h00]; exact getElem_lt_of hf.lt (by omega) hi) (fun _ => le_rfl)
    (fun hi => getElem_lt_of hg.lt (by omega) hi) (by omega)
  rw [e, ok_bind]
  cases r with
  | some b => exact ⟨_, rfl⟩
  | none =>
    cases hgh : g.hi with
    | coe d =>
      have hgd : g.inDom d := by
        refine ⟨?_, by rw [hgh]⟩
        rw [h0', WithBot.coe_le_coe]
        have := hlt; rw [hgh, WithTop.coe_lt_coe] at this; exact le_of_lt this
      have hfd : f.inDom d := ⟨by rw [hlo]; exact hgd.1, by rw [hgh] at hhi; exact hhi⟩
      show ∃ b, (do let a ← f.eval d; let b ← g.eval d; pure (decide (a ≤ b + precision)) : Py Bool) = .ok b
      rw [eval_eq hf hfd, ok_bind, eval_eq hg hgd, ok_bind]
      exact ⟨_, rfl⟩
    | top =>
      show ∃ b, (do let a ← f.gradient ((f.times.length : Int) - 1); let b ← g.gradient ((g.times.length : Int) - 1)
                    pure (decide (a ≤ b + precision)) : Py Bool) = .ok b
      rw [gradient_last hf, ok_bind, gradient_last hg, ok_bind]
      exact ⟨_, rfl⟩

end PL
end Verif
