import Verif.Proofs.BFCosts

/-! The search with constant costs and a finite horizon. -/

namespace Verif
open Verif.Spec
namespace BF

/-- The functions `t + (v - phi)` on `[phi, h]`. -/
def one (phi v h : ℚ) : PL := ⟨[phi], [v], 1, 1, (phi : WithBot ℚ), (h : WithTop ℚ)⟩

variable {phi H : ℚ}

theorem one_wf {v h : ℚ} (hh : phi ≤ h) : (one phi v h).WF :=
  ⟨rfl, by simp [one], by simp [one], by
    intro t ht
    have : t = phi := by simpa [one] using ht
    subst this; exact ⟨le_refl _, WithTop.coe_le_coe.mpr hh⟩⟩

theorem one_fn {v h : ℚ} (hh : phi ≤ h) (x : ℚ) : (one phi v h).fn x = v + (x - phi) := by
  rcases le_total x phi with h | h
  · rw [PL.fn_left (one_wf hh) (by simp [one]) (by simpa [one] using h)]; simp [one]
  · rw [PL.fn_right (one_wf hh) (by simpa [one] using h)]; simp [one]

theorem one_dom {v h x : ℚ} : (one phi v h).inDom x ↔ phi ≤ x ∧ x ≤ h := by
  unfold PL.inDom one
  simp only [WithBot.coe_le_coe, WithTop.coe_le_coe]

theorem one_eval {v h x : ℚ} (h1 : phi ≤ x) (h2 : x ≤ h) : (one phi v h).eval x = .ok (v + (x - phi)) := by
  rw [PL.eval_eq (one_wf (le_trans h1 h2)) (one_dom.mpr ⟨h1, h2⟩), one_fn (le_trans h1 h2)]

theorem one_mono (v h : ℚ) : (one phi v h).isMonotone = true := by
  rw [PL.isMonotone_iff]; simp [one]

theorem one_lo {v h : ℚ} (hh : phi ≤ h) : (one phi v h).evalLo = .ok (EVal.fin v) := by
  unfold PL.evalLo
  show (do
    let v ← (one phi v h).eval phi
    pure (EVal.fin v)) = _
  rw [one_eval (le_refl _) hh, ok_bind, sub_self, add_zero]; rfl

theorem one_hi {v h : ℚ} (hh : phi ≤ h) : (one phi v h).evalHi = .ok (EVal.fin (v + (h - phi))) := by
  unfold PL.evalHi
  show (do
    let v ← (one phi v h).eval h
    pure (EVal.fin v)) = _
  rw [one_eval hh (le_refl _), ok_bind]; rfl

theorem one_grad (v h : ℚ) {i : Int} (hi : i = -1 ∨ i = 0) : (one phi v h).gradient i = .ok 1 := by
  rcases hi with rfl | rfl <;> rfl

theorem one_inverse_first {v h x : ℚ} (hx : x ≤ v) : (one phi v h).inverse x (-1) = .ok (phi + (x - v)) := by
  unfold PL.inverse
  rw [pyAssert_true (by simp [one]), ok_bind, if_pos rfl, one_grad v h (Or.inl rfl), ok_bind]
  show (do
    pyAssert (((1 : ℚ) > 0 ∧ x ≤ v) ∨ ((1 : ℚ) < 0 ∧ x ≥ v))
    let d ← pyDiv (x - v) 1
    pure (phi + d)) = _
  rw [pyAssert_true (Or.inl ⟨by norm_num, hx⟩), ok_bind]
  unfold pyDiv
  rw [if_neg (by norm_num), ok_bind, div_one]; rfl

theorem one_inverse_last {v h x : ℚ} (hx : v ≤ x) : (one phi v h).inverse x 0 = .ok (phi + (x - v)) := by
  unfold PL.inverse
  rw [pyAssert_true (by simp [one]), ok_bind, if_neg (by decide), if_pos (by simp [one]), one_grad v h (Or.inr rfl), ok_bind]
  show (do
    pyAssert (((1 : ℚ) > 0 ∧ x ≥ v) ∨ ((1 : ℚ) < 0 ∧ x ≤ v))
    let d ← pyDiv (x - v) 1
    pure (phi + d)) = _
  rw [pyAssert_true (Or.inl ⟨by norm_num, hx⟩), ok_bind]
  unfold pyDiv
  rw [if_neg (by norm_num), ok_bind, div_one]; rfl

theorem rank_one (a x : ℚ) : elemRank [a] x = .ok (if a < x then 0 else -1) := by
  rw [elemRank_eq (by simp) (by simp)]
  by_cases h : a < x
  · simp [h]
  · simp [h]

theorem one_minTAbove {c : ℚ} (hc : 0 ≤ c) (hH : phi ≤ H) : (one phi (phi + c) H).minTAbove phi = .ok phi := by
  unfold PL.minTAbove
  rw [pyAssert_true (one_mono _ _), ok_bind, one_hi hH, ok_bind, pyAssert_true (PL.fin_le.mpr (by linarith)), ok_bind]
  show (do
    let rnk ← elemRank [phi + c] phi
    let t ← (one phi (phi + c) H).inverse phi rnk
    pure (max phi t)) = _
  rw [rank_one, if_neg (by linarith), ok_bind, one_inverse_first (by linarith), ok_bind, max_eq_left (by linarith)]; rfl

theorem one_maxTBelow {c d : ℚ} (hc : 0 ≤ c) (hd : 0 ≤ d) (hs : phi + (d + c) ≤ H) : (one phi (phi + c) H).maxTBelow (H - d) none = .ok (some ((H - (d + c) : ℚ) : WithTop ℚ)) := by
  have he := eps_pos
  unfold PL.maxTBelow
  rw [pyAssert_true (one_mono _ _), ok_bind, one_lo (by linarith), ok_bind, pyAssert_true (Or.inr (PL.fin_le.mpr (by linarith))), ok_bind, if_neg (by
    rw [gt_iff_lt, not_lt]; exact PL.fin_le.mpr (by linarith))]
  have hfa : PL.firstAbove (H - d) (one phi (phi + c) H).values 0 = none := by
    show PL.firstAbove (H - d) [phi + c] 0 = none
    unfold PL.firstAbove
    rw [if_neg (by linarith)]; rfl
  simp only [hfa]
  rw [one_hi (by linarith), ok_bind]
  by_cases hz : EVal.fin (phi + c + (H - phi)) ≤ EVal.fin (H - d)
  · rw [if_pos hz]
    have := PL.fin_le.mp hz
    have e : H = H - (d + c) := by linarith
    show Except.ok (some ((H : ℚ) : WithTop ℚ)) = _
    rw [← e]
  · rw [if_neg hz]
    show (do
      let t ← (one phi (phi + c) H).inverse (H - d) 0
      pure (some (t : WithTop ℚ))) = _
    rw [one_inverse_last (by linarith), ok_bind]
    show Except.ok (some ((_ : ℚ) : WithTop ℚ)) = _
    congr 3
    ring

theorem one_restrict {c b : ℚ} (hb : phi ≤ b) (hbH : b ≤ H) : (one phi (phi + c) H).restrict phi b = .ok (one phi (phi + c) b) := by
  unfold PL.restrict
  rw [pyAssert_true ⟨le_refl _, hb, WithTop.coe_le_coe.mpr hbH⟩, ok_bind]
  show (do
    let r ← elemRank [phi] phi
    let lastInd ← elemLrank [phi] b
    let firstSlope ← (one phi (phi + c) H).gradient (r + 1 - 1)
    let lastSlope ← (one phi (phi + c) H).gradient lastInd
    if r + 1 < lastInd + 1 then
      PL.new (([phi].drop (r + 1).toNat).take (lastInd + 1 - (r + 1)).toNat) (([phi + c].drop (r + 1).toNat).take (lastInd + 1 - (r + 1)).toNat) firstSlope lastSlope phi b
    else do
      let v ← (one phi (phi + c) H).eval phi
      PL.new [phi] [v] firstSlope lastSlope phi b) = _
  rw [rank_one, if_neg (lt_irrefl _), ok_bind, elemLrank_eq (by simp) (by simp), ok_bind]
  have e : (([phi].countP (· ≤ b) : Nat) : Int) - 1 = 0 := by simp [hb]
  rw [e, one_grad _ _ (Or.inl (by decide)), ok_bind, one_grad _ _ (Or.inr rfl), ok_bind, if_pos (by decide)]
  exact PL.new_ok (one_wf hb)

theorem one_compose {c d : ℚ} (hc : 0 ≤ c) (hs : phi + (d + c) ≤ H) :
    (one phi (phi + d) (H - d)).compose (one phi (phi + c) (H - (d + c))) = .ok (one phi (phi + (d + c)) (H - (d + c))) := by
  have he := eps_pos
  unfold PL.compose PL.image
  rw [pyAssert_true (one_mono _ _), ok_bind, one_lo (by linarith), ok_bind, one_hi (by linarith), ok_bind]
  show (do
    pyAssert (PL.startsBelow (phi : WithBot ℚ) (EVal.fin (phi + c)) = true ∧ PL.endsAbove ((H - d : ℚ) : WithTop ℚ) (EVal.fin (phi + c + (H - (d + c) - phi))) = true)
    let rnk ← elemRank [EVal.fin phi] (EVal.fin (phi + c))
    let m ← (one phi (phi + d) (H - d)).gradient rnk
    let first := m * 1
    let ig := (max 0 rnk).toNat
    if ig + 1 ≠ 1 then do
      let t ← rd [phi] (ig + 1)
      pyAssert ((phi : WithBot ℚ) ≤ (t : WithBot ℚ))
    let (ig, ts, vs) ← PL.composeFor (one phi (phi + d) (H - d)) (one phi (phi + c) (H - (d + c))) (EVal.fin (phi + c)) [phi] [phi + c] (-1) ig [] []
    let (ig, ts, vs) ← PL.composeInner (one phi (phi + d) (H - d)) (one phi (phi + c) (H - (d + c))) (EVal.fin (phi + c)) (EVal.fin (phi + c + (H - (d + c) - phi))) ((1 : Int) - 1) ([phi].drop ig) ig ts vs
    let m ← (one phi (phi + d) (H - d)).gradient ((ig : Int) - 1)
    PL.new ts vs first (m * 1) (phi : WithBot ℚ) ((H - (d + c) : ℚ) : WithTop ℚ)) = _
  rw [pyAssert_true ⟨decide_eq_true (by linarith), decide_eq_true (by linarith)⟩, ok_bind]
  obtain ⟨rnk, hr1, hr2⟩ : ∃ rnk : Int, elemRank [EVal.fin phi] (EVal.fin (phi + c)) = .ok rnk ∧ (rnk = -1 ∨ rnk = 0) := by
    refine ⟨_, elemRank_eq (by simp) (by simp) _, ?_⟩
    by_cases h : EVal.fin phi < EVal.fin (phi + c)
    · right; simp [h]
    · left; simp [h]
  rw [hr1, ok_bind, one_grad _ _ hr2, ok_bind]
  have hig : (max 0 rnk).toNat = 0 := by rcases hr2 with rfl | rfl <;> rfl
  simp only [hig]
  have hin : PL.composeInner (one phi (phi + d) (H - d)) (one phi (phi + c) (H - (d + c))) (EVal.fin (phi + c)) (EVal.fin (phi + c)) (-1) [phi] 0 [] [] = .ok (1, [phi], [phi + (d + c)]) := by
    unfold PL.composeInner
    rw [if_pos (PL.fin_le.mpr (by linarith))]
    have hp : PL.composePoint (one phi (phi + d) (H - d)) (one phi (phi + c) (H - (d + c))) (EVal.fin (phi + c)) (-1) phi [] [] = .ok ([phi], [phi + (d + c)]) := by
      unfold PL.composePoint
      show (do
        let m ← (one phi (phi + c) (H - (d + c))).gradient (-1)
        if m ≠ 0 then do
          let s ← (one phi (phi + c) (H - (d + c))).inverse (max (phi + c) phi) (-1)
          PL.addPoint (one phi (phi + d) (H - d)) [] [] s (max (phi + c) phi)
        else pure ([], [])) = _
      rw [one_grad _ _ (Or.inl rfl), ok_bind, if_pos (by norm_num), max_eq_left (by linarith), one_inverse_first (le_refl _), ok_bind]
      unfold PL.addPoint
      rw [if_pos (show PL.isLater [] _ = true from rfl), one_eval (by linarith) (by linarith), ok_bind]
      show Except.ok (_, _) = _
      simp only [List.nil_append]
      congr 3 <;> ring_nf
    rw [hp, ok_bind]
    rfl
  have hfor : PL.composeFor (one phi (phi + d) (H - d)) (one phi (phi + c) (H - (d + c))) (EVal.fin (phi + c)) [phi] [phi + c] (-1) 0 [] [] = .ok (1, [phi], [phi + (d + c)]) := by
    unfold PL.composeFor
    show (PL.composeInner (one phi (phi + d) (H - d)) (one phi (phi + c) (H - (d + c))) (EVal.fin (phi + c)) (EVal.fin (phi + c)) (-1) [phi] 0 [] [] >>= _) = _
    rw [hin, ok_bind]
    have ha : PL.addPoint (one phi (phi + d) (H - d)) [phi] [phi + (d + c)] phi (phi + c) = .ok ([phi], [phi + (d + c)]) := by
      unfold PL.addPoint
      rw [if_neg]
      · rfl
      · simp only [PL.isLater, List.getLast?_singleton, decide_eq_true_eq]; linarith
    simp only [ha, ok_bind]
    rfl
  rw [hfor]
  show PL.new [phi] [phi + (d + c)] (1 * 1) (1 * 1) (phi : WithBot ℚ) ((H - (d + c) : ℚ) : WithTop ℚ) = _
  rw [one_mul]
  exact PL.new_ok (one_wf (by linarith))

theorem one_relaxation {c d : ℚ} (hc : 0 ≤ c) (hd : 0 ≤ d) (hs : phi + (d + c) ≤ H) :
    relaxation (one phi (phi + c) H) (one phi (phi + d) (H - d)) = .ok (some (one phi (phi + (d + c)) (H - (d + c)))) := by
  unfold relaxation
  show (do
    let x ← (one phi (phi + c) H).minTAbove phi
    match ← (one phi (phi + c) H).maxTBelow (H - d) none with
    | none => pure none
    | some y => do
      let r ← restrict (one phi (phi + c) H) x y
      let h ← (one phi (phi + d) (H - d)).compose r
      pure (some h)) = _
  rw [one_minTAbove hc (by linarith), ok_bind, one_maxTBelow hc hd hs, ok_bind]
  show (do
    let r ← (one phi (phi + c) H).restrict phi (H - (d + c))
    let h ← (one phi (phi + d) (H - d)).compose r
    pure (some h)) = _
  rw [one_restrict (by linarith) (by linarith), ok_bind, one_compose hc hs, ok_bind]
  rfl

theorem one_simplify {v h : ℚ} (hh : phi ≤ h) : (one phi v h).simplify = .ok (one phi v h) := PL.new_ok (one_wf hh)

theorem one_arrival {c : ℚ} (hH : phi < H) : arrivalTime (one phi phi H) ⟨[phi], [c], 0, 0, (phi : WithBot ℚ), (H : WithTop ℚ)⟩ = .ok (one phi (phi + c) H) := by
  have hcw : PL.WF ⟨[phi], [c], 0, 0, (phi : WithBot ℚ), (H : WithTop ℚ)⟩ := ⟨rfl, by simp, by simp, by
    intro t ht
    have : t = phi := by simpa using ht
    subst this; exact ⟨le_refl _, WithTop.coe_le_coe.mpr hH.le⟩⟩
  have he := eps_pos
  have hce : PL.eval ⟨[phi], [c], 0, 0, (phi : WithBot ℚ), (H : WithTop ℚ)⟩ phi = .ok c := by
    rw [PL.eval_eq hcw ⟨le_refl _, WithTop.coe_le_coe.mpr hH.le⟩]
    rw [PL.fn_right hcw (by simp)]; simp
  have hmerge : mergeSorted [phi] [phi] = [phi] := by
    unfold mergeSorted
    rw [mergeSortedLoop, if_neg (lt_irrefl _)]
    simp [mergeSortedLoop, mergeTail, mergePush, eps_pos.le]
  have hplus : (one phi phi H).plus ⟨[phi], [c], 0, 0, (phi : WithBot ℚ), (H : WithTop ℚ)⟩ = .ok (one phi (phi + c) H) := by
    unfold PL.plus
    simp only [one, hmerge, max_self, min_self]
    rw [pyAssert_true (show PL.ltEnds (phi : WithBot ℚ) (H : WithTop ℚ) = true from decide_eq_true hH), ok_bind]
    have h1 : PL.cutLeft [phi] (phi : WithBot ℚ) = .ok [phi] := by
      show (if phi < phi then _ else _) = _
      rw [if_neg (lt_irrefl _)]; rfl
    have h2 : PL.cutRight [phi] (H : WithTop ℚ) = .ok [phi] := by
      show (if phi > H then _ else _) = _
      rw [if_neg (not_lt.mpr hH.le)]; rfl
    rw [h1, ok_bind, h2, ok_bind]
    have h3 := one_eval (v := phi) (le_refl phi) hH.le
    rw [sub_self, add_zero] at h3
    unfold one at h3
    simp only [List.mapM_cons, List.mapM_nil, h3, hce, ok_bind, bind_assoc]
    show PL.new [phi] [phi + c] (1 + 0) (1 + 0) (phi : WithBot ℚ) (H : WithTop ℚ) = _
    rw [add_zero]
    exact PL.new_ok (one_wf hH.le)
  unfold arrivalTime
  rw [hplus, ok_bind]
  have hf : fifoArrival (one phi (phi + c) H) = .ok (one phi (phi + c) H) := by
    unfold fifoArrival
    show (PL.new [phi] [phi + c] 1 1 (phi : WithBot ℚ) (H : WithTop ℚ) >>= _) = _
    rw [PL.new_ok (one_wf hH.le), ok_bind]
    show Except.ok (if (1 : ℚ) < 1 then _ else _) = _
    rw [if_neg (lt_irrefl _)]; rfl
  rw [hf, ok_bind, one_simplify hH.le]

theorem one_le {d d' : ℚ} (hd' : phi + d' < H) (h : d ≤ d') : (one phi (phi + d) (H - d)).smallerEquals (one phi (phi + d') (H - d')) = .ok true := by
  refine PL.smallerEquals_complete (one_wf (by linarith)) (one_wf (by linarith)) rfl rfl rfl (WithTop.coe_le_coe.mpr (by linarith)) (WithTop.coe_lt_coe.mpr (by show phi < _; linarith)) ?_
  intro t ht
  rw [one_fn (by linarith), one_fn (by linarith)]; linarith

theorem one_not_le {d d' : ℚ} (h : d' + 1000 * eps < d) : (one phi (phi + d) (H - d)).smallerEquals (one phi (phi + d') (H - d')) = .ok false := by
  unfold PL.smallerEquals
  show (do
    pyAssert ((phi : WithBot ℚ) = (phi : WithBot ℚ) ∧ (phi : WithBot ℚ) = (phi : WithBot ℚ) ∧ (phi : WithBot ℚ) = (phi : WithBot ℚ))
    if PL.endsBefore ((H - d : ℚ) : WithTop ℚ) ((H - d' : ℚ) : WithTop ℚ) = true then pure false
    else _) = _
  rw [pyAssert_true ⟨rfl, rfl, rfl⟩, ok_bind, if_pos (show PL.endsBefore ((H - d : ℚ) : WithTop ℚ) ((H - d' : ℚ) : WithTop ℚ) = true from decide_eq_true (by unfold PL.precision; linarith))]
  rfl

theorem one_outer {d d' : ℚ} (hd : phi + d < H) (h : d' + eps < d) : (one phi (phi + d) (H - d)).outerMinimum (one phi (phi + d') (H - d')) = .ok (one phi (phi + d') (H - d')) := by
  have he := eps_pos
  have hmin : (one phi (phi + d) (H - d)).minimum (one phi (phi + d') (H - d')) = .ok (one phi (phi + d') (H - d)) := by
    unfold PL.minimum
    have h1 : min (one phi (phi + d) (H - d)).hi (one phi (phi + d') (H - d')).hi = ((H - d : ℚ) : WithTop ℚ) := min_eq_left (WithTop.coe_le_coe.mpr (by linarith))
    have h2 : max (one phi (phi + d) (H - d)).lo (one phi (phi + d') (H - d')).lo = (phi : WithBot ℚ) := max_self _
    simp only [h1, h2]
    rw [pyAssert_true (show PL.endsLt (phi : WithBot ℚ) ((H - d : ℚ) : WithTop ℚ) = true from decide_eq_true (by linarith)), ok_bind]
    show (do
      pyAssert (phi ∈ [phi] ∨ phi ∈ [phi])
      let s ← PL.minStart (one phi (phi + d) (H - d)) (one phi (phi + d') (H - d')) phi
      let first := s.c.first
      let s ← PL.minLoop ((H - d : ℚ) : WithTop ℚ) 2 s
      let (ts, last) ← PL.minTail ((H - d : ℚ) : WithTop ℚ) s
      let vs ← PL.minValues (one phi (phi + d) (H - d)) (one phi (phi + d') (H - d')) ts
      PL.new ts vs first last phi ((H - d : ℚ) : WithTop ℚ)) = _
    have e1 : (one phi (phi + d) (H - d)).eval phi = .ok (phi + d) := by rw [one_eval (le_refl _) (by linarith), sub_self, add_zero]
    have e2 : (one phi (phi + d') (H - d')).eval phi = .ok (phi + d') := by rw [one_eval (le_refl _) (by linarith), sub_self, add_zero]
    have hst : PL.minStart (one phi (phi + d) (H - d)) (one phi (phi + d') (H - d')) phi = .ok ⟨one phi (phi + d') (H - d'), one phi (phi + d) (H - d), 0, 0, []⟩ := by
      unfold PL.minStart
      rw [e1, ok_bind, e2, ok_bind, if_neg (by linarith)]; rfl
    have hs1 : PL.minStep ((H - d : ℚ) : WithTop ℚ) ⟨one phi (phi + d') (H - d'), one phi (phi + d) (H - d), 0, 0, []⟩ =
        .ok (some ⟨one phi (phi + d') (H - d'), one phi (phi + d) (H - d), 0, 1, []⟩) := by
      unfold PL.minStep
      have hn : PL.nextIsOther (one phi (phi + d') (H - d')) (one phi (phi + d) (H - d)) 0 0 = .ok true := by
        show Except.ok (decide (phi ≤ phi)) = _
        rw [decide_eq_true (le_refl _)]
      simp only [hn, ok_bind, if_true]
      show (if (phi : WithTop ℚ) > ((H - d : ℚ) : WithTop ℚ) then _ else _) = _
      rw [if_neg (by rw [gt_iff_lt, not_lt]; exact WithTop.coe_le_coe.mpr (by linarith))]
      have hv : PL.nextValues (one phi (phi + d') (H - d')) (one phi (phi + d) (H - d)) 0 0 true phi = .ok (phi + d', phi + d) := by
        unfold PL.nextValues
        rw [if_pos rfl, e2, ok_bind]; rfl
      simp only [hv, ok_bind]
      rw [if_neg (by linarith)]; rfl
    have hs2 : PL.minStep ((H - d : ℚ) : WithTop ℚ) ⟨one phi (phi + d') (H - d'), one phi (phi + d) (H - d), 0, 1, []⟩ =
        .ok (some ⟨one phi (phi + d') (H - d'), one phi (phi + d) (H - d), 1, 1, [phi]⟩) := by
      unfold PL.minStep
      have hn : PL.nextIsOther (one phi (phi + d') (H - d')) (one phi (phi + d) (H - d)) 0 1 = .ok false := rfl
      simp only [hn, ok_bind, Bool.false_eq_true, if_false]
      show (if (phi : WithTop ℚ) > ((H - d : ℚ) : WithTop ℚ) then _ else _) = _
      rw [if_neg (by rw [gt_iff_lt, not_lt]; exact WithTop.coe_le_coe.mpr (by linarith))]
      have hv : PL.nextValues (one phi (phi + d') (H - d')) (one phi (phi + d) (H - d)) 0 1 false phi = .ok (phi + d', phi + d) := by
        unfold PL.nextValues
        rw [if_neg (by decide), e1, ok_bind]; rfl
      simp only [hv, ok_bind]
      rw [if_neg (by linarith)]; rfl
    have hloop : PL.minLoop ((H - d : ℚ) : WithTop ℚ) 2 ⟨one phi (phi + d') (H - d'), one phi (phi + d) (H - d), 0, 0, []⟩ =
        .ok ⟨one phi (phi + d') (H - d'), one phi (phi + d) (H - d), 1, 1, [phi]⟩ := by
      unfold PL.minLoop
      rw [if_pos (Or.inl (by show 0 < 1; omega)), hs1, ok_bind]
      show PL.minLoop ((H - d : ℚ) : WithTop ℚ) 1 _ = _
      unfold PL.minLoop
      rw [if_pos (Or.inl (by show 0 < 1; omega)), hs2, ok_bind]
      rfl
    have htail : PL.minTail ((H - d : ℚ) : WithTop ℚ) ⟨one phi (phi + d') (H - d'), one phi (phi + d) (H - d), 1, 1, [phi]⟩ = .ok ([phi], 1) := by
      unfold PL.minTail
      have hlast : PL.lastTime [phi] = .ok phi := rfl
      simp only [hlast, ok_bind]
      rw [if_pos (WithTop.coe_lt_coe.mpr (by linarith)), one_grad _ _ (Or.inr (by decide)), ok_bind, one_grad _ _ (Or.inr (by decide)), ok_bind, if_neg (by linarith)]
      rfl
    have hvals : PL.minValues (one phi (phi + d) (H - d)) (one phi (phi + d') (H - d')) [phi] = .ok [phi + d'] := by
      unfold PL.minValues
      rw [e1, ok_bind, e2, ok_bind]
      show Except.ok (min (phi + d) (phi + d') :: []) = _
      rw [min_eq_right (by linarith)]
    rw [pyAssert_true (by simp), ok_bind, hst, ok_bind]
    simp only [hloop, ok_bind, htail, hvals]
    exact PL.new_ok (one_wf (by linarith))
  unfold PL.outerMinimum
  rw [hmin, ok_bind]
  have hl : PL.outerLeft (one phi (phi + d) (H - d)) (one phi (phi + d') (H - d')) (one phi (phi + d') (H - d)) = .ok (one phi (phi + d') (H - d)) := by
    have hs : ¬ PL.startsLater (phi : WithBot ℚ) (phi : WithBot ℚ) = true := by
      show ¬ decide (phi > phi + eps) = true
      rw [decide_eq_true_eq]; linarith
    unfold PL.outerLeft
    show (if PL.startsLater (phi : WithBot ℚ) (phi : WithBot ℚ) = true then _ else if PL.startsLater (phi : WithBot ℚ) (phi : WithBot ℚ) = true then _ else pure _) = _
    rw [if_neg hs, if_neg hs]; rfl
  rw [hl, ok_bind]
  unfold PL.outerRight
  show (if PL.endsEarlier ((H - d : ℚ) : WithTop ℚ) ((H - d : ℚ) : WithTop ℚ) = true then _ else if PL.endsEarlier ((H - d : ℚ) : WithTop ℚ) ((H - d' : ℚ) : WithTop ℚ) = true then
    PL.rightExtend (one phi (phi + d') (H - d)) (one phi (phi + d') (H - d')) else _) = _
  rw [if_neg (by show ¬ decide (H - d < H - d - eps) = true; rw [decide_eq_true_eq]; linarith), if_pos (show PL.endsEarlier ((H - d : ℚ) : WithTop ℚ) ((H - d' : ℚ) : WithTop ℚ) = true from decide_eq_true (by linarith))]
  unfold PL.rightExtend
  rw [pyAssert_true (show PL.endsEarlier (one phi (phi + d') (H - d)).hi (one phi (phi + d') (H - d')).hi = true from decide_eq_true (by linarith)), ok_bind]
  show (do
    let rnk ← elemRank [phi] (H - d)
    if (rnk + 1).toNat ≥ 1 then PL.new [phi] [phi + d'] 1 1 (phi : WithBot ℚ) ((H - d' : ℚ) : WithTop ℚ)
    else _) = _
  rw [rank_one, if_pos (by linarith), ok_bind, if_pos (by decide)]
  exact PL.new_ok (one_wf (by linarith))

variable {g : Graph} {nodes : List Nat} {sink : Nat} {c : Nat → ℚ}

theorem ride_shift {k v : Nat} {t y : ℚ} (h : Ride g (fun e t => t + c e) nodes sink k v t y) (s : ℚ) : Ride g (fun e t => t + c e) nodes sink k v (t + s) (y + s) := by
  induction h with
  | here t => exact .here _
  | drive e he hv _ ih =>
    refine .drive e he hv ?_
    have e1 : ∀ t : ℚ, t + c e + s = t + s + c e := fun t => by ring
    rw [e1] at ih
    exact ih

theorem one_arrivals (hH : phi < H) : ∀ cs : List ℚ, arrivalTimes (one phi phi H) (cs.map (fun c => ⟨[phi], [c], 0, 0, (phi : WithBot ℚ), (H : WithTop ℚ)⟩)) = .ok (cs.map (fun c => one phi (phi + c) H)) := by
  intro cs
  induction cs with
  | nil => rfl
  | cons c cs ih => rw [List.map_cons, arrivalTimes, one_arrival hH, ok_bind, ih, ok_bind]; rfl

/-- The search with constant costs up to a finite horizon. -/
theorem search_const (hg : ∀ w ∈ sink :: nodes, g.incoming w = g.edges.filter (fun r => g.nodeTo r = w)) {costs : List PL} {fuel : Nat}
    (hH : phi < H) (hc : ∀ e ∈ g.edges, 0 ≤ c e) (cs : List ℚ) (hcs : costs = cs.map (fun x => ⟨[phi], [x], 0, 0, (phi : WithBot ℚ), (H : WithTop ℚ)⟩))
    (hid : ∀ e ∈ g.edges, cs[(g.edge e).id]? = some (c e)) (hfuel : (sink :: nodes).toFinset.card + 1 ≤ fuel)
    (hclear : ClearTrips g (fun e t => t + c e) nodes sink phi H (sink :: nodes).toFinset.card) :
    ∃ labels, bellmanFord fuel g sink costs nodes phi (H : WithTop ℚ) = .ok labels ∧
      ∀ v, (labels v = none ∧ ∀ y, ¬ GetsTo g (fun e t => t + c e) nodes sink v phi y) ∨
        ∃ d, 0 ≤ d ∧ phi + d + eps < H ∧ labels v = some (one phi (phi + d) (H - d)) ∧ GetsTo g (fun e t => t + c e) nodes sink v phi (phi + d) ∧
          ∀ y, GetsTo g (fun e t => t + c e) nodes sink v phi y → phi + d ≤ y := by
  have he := eps_pos
  subst hcs
  obtain ⟨q, hq, _⟩ := Heap.rep_single sink (0 : ℚ)
  set N := (sink :: nodes).toFinset.card with hN
  have hNp : 0 < N := Finset.card_pos.mpr ⟨sink, by simp⟩
  have hfifo : Fifo g phi (fun e t => t + c e) := ⟨fun e h t _ => by have := hc e h; show t ≤ t + c e; linarith, fun e h s t _ hst => by show s + c e ≤ t + c e; linarith⟩
  let K : PL → (ℚ → WithTop ℚ) → Prop := fun p φ => ∃ d, 0 ≤ d ∧ phi + d < H ∧ p = one phi (phi + d) (H - d) ∧ ∀ t : ℚ, φ t = if t + d ≤ H then ((t + d : ℚ) : WithTop ℚ) else ⊤
  have at0 : ∀ {n v : Nat} {φ : ℚ → WithTop ℚ} {d : ℚ}, phi + d < H → (∀ t : ℚ, φ t = if t + d ≤ H then ((t + d : ℚ) : WithTop ℚ) else ⊤) →
      Short g (fun e t => t + c e) nodes sink phi (H : WithTop ℚ) n v φ → ∃ k, k ≤ n ∧ Ride g (fun e t => t + c e) nodes sink k v phi (phi + d) := by
    intro n v φ d hd hφ hsh
    obtain ⟨_, l, l1, l2⟩ := hsh phi (phi + d) (le_refl _) (by rw [hφ, if_pos hd.le])
    exact ⟨_, l1, l2.ride⟩
  have ops : Ops g (cs.map (fun c => one phi (phi + c) H)) nodes sink phi (H : WithTop ℚ) (fun e t => t + c e) N K K := by
    refine ⟨?_, ?_, ?_, ?_, ?_⟩
    · rintro p φ e ⟨d, d0, d1, rfl, hφ⟩ hE hv hsh
      obtain ⟨k, k1, k2⟩ := at0 d1 hφ hsh
      have k3 := ride_shift k2 (c e)
      have h1 := hclear.before (k + 1) _ _ (by omega) (.drive e hE hv k3)
      refine ⟨one phi (phi + c e) H, one phi (phi + (d + c e)) (H - (d + c e)), rd_eq_ok.mpr (by rw [List.getElem?_map, hid e hE]; rfl), one_relaxation (hc e hE) d0 (by linarith),
        d + c e, by have := hc e hE; linarith, by linarith, rfl, fun t => ?_⟩
      show φ (t + c e) = _
      rw [hφ]
      have e1 : t + c e + d = t + (d + c e) := by ring
      rw [e1]
    · rintro v p φ ⟨d, d0, d1, rfl, hφ⟩ _
      exact ⟨_, one_simplify (by linarith), d, d0, d1, rfl, hφ⟩
    · rintro v p φ h ψ ⟨d, d0, d1, rfl, hφ⟩ ⟨d', d0', d1', rfl, hψ⟩ s1 s2
      obtain ⟨k, k1, k2⟩ := at0 d1 hφ s1
      obtain ⟨l, l1, l2⟩ := at0 d1' hψ s2
      by_cases hle : d ≤ d'
      · refine ⟨true, one_le d1' hle, ⟨fun _ t _ => ?_, fun _ => rfl⟩⟩
        rw [hφ, hψ]
        by_cases h : t + d' ≤ H
        · rw [if_pos h, if_pos (by linarith)]; exact WithTop.coe_le_coe.mpr (by linarith)
        · rw [if_neg h]; exact le_top
      · refine ⟨false, one_not_le ?_, ⟨fun h => absurd h (by decide), fun h => ?_⟩⟩
        · rcases hclear.apart k l v _ _ (by omega) l1 k2 l2 with h | h
          · linarith
          · rw [abs_of_pos (by linarith)] at h; linarith
        · have := h phi (le_refl _)
          rw [hφ, hψ, if_pos d1.le, if_pos d1'.le] at this
          have := WithTop.coe_le_coe.mp this
          linarith
    · rintro v p φ h ψ ⟨d, d0, d1, rfl, hφ⟩ ⟨d', d0', d1', rfl, hψ⟩ s1 s2 hn
      obtain ⟨k, k1, k2⟩ := at0 d1 hφ s1
      obtain ⟨l, l1, l2⟩ := at0 d1' hψ s2
      have hlt : d' < d := by
        by_contra hcon
        rw [not_lt] at hcon
        refine hn (fun t _ => ?_)
        rw [hφ, hψ]
        by_cases h : t + d' ≤ H
        · rw [if_pos h, if_pos (by linarith)]; exact WithTop.coe_le_coe.mpr (by linarith)
        · rw [if_neg h]; exact le_top
      have hgap : d' + eps < d := by
        rcases hclear.apart k l v _ _ (by omega) l1 k2 l2 with h | h
        · linarith
        · rw [abs_of_pos (by linarith)] at h; linarith
      refine ⟨_, one_outer d1 hgap, d', d0', d1', rfl, fun t => ?_⟩
      show min (φ t) (ψ t) = _
      rw [← hψ]
      refine min_eq_right ?_
      rw [hφ, hψ]
      by_cases h : t + d ≤ H
      · rw [if_pos h, if_pos (by linarith)]; exact WithTop.coe_le_coe.mpr (by linarith)
      · rw [if_neg h]; exact le_top
    · rintro h φ ⟨d, d0, d1, rfl, hφ⟩
      rw [hφ, if_pos d1.le]
      exact WithTop.coe_ne_top
  have hK : K (one phi phi H) (fun (t : ℚ) => if (t : WithTop ℚ) ≤ (H : WithTop ℚ) then (t : WithTop ℚ) else ⊤) := by
    refine ⟨0, le_refl _, by linarith, by rw [add_zero, sub_zero], fun t => ?_⟩
    show (if (t : WithTop ℚ) ≤ (H : WithTop ℚ) then (t : WithTop ℚ) else ⊤) = _
    rw [add_zero]
    by_cases h : t ≤ H
    · rw [if_pos h, if_pos (WithTop.coe_le_coe.mpr h)]
    · rw [if_neg h, if_neg (fun h' => h (WithTop.coe_le_coe.mp h'))]
  obtain ⟨labels, l1, l2⟩ := search_ok ops hfifo rfl hg hK hq hfuel
  have hshort : ∀ v y, GetsTo g (fun e t => t + c e) nodes sink v phi y → ∃ y', y' ≤ y ∧ y' < H ∧ GetsTo g (fun e t => t + c e) nodes sink v phi y' := by
    intro v y hy
    obtain ⟨l, hl⟩ := gets_trip hy
    obtain ⟨l', y', a1, a2, a3⟩ := hl.short hfifo (le_refl _)
    exact ⟨y', a1, by have := hclear.before _ _ _ (by omega) a2.ride; linarith, a2.gets⟩
  refine ⟨labels, ?_, fun v => ?_⟩
  · unfold bellmanFord identity
    have hnew : PL.new [phi] [phi] 1 1 (phi : WithBot ℚ) (H : WithTop ℚ) = .ok (one phi phi H) := PL.new_ok (one_wf hH.le)
    rw [hnew, ok_bind]
    show (arrivalTimes (one phi phi H) _ >>= _) = _
    rw [one_arrivals hH, ok_bind, hq, ok_bind]
    exact l1
  · rcases l2 v with ⟨a1, a2⟩ | ⟨p, φ, a1, ⟨d, d0, d1, rfl, hφ⟩, a4⟩
    · refine Or.inl ⟨a1, fun y hy => ?_⟩
      obtain ⟨y', b1, b2, b3⟩ := hshort v y hy
      exact a2 phi y' (le_refl _) (WithTop.coe_le_coe.mpr b2.le) b3
    · have hgets := ((a4 phi (le_refl _)).1 (phi + d) (by rw [hφ, if_pos d1.le])).2
      have hmin : ∀ y, GetsTo g (fun e t => t + c e) nodes sink v phi y → phi + d ≤ y := by
        intro y hy
        obtain ⟨y', b1, b2, b3⟩ := hshort v y hy
        have := (a4 phi (le_refl _)).2 y' b3 (WithTop.coe_le_coe.mpr b2.le)
        rw [hφ, if_pos d1.le] at this
        have := WithTop.coe_le_coe.mp this
        linarith
      refine Or.inr ⟨d, d0, ?_, a1, hgets, hmin⟩
      obtain ⟨l, hl⟩ := gets_trip hgets
      obtain ⟨l', y', a1, a2, a3⟩ := hl.short hfifo (le_refl _)
      have h1 := hclear.before _ _ _ (by omega) a2.ride
      have h2 := hmin y' a2.gets
      linarith

end BF
end Verif
