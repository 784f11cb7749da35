import Verif.Proofs.PLPiece

/-! Monotone piecewise linear functions: `min_t_above`, `max_t_below`, `ensure_monotone`. -/

set_option linter.unusedSimpArgs false
set_option linter.unusedSectionVars false

namespace Verif
namespace PL

theorem isMonotone_go_iff (l : List ℚ) : isMonotone.go l = true ↔ l.Pairwise (· ≤ ·) := by
  induction l with
  | nil => simp [isMonotone.go]
  | cons a l ih =>
    cases l with
    | nil => simp [isMonotone.go]
    | cons b l =>
      rw [isMonotone.go, Bool.and_eq_true, ih, decide_eq_true_eq]
      constructor
      · rintro ⟨h1, h2⟩
        rw [List.pairwise_cons]
        refine ⟨?_, h2⟩
        intro c hc
        rcases List.mem_cons.mp hc with rfl | hc
        · exact h1
        · exact le_trans h1 ((List.pairwise_cons.mp h2).1 c hc)
      · intro h
        rw [List.pairwise_cons] at h
        exact ⟨h.1 b (by simp), h.2⟩

theorem isMonotone_iff (f : PL) : f.isMonotone = true ↔ f.values.Pairwise (· ≤ ·) := isMonotone_go_iff _

/-- Non-decreasing on the domain. -/
def MonoOn (f : PL) : Prop := ∀ x y, f.inDom x → f.inDom y → x ≤ y → f.fn x ≤ f.fn y

theorem MonoOn.values {f : PL} (h : f.WF) (hm : f.MonoOn) : f.values.Pairwise (· ≤ ·) := by
  rw [List.pairwise_iff_getElem]
  intro i j hi hj hij
  have hvl := h.len
  have := hm _ _ (h.dom _ (List.getElem_mem (show i < f.times.length by omega)))
    (h.dom _ (List.getElem_mem (show j < f.times.length by omega)))
    (le_of_lt (getElem_lt_of h.lt hij _))
  rwa [fn_time h, fn_time h] at this

theorem inDom_between {f : PL} {a b x : ℚ} (ha : f.inDom a) (hb : f.inDom b) (h1 : a ≤ x) (h2 : x ≤ b) : f.inDom x :=
  ⟨le_trans ha.1 (WithBot.coe_le_coe.mpr h1), le_trans (WithTop.coe_le_coe.mpr h2) hb.2⟩

theorem evalHi_coe {f : PL} (h : f.WF) {d : ℚ} (hd : f.hi = d) (hin : f.inDom d) :
    f.evalHi = .ok (EVal.fin (f.fn d)) := by
  unfold evalHi
  rw [hd]
  show (do let v ← f.eval d; pure (EVal.fin v) : Py EVal) = _
  rw [eval_eq h hin, ok_bind]; rfl

theorem evalHi_top {f : PL} (h : f.WF) (hd : f.hi = ⊤) :
    f.evalHi = .ok (if f.last = 0 then EVal.fin (f.values.getLast h.vne) else if f.last > 0 then ⊤ else ⊥) := by
  unfold evalHi
  rw [hd]
  show (do let vl ← rdLast f.values; if f.last = 0 then pure (EVal.fin vl) else if f.last > 0 then pure ⊤ else pure ⊥ : Py EVal) = _
  rw [rdLast_eq _ h.vne, ok_bind]
  split_ifs <;> rfl

theorem evalLo_coe {f : PL} (h : f.WF) {d : ℚ} (hd : f.lo = d) (hin : f.inDom d) :
    f.evalLo = .ok (EVal.fin (f.fn d)) := by
  unfold evalLo
  rw [hd]
  show (do let v ← f.eval d; pure (EVal.fin v) : Py EVal) = _
  rw [eval_eq h hin, ok_bind]; rfl

theorem evalLo_bot {f : PL} (h : f.WF) (hd : f.lo = ⊥) :
    f.evalLo = .ok (if f.first = 0 then EVal.fin (f.values[0]'(by rw [h.len]; exact h.pos)) else if f.first > 0 then ⊥ else ⊤) := by
  have := h.len
  have := h.pos
  unfold evalLo
  rw [hd]
  show (do let vl ← rd f.values 0; if f.first = 0 then pure (EVal.fin vl) else if f.first > 0 then pure ⊥ else pure ⊤ : Py EVal) = _
  rw [rd_lt _ _ (by omega), ok_bind]
  split_ifs <;> rfl

theorem fin_le {a b : ℚ} : EVal.fin a ≤ EVal.fin b ↔ a ≤ b := by
  unfold EVal.fin
  rw [WithBot.coe_le_coe, WithTop.coe_le_coe]

theorem fin_lt {a b : ℚ} : EVal.fin a < EVal.fin b ↔ a < b := by
  unfold EVal.fin
  rw [WithBot.coe_lt_coe, WithTop.coe_lt_coe]

theorem fin_le_top (a : ℚ) : EVal.fin a ≤ ⊤ := le_top
theorem bot_le_fin (a : ℚ) : ⊥ ≤ EVal.fin a := bot_le
theorem not_fin_le_bot (a : ℚ) : ¬ EVal.fin a ≤ ⊥ := by simp [EVal.fin]
theorem not_top_le_fin (a : ℚ) : ¬ (⊤ : EVal) ≤ EVal.fin a := by
  unfold EVal.fin
  intro h
  have h' : (((⊤ : WithTop ℚ) : WithBot (WithTop ℚ))) ≤ ((a : WithTop ℚ) : WithBot (WithTop ℚ)) := h
  rw [WithBot.coe_le_coe] at h'
  exact absurd h' (by simp)

/-- What the value at the right end says. -/
theorem evalHi_spec {f : PL} (h : f.WF) (hm : f.MonoOn) (b : ℚ) :
    ∃ top, f.evalHi = .ok top ∧ ((∃ t, f.inDom t ∧ b ≤ f.fn t) → EVal.fin b ≤ top) ∧
      (top ≤ EVal.fin b → ∀ t, f.inDom t → f.fn t ≤ b) ∧
      (b < f.values.getLast h.vne → EVal.fin b < top) ∧
      (EVal.fin b ≤ top → f.values.getLast h.vne < b → 0 < f.last ∧
        ∀ t, f.times.getLast h.ne ≤ t → f.fn t ≤ b → f.inDom t) ∧
      (¬ top ≤ EVal.fin b → f.values.getLast h.vne ≤ b → 0 < f.last ∧
        ∀ t, f.times.getLast h.ne ≤ t → f.fn t ≤ b → f.inDom t) := by
  have hld := h.dom _ (List.getLast_mem h.ne)
  have hll : f.fn (f.times.getLast h.ne) = f.values.getLast h.vne := by
    rw [fn_right h le_rfl]; ring
  cases e : f.hi with
  | coe d =>
    have hdd : f.inDom d := by
      refine ⟨le_trans hld.1 (WithBot.coe_le_coe.mpr ?_), by rw [e]⟩
      have := hld.2; rw [e, WithTop.coe_le_coe] at this; exact this
    have hld2 : f.times.getLast h.ne ≤ d := by
      have := hld.2; rw [e, WithTop.coe_le_coe] at this; exact this
    have hmax : ∀ t, f.inDom t → f.fn t ≤ f.fn d := by
      intro t ht
      refine hm t d ht hdd ?_
      have := ht.2; rw [e, WithTop.coe_le_coe] at this; exact this
    have hfd : f.fn d = f.values.getLast h.vne + (d - f.times.getLast h.ne) * f.last := fn_right h hld2
    have fin : ∀ c, f.values.getLast h.vne < c → c ≤ f.fn d → 0 < f.last := by
      intro c h1 h2
      by_contra hc
      have : (d - f.times.getLast h.ne) * f.last ≤ 0 :=
        mul_nonpos_of_nonneg_of_nonpos (by linarith) (not_lt.mp hc)
      linarith
    have rng : 0 < f.last → b ≤ f.fn d → ∀ t, f.times.getLast h.ne ≤ t → f.fn t ≤ b → f.inDom t := by
      intro hpos hbd t ht htb
      refine inDom_between hld hdd ht ?_
      by_contra hc
      rw [fn_right_aff h (x := t) (y := d) (fun s hs => le_trans (le_getLast h.lt h.ne hs) ht)
        (fun s hs => le_trans (le_getLast h.lt h.ne hs) hld2)] at htb
      have : 0 < f.last * (t - d) := mul_pos hpos (by linarith [not_le.mp hc])
      linarith
    refine ⟨_, evalHi_coe h e hdd, ?_, ?_, ?_, ?_, ?_⟩
    · rintro ⟨t, ht, hb⟩
      rw [fin_le]; exact le_trans hb (hmax t ht)
    · intro hb t ht
      rw [fin_le] at hb
      exact le_trans (hmax t ht) hb
    · intro hb
      rw [fin_lt]
      have := hmax _ hld
      rw [hll] at this; linarith
    · intro hb hv
      rw [fin_le] at hb
      have := fin b hv hb
      exact ⟨this, rng this hb⟩
    · intro hb hv
      rw [fin_le, not_le] at hb
      have := fin (f.fn d) (by linarith) le_rfl
      exact ⟨this, rng this (le_of_lt hb)⟩
  | top =>
    have hdr : ∀ t, f.times.getLast h.ne ≤ t → f.inDom t := by
      intro t ht
      exact ⟨le_trans hld.1 (WithBot.coe_le_coe.mpr ht), by rw [e]; exact le_top⟩
    have hnn : 0 ≤ f.last := by
      have h1 := hm _ (f.times.getLast h.ne + 1) hld (hdr _ (by linarith)) (by linarith)
      rw [fn_right h le_rfl, fn_right h (x := f.times.getLast h.ne + 1) (by linarith)] at h1
      linarith
    refine ⟨_, evalHi_top h e, ?_⟩
    by_cases h0 : f.last = 0
    · rw [if_pos h0]
      have hmax : ∀ t, f.inDom t → f.fn t ≤ f.values.getLast h.vne := by
        intro t ht
        by_cases c : f.times.getLast h.ne ≤ t
        · rw [fn_right h c, h0]; linarith
        · rw [← hll]; exact hm _ _ ht hld (le_of_lt (not_le.mp c))
      refine ⟨?_, ?_, ?_, ?_, ?_⟩
      · rintro ⟨t, ht, hb⟩; rw [fin_le]; exact le_trans hb (hmax t ht)
      · intro hb t ht; rw [fin_le] at hb; exact le_trans (hmax t ht) hb
      · intro hb; rw [fin_lt]; exact hb
      · intro hb hv; rw [fin_le] at hb; exact absurd hv (not_lt.mpr hb)
      · intro hb hv; rw [fin_le] at hb; exact absurd hv hb
    · have hpos : 0 < f.last := lt_of_le_of_ne hnn (Ne.symm h0)
      rw [if_neg h0, if_pos hpos]
      refine ⟨fun _ => fin_le_top _, fun hb => absurd hb (not_top_le_fin b), ?_, ?_, ?_⟩
      · intro _; exact lt_of_le_not_ge (fin_le_top _) (not_top_le_fin b)
      · intro _ _; exact ⟨hpos, fun t ht _ => hdr t ht⟩
      · intro _ _; exact ⟨hpos, fun t ht _ => hdr t ht⟩

theorem maxLo_le {f : PL} {x y : ℚ} (hy : f.inDom y) : maxLo f.lo x ≤ y ↔ x ≤ y := by
  cases e : f.lo with
  | bot => rfl
  | coe d =>
    have hd := hy.1
    rw [e, WithBot.coe_le_coe] at hd
    show max d x ≤ y ↔ x ≤ y
    rw [max_le_iff]; tauto

theorem le_maxLo (lo : WithBot ℚ) (x : ℚ) : x ≤ maxLo lo x := by
  cases lo with
  | bot => exact le_rfl
  | coe d => exact le_max_right _ _

theorem lo_le_maxLo (lo : WithBot ℚ) (x : ℚ) : lo ≤ (maxLo lo x : WithBot ℚ) := by
  cases lo with
  | bot => exact bot_le
  | coe d => exact WithBot.coe_le_coe.mpr (le_max_left _ _)

theorem maxLo_of_mem {f : PL} {x : ℚ} (hx : f.inDom x) : maxLo f.lo x = x :=
  le_antisymm ((maxLo_le hx).mpr le_rfl) (le_maxLo _ _)

theorem minTAbove_spec {f : PL} (h : f.WF) (hm : f.MonoOn) {b : ℚ} (hex : ∃ t, f.inDom t ∧ b ≤ f.fn t)
    (hfl : f.values[0]'(by rw [h.len]; exact h.pos) < b ∨ 0 < f.first) :
    ∃ r, f.minTAbove b = .ok r ∧ f.inDom r ∧ b ≤ f.fn r ∧ ∀ t, f.inDom t → b ≤ f.fn t → r ≤ t := by
  have hvm := hm.values h
  have hvl := h.len
  have hp := h.pos
  obtain ⟨top, htop, ht1, -, -, ht4, -⟩ := evalHi_spec h hm b
  unfold minTAbove
  rw [pyAssert_true ((isMonotone_iff f).mpr hvm), ok_bind, htop, ok_bind, pyAssert_true (ht1 hex), ok_bind,
    elemRank_eq hvm h.vne, ok_bind]
  have key := fun i hi => lt_countP_lt_iff hvm b i hi
  have hc : f.values.countP (· < b) ≤ f.values.length := List.countP_le_length
  generalize hcc : f.values.countP (· < b) = c at *
  by_cases c0 : c = 0
  · subst c0
    have hb0 : b ≤ f.values[0] := by rw [← not_lt, ← key 0 (by omega)]; omega
    have hfpos : 0 < f.first := by rcases hfl with e | e <;> [(exfalso; linarith); exact e]
    have hinv := inverse_first_ok h (x := b) (Or.inl ⟨hfpos, hb0⟩)
    obtain ⟨-, hle, hval, -⟩ := inverse_first h hinv
    generalize hT : f.times[0] + (b - f.values[0]) / f.first = T at *
    have e1 : (((0 : Nat) : Int) - 1) = -1 := by omega
    rw [e1, hinv, ok_bind, py_pure]
    have hd0 := h.dom _ (List.getElem_mem hp)
    have hrle : maxLo f.lo T ≤ f.times[0] := (maxLo_le hd0).mpr hle
    refine ⟨_, rfl, ⟨lo_le_maxLo _ _, le_trans (WithTop.coe_le_coe.mpr hrle) hd0.2⟩, ?_, ?_⟩
    · rw [fn_left h hp hrle]
      rw [fn_left h hp hle] at hval
      have := mul_le_mul_of_nonneg_right (sub_le_sub_right (le_maxLo f.lo T) f.times[0]) (le_of_lt hfpos)
      linarith
    · intro t ht hbt
      rw [maxLo_le ht]
      by_contra hcon
      have hlt := not_le.mp hcon
      rw [fn_left h hp (by linarith)] at hbt
      rw [fn_left h hp hle] at hval
      have := mul_lt_mul_of_pos_right (sub_lt_sub_right hlt f.times[0]) hfpos
      linarith
  · by_cases cl : c = f.values.length
    · have hvb : f.values.getLast h.vne < b := by
        rw [getLast_idx h.vne (f.values.length - 1) (by omega) (by omega), ← key _ (by omega)]; omega
      obtain ⟨hlpos, hin⟩ := ht4 (ht1 hex) hvb
      have hv0 : f.values[0] ≤ b := le_of_lt (by rw [← key 0 (by omega)]; omega)
      have hinv := inverse_last_ok h (x := b) (Or.inl ⟨hlpos, hv0⟩)
      have hge : f.times.getLast h.ne ≤ f.times.getLast h.ne + (b - f.values.getLast h.vne) / f.last := by
        have := div_nonneg (a := b - f.values.getLast h.vne) (by linarith) (le_of_lt hlpos); linarith
      have hval : f.fn (f.times.getLast h.ne + (b - f.values.getLast h.vne) / f.last) = b := by
        rw [fn_right h hge]; field_simp; ring
      generalize f.times.getLast h.ne + (b - f.values.getLast h.vne) / f.last = T at *
      have e1 : ((c : Int) - 1) = (f.times.length : Int) - 1 := by omega
      rw [e1, hinv, ok_bind, py_pure]
      have hTin := hin T hge (by rw [hval])
      rw [maxLo_of_mem hTin]
      refine ⟨_, rfl, hTin, by rw [hval], ?_⟩
      intro t ht hbt
      by_contra hcon
      have hlt := not_le.mp hcon
      by_cases ct : f.times.getLast h.ne ≤ t
      · rw [fn_right h ct] at hbt
        rw [fn_right h hge] at hval
        have := mul_lt_mul_of_pos_right (sub_lt_sub_right hlt (f.times.getLast h.ne)) hlpos
        linarith
      · have hld := h.dom _ (List.getLast_mem h.ne)
        have := hm t _ ht hld (le_of_lt (not_le.mp ct))
        rw [fn_right h (x := f.times.getLast h.ne) le_rfl] at this
        linarith
    · obtain ⟨i, rfl⟩ : ∃ i, c = i + 1 := ⟨c - 1, by omega⟩
      have hi : i + 1 < f.times.length := by omega
      have h1 : f.values[i] < b := by rw [← key i (by omega)]; omega
      have h2 : b ≤ f.values[i + 1] := by rw [← not_lt, ← key (i + 1) (by omega)]; omega
      obtain ⟨T, hT⟩ := inverse_mid_ok h i hi (lt_of_lt_of_le h1 h2) (le_of_lt h1) h2
      obtain ⟨g1, g2, hval, -⟩ := inverse_mid h i hi hT
      have e1 : (((i + 1 : Nat) : Int) - 1) = (i : Int) := by omega
      have hdi := h.dom _ (List.getElem_mem (show i < f.times.length by omega))
      have hTin : f.inDom T := inDom_between hdi (h.dom _ (List.getElem_mem hi)) g1 g2
      rw [e1, hT, ok_bind, py_pure, maxLo_of_mem hTin]
      refine ⟨_, rfl, hTin, by rw [hval], ?_⟩
      intro t ht hbt
      by_contra hcon
      have hlt := not_le.mp hcon
      by_cases ct : f.times[i] ≤ t
      · rw [fn_mid h i hi ct (by linarith)] at hbt
        rw [fn_mid h i hi g1 g2] at hval
        have hpos : 0 < (f.values[i + 1] - f.values[i]) / (f.times[i + 1] - f.times[i]) :=
          div_pos (by linarith) (by linarith [getElem_lt_of h.lt (show i < i + 1 by omega) hi])
        have := mul_lt_mul_of_pos_right (sub_lt_sub_right hlt f.times[i]) hpos
        linarith
      · have := hm t _ ht hdi (le_of_lt (not_le.mp ct))
        rw [fn_time h i (by omega)] at this
        linarith

theorem firstAbove_spec (b : ℚ) (l : List ℚ) (j : Int) :
    (firstAbove b l j = none → ∀ v ∈ l, v ≤ b) ∧
    (∀ r, firstAbove b l j = some r → ∃ i, ∃ hi : i < l.length, r = j + i - 1 ∧ b < l[i] ∧ ∀ k, (hk : k < i) → l[k] ≤ b) := by
  induction l generalizing j with
  | nil => simp [firstAbove]
  | cons v l ih =>
    unfold firstAbove
    by_cases h : v > b
    · rw [if_pos h]
      refine ⟨by simp, ?_⟩
      rintro r ⟨⟩
      exact ⟨0, by simp, by simp, h, by simp⟩
    · rw [if_neg h]
      obtain ⟨h1, h2⟩ := ih (j + 1)
      refine ⟨?_, ?_⟩
      · intro e w hw
        rcases List.mem_cons.mp hw with rfl | hw
        · exact not_lt.mp h
        · exact h1 e w hw
      · intro r e
        obtain ⟨i, hi, a, b', c⟩ := h2 r e
        refine ⟨i + 1, by simp; omega, by omega, by simpa using b', ?_⟩
        intro k hk
        cases k with
        | zero => exact not_lt.mp h
        | succ k => simpa using c k (by omega)

/-- What the value at the left end says. -/
theorem evalLo_spec {f : PL} (h : f.WF) (hm : f.MonoOn) (b : ℚ) :
    ∃ bot, f.evalLo = .ok bot ∧ ((∃ t, f.inDom t ∧ f.fn t ≤ b) → bot ≤ EVal.fin b) ∧
      (bot ≤ EVal.fin b → b < f.values[0]'(by rw [h.len]; exact h.pos) → 0 < f.first ∧
        ∀ t, t ≤ f.times[0]'h.pos → b ≤ f.fn t → f.inDom t) ∧
      (EVal.fin b < bot → ∀ t, f.inDom t → b < f.fn t) := by
  have hp := h.pos
  have hvl := h.len
  have hfd0 := h.dom _ (List.getElem_mem hp)
  have hll : f.fn f.times[0] = f.values[0] := fn_time h 0 hp
  cases e : f.lo with
  | coe d =>
    have hd0 : d ≤ f.times[0] := by
      have := hfd0.1; rw [e, WithBot.coe_le_coe] at this; exact this
    have hdd : f.inDom d := ⟨by rw [e], le_trans (WithTop.coe_le_coe.mpr hd0) hfd0.2⟩
    have hmin : ∀ t, f.inDom t → f.fn d ≤ f.fn t := by
      intro t ht
      refine hm d t hdd ht ?_
      have := ht.1; rw [e, WithBot.coe_le_coe] at this; exact this
    refine ⟨_, evalLo_coe h e hdd, ?_, ?_, ?_⟩
    · rintro ⟨t, ht, hb⟩
      rw [fin_le]; exact le_trans (hmin t ht) hb
    · intro hb hv
      rw [fin_le] at hb
      have hfd := fn_left h hp hd0
      have hpos : 0 < f.first := by
        by_contra hc
        have : 0 ≤ (d - f.times[0]) * f.first := mul_nonneg_of_nonpos_of_nonpos (by linarith) (not_lt.mp hc)
        linarith
      refine ⟨hpos, ?_⟩
      intro t ht htb
      refine inDom_between hdd hfd0 ?_ ht
      by_contra hc
      rw [fn_left h hp ht] at htb
      have := mul_lt_mul_of_pos_right (sub_lt_sub_right (not_le.mp hc) f.times[0]) hpos
      linarith
    · intro hb t ht
      rw [fin_lt] at hb
      exact lt_of_lt_of_le hb (hmin t ht)
  | bot =>
    have hdl : ∀ t, t ≤ f.times[0] → f.inDom t := fun t ht =>
      ⟨by rw [e]; exact bot_le, le_trans (WithTop.coe_le_coe.mpr ht) hfd0.2⟩
    have hnn : 0 ≤ f.first := by
      have h1 := hm (f.times[0] - 1) _ (hdl _ (by linarith)) hfd0 (by linarith)
      rw [fn_left h hp le_rfl, fn_left h hp (x := f.times[0] - 1) (by linarith)] at h1
      linarith
    refine ⟨_, evalLo_bot h e, ?_⟩
    by_cases h0 : f.first = 0
    · rw [if_pos h0]
      have hmin : ∀ t, f.inDom t → f.values[0] ≤ f.fn t := by
        intro t ht
        by_cases c : t ≤ f.times[0]
        · rw [fn_left h hp c, h0]; linarith
        · rw [← hll]; exact hm _ _ hfd0 ht (le_of_lt (not_le.mp c))
      refine ⟨?_, ?_, ?_⟩
      · rintro ⟨t, ht, hb⟩; rw [fin_le]; exact le_trans (hmin t ht) hb
      · intro hb hv; rw [fin_le] at hb; exact absurd hv (not_lt.mpr hb)
      · intro hb t ht; rw [fin_lt] at hb; exact lt_of_lt_of_le hb (hmin t ht)
    · have hpos : 0 < f.first := lt_of_le_of_ne hnn (Ne.symm h0)
      rw [if_neg h0, if_pos hpos]
      refine ⟨fun _ => bot_le_fin _, fun _ _ => ⟨hpos, fun t ht _ => hdl t ht⟩, ?_⟩
      intro hb; exact absurd hb (not_lt.mpr (bot_le_fin b))

/-- `r` is the greatest point of the domain where `f ≤ b` (infinite if `f ≤ b` on an unbounded domain). -/
def IsMaxBelow (f : PL) (b : ℚ) (r : WithTop ℚ) : Prop :=
  (∀ q : ℚ, r = q → f.inDom q ∧ f.fn q ≤ b) ∧ (r = ⊤ → f.hi = ⊤) ∧
  ∀ t, f.inDom t → (f.fn t ≤ b ↔ (t : WithTop ℚ) ≤ r)

theorem maxTBelow_spec {f : PL} (h : f.WF) (hm : f.MonoOn) {b : ℚ} (dflt : Option ℚ)
    (hex : ∃ t, f.inDom t ∧ f.fn t ≤ b) :
    ∃ r, f.maxTBelow b dflt = .ok (some r) ∧ IsMaxBelow f b r := by
  have hvm := hm.values h
  have hvl := h.len
  have hp := h.pos
  obtain ⟨bot, hbot, hb1, hb2, -⟩ := evalLo_spec h hm b
  have hbb := hb1 hex
  have hlast : f.fn (f.times.getLast h.ne) = f.values.getLast h.vne := by rw [fn_right h le_rfl]; ring
  have hld := h.dom _ (List.getLast_mem h.ne)
  -- enough: a point of the domain with value `b` right of which the function is larger
  have fin : ∀ T, f.inDom T → f.fn T = b → (∀ t, f.inDom t → T < t → b < f.fn t) →
      IsMaxBelow f b (T : WithTop ℚ) := by
    intro T hT hv hgt
    refine ⟨?_, by simp, ?_⟩
    · intro q e
      have : T = q := WithTop.coe_inj.mp e
      subst this; exact ⟨hT, by rw [hv]⟩
    · intro t ht
      rw [WithTop.coe_le_coe]
      constructor
      · intro hb
        by_contra hc
        have := hgt t ht (not_le.mp hc); linarith
      · intro hle
        rw [← hv]; exact hm _ _ ht hT hle
  unfold maxTBelow
  rw [pyAssert_true ((isMonotone_iff f).mpr hvm), ok_bind, hbot, ok_bind, pyAssert_true (Or.inr hbb), ok_bind,
    if_neg]
  swap
  · have : EVal.fin b ≤ EVal.fin (b + eps) := by rw [fin_le]; have := eps_pos; linarith
    exact not_lt.mpr (le_trans hbb this)
  obtain ⟨fa1, fa2⟩ := firstAbove_spec b f.values 0
  cases hfa : firstAbove b f.values 0 with
  | none =>
    have hall := fa1 hfa
    simp only
    obtain ⟨top, htop, -, ht2, -, -, ht5⟩ := evalHi_spec h hm b
    rw [htop, ok_bind]
    by_cases c : top ≤ EVal.fin b
    · rw [if_pos c, py_pure]
      have hall' := ht2 c
      refine ⟨_, rfl, ?_, fun e => e, ?_⟩
      · intro q e
        have hq : f.inDom q := by
          refine ⟨?_, by rw [e]⟩
          have := hld.2
          rw [e, WithTop.coe_le_coe] at this
          exact le_trans hld.1 (WithBot.coe_le_coe.mpr this)
        exact ⟨hq, hall' q hq⟩
      · intro t ht
        exact ⟨fun _ => ht.2, fun _ => hall' t ht⟩
    · rw [if_neg c]
      have hvb := hall _ (List.getLast_mem h.vne)
      obtain ⟨hlpos, hin⟩ := ht5 c hvb
      have hinv := inverse_last_ok h (x := b) (Or.inl ⟨hlpos, hall _ (List.getElem_mem (by omega))⟩)
      have hge : f.times.getLast h.ne ≤ f.times.getLast h.ne + (b - f.values.getLast h.vne) / f.last := by
        have := div_nonneg (a := b - f.values.getLast h.vne) (by linarith) (le_of_lt hlpos); linarith
      have hval : f.fn (f.times.getLast h.ne + (b - f.values.getLast h.vne) / f.last) = b := by
        rw [fn_right h hge]; field_simp; ring
      generalize f.times.getLast h.ne + (b - f.values.getLast h.vne) / f.last = T at *
      rw [hinv, ok_bind, py_pure]
      refine ⟨_, rfl, fin T (hin T hge (by rw [hval])) hval ?_⟩
      intro t _ hlt
      rw [fn_right_aff h (x := t) (y := T) (fun s hs => le_trans (le_getLast h.lt h.ne hs) (by linarith))
        (fun s hs => le_trans (le_getLast h.lt h.ne hs) hge), hval]
      have := mul_pos hlpos (sub_pos.mpr hlt)
      linarith
  | some r =>
    simp only
    obtain ⟨i, hi, hr, hbi, hlo⟩ := fa2 r hfa
    cases i with
    | zero =>
      obtain ⟨hfpos, hin⟩ := hb2 hbb hbi
      have hinv := inverse_first_ok h (x := b) (Or.inl ⟨hfpos, le_of_lt hbi⟩)
      obtain ⟨-, hle, hval, -⟩ := inverse_first h hinv
      generalize f.times[0] + (b - f.values[0]) / f.first = T at *
      have e1 : r = -1 := by omega
      rw [e1, hinv, ok_bind, py_pure]
      refine ⟨_, rfl, fin T (hin T hle (by rw [hval])) hval ?_⟩
      intro t ht hlt
      by_cases ct : t ≤ f.times[0]
      · rw [fn_left h hp ct]
        rw [fn_left h hp hle] at hval
        have := mul_lt_mul_of_pos_right (sub_lt_sub_right hlt f.times[0]) hfpos
        linarith
      · have := hm _ t (h.dom _ (List.getElem_mem hp)) ht (le_of_lt (not_le.mp ct))
        rw [fn_time h 0 hp] at this
        linarith
    | succ i =>
      have hi' : i + 1 < f.times.length := by omega
      have h1 := hlo i (by omega)
      obtain ⟨T, hT⟩ := inverse_mid_ok h i hi' (lt_of_le_of_lt h1 hbi) h1 (le_of_lt hbi)
      obtain ⟨g1, g2, hval, -⟩ := inverse_mid h i hi' hT
      have e1 : r = (i : Int) := by omega
      rw [e1, hT, ok_bind, py_pure]
      have hTin : f.inDom T := inDom_between (h.dom _ (List.getElem_mem (show i < f.times.length by omega)))
        (h.dom _ (List.getElem_mem hi')) g1 g2
      refine ⟨_, rfl, fin T hTin hval ?_⟩
      intro t ht hlt
      by_cases ct : t ≤ f.times[i + 1]
      · rw [fn_mid h i hi' (by linarith) ct]
        rw [fn_mid h i hi' g1 g2] at hval
        have hpos : 0 < (f.values[i + 1] - f.values[i]) / (f.times[i + 1] - f.times[i]) :=
          div_pos (by linarith) (by linarith [getElem_lt_of h.lt (show i < i + 1 by omega) hi'])
        have := mul_lt_mul_of_pos_right (sub_lt_sub_right hlt f.times[i]) hpos
        linarith
      · have := hm _ t (h.dom _ (List.getElem_mem hi')) ht (le_of_lt (not_le.mp ct))
        rw [fn_time h (i + 1) hi'] at this
        linarith

/-! ### ensure_monotone -/

theorem fn_mono {f : PL} (h : f.WF) (hv : f.values.Pairwise (· ≤ ·)) (h1 : 0 ≤ f.first) (h2 : 0 ≤ f.last)
    {x y : ℚ} (hxy : x ≤ y) : f.fn x ≤ f.fn y := by
  have hp := h.pos
  have hvl := h.len
  have hvle : ∀ i j, (hij : i ≤ j) → (hj : j < f.values.length) → f.values[i] ≤ f.values[j] := by
    intro i j hij hj
    rcases Nat.lt_or_eq_of_le hij with h1 | h1
    · exact List.pairwise_iff_getElem.mp hv i j (by omega) hj h1
    · subst h1; exact le_rfl
  -- within one piece
  have piece : ∀ (r : Int) (a b : ℚ), -1 ≤ r → r < f.times.length → f.InPiece r a → f.InPiece r b → a ≤ b →
      f.fn a ≤ f.fn b := by
    intro r a b hr1 hr2 ha hb hab
    obtain ⟨g, hg⟩ := gradient_ok h hr1 hr2
    have hg0 : 0 ≤ g := by
      by_cases c1 : r = -1
      · subst c1; rw [gradient_first h] at hg; injection hg with hg; rw [← hg]; exact h1
      · by_cases c2 : r = (f.times.length : Int) - 1
        · subst c2; rw [gradient_last h] at hg; injection hg with hg; rw [← hg]; exact h2
        · obtain ⟨i, rfl⟩ := Int.eq_ofNat_of_zero_le (show 0 ≤ r by omega)
          rw [gradient_mid h i (by omega)] at hg
          injection hg with hg
          rw [← hg]
          exact div_nonneg (by linarith [hvle i (i + 1) (by omega) (by omega)])
            (by linarith [getElem_lt_of h.lt (show i < i + 1 by omega) (show i + 1 < f.times.length by omega)])
    have := fn_piece h hg hb ha
    have := mul_nonneg hg0 (sub_nonneg.mpr hab)
    linarith
  have hc : f.times.countP (· ≤ y) ≤ f.times.length := List.countP_le_length
  have hmon : f.times.countP (· ≤ x) ≤ f.times.countP (· ≤ y) := by
    apply List.countP_mono_left
    intro a _ ha
    simp only [decide_eq_true_eq] at ha ⊢
    linarith
  by_cases heq : f.times.countP (· ≤ x) = f.times.countP (· ≤ y)
  · refine piece _ x y (by omega) (by omega) (inPiece_lrank h x) ?_ hxy
    rw [heq]; exact inPiece_lrank h y
  · -- go through the break points
    generalize hcx : f.times.countP (· ≤ x) = c at *
    generalize hcy : f.times.countP (· ≤ y) = d at *
    have px := inPiece_lrank h x
    have py := inPiece_lrank h y
    rw [hcx] at px
    rw [hcy] at py
    have hcl : c < f.times.length := by omega
    have s1 : f.fn x ≤ f.fn f.times[c] :=
      piece _ _ _ (by omega) (by omega) px (inPiece_time_right h c hcl) (px.2 c hcl (by omega))
    have s2 : f.fn f.times[c] ≤ f.fn (f.times[d - 1]'(by omega)) := by
      rw [fn_time h, fn_time h]; exact hvle _ _ (by omega) (by omega)
    have s3 : f.fn (f.times[d - 1]'(by omega)) ≤ f.fn y := by
      refine piece _ _ _ (by omega) (by omega) ?_ py (py.1 (d - 1) (by omega) (by omega))
      have := inPiece_time_left h (d - 1) (by omega)
      have e : ((d - 1 : Nat) : Int) = (d : Int) - 1 := by omega
      rw [e] at this; exact this
    linarith

/-- Running maximum with initial value `m`. -/
def runMax (m : ℚ) : List ℚ → List ℚ
  | [] => []
  | v :: l => max m v :: runMax (max m v) l

theorem ensureLoop_cons (am : Bool) (a : ℚ) (l : List ℚ)
    (h : am = true → ∀ b, ∀ pre post, l = pre ++ b :: post → (∀ p ∈ a :: pre, p ≤ b + eps)) :
    ensureLoop am (a :: l) = .ok (a :: runMax a l) := by
  induction l generalizing a with
  | nil => simp [ensureLoop, runMax]
  | cons b l ih =>
    rw [ensureLoop, pyAssert_true, ok_bind, ih, ok_bind]
    · rfl
    · intro ha c pre post e p hp
      have := h ha c (b :: pre) post (by rw [e]; rfl)
      rcases List.mem_cons.mp hp with rfl | hp
      · rcases max_cases a b with h1 | h1
        · rw [h1.1]; exact this a (by simp)
        · rw [h1.1]; exact this b (by simp)
      · exact this p (by simp [hp])
    · by_cases ha : am = true
      · right
        exact h ha b [] l rfl a (by simp)
      · left; simpa using ha

theorem runMax_length (m : ℚ) (l : List ℚ) : (runMax m l).length = l.length := by
  induction l generalizing m with
  | nil => rfl
  | cons v l ih => simp [runMax, ih]

theorem runMax_sorted (m : ℚ) (l : List ℚ) : (m :: runMax m l).Pairwise (· ≤ ·) := by
  induction l generalizing m with
  | nil => simp [runMax]
  | cons v l ih =>
    have h := ih (max m v)
    rw [runMax, List.pairwise_cons]
    refine ⟨?_, h⟩
    intro a ha
    rcases List.mem_cons.mp ha with rfl | ha
    · exact le_max_left _ _
    · exact le_trans (le_max_left m v) ((List.pairwise_cons.mp h).1 a ha)

/-- Entry `i` is the least upper bound of the entries up to `i`. -/
theorem runMax_lub (m : ℚ) (l : List ℚ) (i : Nat) (hi : i < (m :: l).length) (c : ℚ) :
    (m :: runMax m l)[i]'(by simpa [runMax_length] using hi) ≤ c ↔ ∀ j, (hj : j ≤ i) → (m :: l)[j] ≤ c := by
  induction l generalizing m i with
  | nil =>
    simp at hi; subst hi
    simp
  | cons v l ih =>
    cases i with
    | zero =>
      constructor
      · intro h j hj
        obtain rfl : j = 0 := by omega
        exact h
      · intro h; exact h 0 le_rfl
    | succ i =>
      simp only [runMax, List.getElem_cons_succ]
      have hi' : i < ((max m v) :: l).length := by simpa using hi
      rw [ih (max m v) i hi']
      constructor
      · intro h j hj
        cases j with
        | zero =>
          have := h 0 (by omega)
          simp only [List.getElem_cons_zero] at this ⊢
          exact le_trans (le_max_left _ _) this
        | succ j =>
          cases j with
          | zero =>
            have := h 0 (by omega)
            simp only [List.getElem_cons_zero, List.getElem_cons_succ] at this ⊢
            exact le_trans (le_max_right _ _) this
          | succ j =>
            have := h (j + 1) (by omega)
            simpa using this
      · intro h j hj
        cases j with
        | zero =>
          have a := h 0 (by omega)
          have b := h 1 (by omega)
          simp only [List.getElem_cons_zero, List.getElem_cons_succ] at a b ⊢
          exact max_le a b
        | succ j =>
          have := h (j + 2) (by omega)
          simpa using this

theorem runMax_of_sorted (m : ℚ) (l : List ℚ) (h : (m :: l).Pairwise (· ≤ ·)) : runMax m l = l := by
  induction l generalizing m with
  | nil => rfl
  | cons v l ih =>
    have h1 := (List.pairwise_cons.mp h).1 v (by simp)
    rw [runMax, max_eq_right h1, ih v (List.pairwise_cons.mp h).2]

/-- The values after `ensure_monotone`. -/
theorem ensureMonotone_ok {f : PL} (h : f.WF) (am : Bool)
    (ham : am = true → ∀ i j, (hij : i < j) → (hj : j < f.values.length) → f.values[i] ≤ f.values[j] + eps) :
    ∃ g, f.ensureMonotone am = .ok g ∧ g.WF ∧ g.times = f.times ∧ g.lo = f.lo ∧ g.hi = f.hi ∧
      g.first = max 0 f.first ∧ g.last = max 0 f.last ∧ g.values.Pairwise (· ≤ ·) ∧
      (∀ i c, (hi : i < f.values.length) → (hg : i < g.values.length) → (g.values[i] ≤ c ↔ ∀ j, (hj : j ≤ i) → f.values[j] ≤ c)) ∧
      (f.values.Pairwise (· ≤ ·) → g.values = f.values) := by
  obtain ⟨v, l, hvl⟩ := List.exists_cons_of_ne_nil h.vne
  have hlen := h.len
  have hl : ensureLoop am f.values = .ok (v :: runMax v l) := by
    rw [hvl]
    apply ensureLoop_cons
    intro ha b pre post e p hp
    obtain ⟨i, hi, rfl⟩ := List.getElem_of_mem hp
    have hsplit : f.values = (v :: pre) ++ b :: post := by rw [hvl, e]; rfl
    have := ham ha i (v :: pre).length (by simpa using hi) (by rw [hsplit]; simp)
    have e1 : f.values[i]'(by rw [hsplit]; simp at hi ⊢; omega) = (v :: pre)[i] := by
      simp only [hsplit]; rw [List.getElem_append_left hi]
    have e2 : f.values[(v :: pre).length]'(by rw [hsplit]; simp) = b := by
      simp only [hsplit]; rw [List.getElem_append_right le_rfl]; simp
    rw [e1, e2] at this
    exact this
  have hw : WF ⟨f.times, v :: runMax v l, max 0 f.first, max 0 f.last, f.lo, f.hi⟩ :=
    ⟨by simp only [List.length_cons, runMax_length]; rw [← hlen, hvl]; rfl, h.ne, h.gap, h.dom⟩
  refine ⟨_, ?_, hw, rfl, rfl, rfl, rfl, rfl, runMax_sorted v l, ?_, ?_⟩
  · unfold ensureMonotone
    rw [hl, ok_bind]; exact new_ok hw
  · intro i c hi hg
    have := runMax_lub v l i (by rw [← hvl]; exact hi) c
    rw [this]
    simp only [hvl]
  · intro hs
    rw [hvl] at hs
    simp only
    rw [runMax_of_sorted v l hs, hvl]

end PL
end Verif
