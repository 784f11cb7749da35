import Verif.Proofs.PL

/-! Pointwise operations on piecewise linear functions: negation, addition, subtraction. -/

set_option linter.unusedSimpArgs false
set_option linter.unusedSectionVars false

namespace Verif

/-- Finite ends of a domain. -/
def ends (lo : WithBot ℚ) (hi : WithTop ℚ) : List ℚ :=
  (match lo with | some a => [a] | none => []) ++ (match hi with | some b => [b] | none => [])

theorem no_between {l : List ℚ} (h : l.Pairwise (· < ·)) {i : Nat} (hi : i + 1 < l.length) {t : ℚ}
    (ht : t ∈ l) : ¬ (l[i] < t ∧ t < l[i + 1]) := by
  rintro ⟨h1, h2⟩
  obtain ⟨j, hj, rfl⟩ := List.getElem_of_mem ht
  by_cases hij : j ≤ i
  · have := PL.getElem_le_of h hij (by omega); linarith
  · have := PL.getElem_le_of h (show i + 1 ≤ j by omega) hj; linarith

theorem head_le {l : List ℚ} (h : l.Pairwise (· < ·)) (h0 : 0 < l.length) {t : ℚ} (ht : t ∈ l) :
    l[0] ≤ t := by
  obtain ⟨j, hj, rfl⟩ := List.getElem_of_mem ht
  exact PL.getElem_le_of h (Nat.zero_le _) hj

theorem le_getLast {l : List ℚ} (h : l.Pairwise (· < ·)) (hne : l ≠ []) {t : ℚ} (ht : t ∈ l) :
    t ≤ l.getLast hne := by
  obtain ⟨j, hj, rfl⟩ := List.getElem_of_mem ht
  rw [List.getLast_eq_getElem]
  exact PL.getElem_le_of h (by omega) _

namespace PL

theorem fn_left_aff {f : PL} (h : f.WF) {x y : ℚ} (hx : ∀ t ∈ f.times, x ≤ t) (hy : ∀ t ∈ f.times, y ≤ t) :
    f.fn x = f.fn y + f.first * (x - y) := by
  rw [fn_left h h.pos (hx _ (List.getElem_mem _)), fn_left h h.pos (hy _ (List.getElem_mem _))]; ring

theorem fn_right_aff {f : PL} (h : f.WF) {x y : ℚ} (hx : ∀ t ∈ f.times, t ≤ x) (hy : ∀ t ∈ f.times, t ≤ y) :
    f.fn x = f.fn y + f.last * (x - y) := by
  rw [fn_right h (hx _ (List.getLast_mem _)), fn_right h (hy _ (List.getLast_mem _))]; ring

theorem neg_ok {f : PL} (h : f.WF) :
    ∃ g, f.neg = .ok g ∧ g.WF ∧ g.times = f.times ∧ g.lo = f.lo ∧ g.hi = f.hi ∧
      g.first = -f.first ∧ g.last = -f.last ∧ g.values = f.values.map (fun v => -v) := by
  have hw : WF ⟨f.times, f.values.map (fun v => -v), -f.first, -f.last, f.lo, f.hi⟩ :=
    ⟨by simpa using h.len, h.ne, h.gap, h.dom⟩
  exact ⟨_, new_ok hw, hw, rfl, rfl, rfl, rfl, rfl, rfl⟩

theorem neg_fn {f g : PL} (h : f.WF) (hg : f.neg = .ok g) (x : ℚ) : g.fn x = - f.fn x := by
  obtain ⟨g', h1, hw, ht, _, _, hf, hl, hv⟩ := neg_ok h
  obtain rfl : g' = g := by rw [h1] at hg; injection hg
  refine fn_eq_of hw (fun x => - f.fn x) (fun _ => True) ?_ ?_ ?_ ?_ x trivial
  · intro i hi
    simp only [hv, ht, List.getElem_map]
    rw [fn_time h]
  · intro i hi
    obtain ⟨m, hm⟩ := fn_affine h (a := f.times[i]'(by rw [← ht]; omega)) (b := f.times[i+1]'(by rw [← ht]; omega))
      (fun t htm => no_between h.lt _ htm)
    refine ⟨-m, ?_⟩
    intro x h1 h2
    simp only [ht] at h1 h2 ⊢
    rw [hm x h1 h2]; ring
  · intro x _ hx
    simp only [ht, hf] at hx ⊢
    rw [fn_left_aff h (y := f.times[0]'h.pos) (fun t htm => le_trans hx (head_le h.lt h.pos htm))
      (fun t htm => head_le h.lt h.pos htm)]; ring
  · intro x _ hx
    simp only [ht, hl] at hx ⊢
    rw [fn_right_aff h (y := f.times.getLast h.ne) (fun t htm => le_trans (le_getLast h.lt h.ne htm) hx)
      (fun t htm => le_getLast h.lt h.ne htm)]; ring

theorem gap_lt {l : List ℚ} (h : l.Pairwise (fun a b => a + eps < b)) : l.Pairwise (· < ·) :=
  h.imp (fun {a b} hab => by have := eps_pos; linarith)

theorem cutLeft_spec {ts : List ℚ} (hg : ts.Pairwise (fun a b => a + eps < b)) (lo : WithBot ℚ)
    (hex : ∃ t ∈ ts, lo ≤ (t : WithBot ℚ))
    (sep : ∀ d : ℚ, lo = d → ∀ t ∈ ts, d < t → eps < t - d) :
    ∃ r, cutLeft ts lo = .ok r ∧ r.Pairwise (fun a b => a + eps < b) ∧
      ∀ x, x ∈ r ↔ (x ∈ ts ∧ lo ≤ (x : WithBot ℚ)) ∨ (lo = x ∧ ∃ t ∈ ts, t < x) := by
  cases lo with
  | bot => exact ⟨ts, rfl, hg, by simp⟩
  | coe d =>
    have hne : ts ≠ [] := by rintro rfl; simp at hex
    have h0 : 0 < ts.length := List.length_pos_of_ne_nil hne
    have hlt := gap_lt hg
    have hle := hlt.imp le_of_lt
    simp only [WithBot.coe_le_coe, WithBot.coe_inj] at hex sep ⊢
    show ∃ r, (do
      let t0 ← rd ts 0
      if t0 < d then do
        let rnk ← elemRank ts d
        let t ← rdI ts (rnk + 1)
        if t = d then pure (ts.drop (rnk + 1).toNat)
        else pure (d :: ts.drop (rnk + 1).toNat)
      else pure ts) = _ ∧ _
    rw [rd_lt _ _ h0, ok_bind]
    by_cases hd : ts[0] < d
    · rw [if_pos hd, elemRank_eq hle hne, ok_bind]
      have key := fun i hi => lt_countP_lt_iff hle d i hi
      have hc : ts.countP (· < d) ≤ ts.length := List.countP_le_length
      generalize hcc : ts.countP (· < d) = c at *
      have e1 : ((c : Int) - 1 + 1) = (c : Int) := by omega
      have hcl : c < ts.length := by
        obtain ⟨t, ht, hdt⟩ := hex
        obtain ⟨j, hj, rfl⟩ := List.getElem_of_mem ht
        have : ¬ j < c := by rw [key j hj]; exact not_lt.mpr hdt
        omega
      have hmem : ∀ x, x ∈ ts.drop c ↔ x ∈ ts ∧ d ≤ x := by
        intro x
        constructor
        · intro hx
          refine ⟨List.mem_of_mem_drop hx, ?_⟩
          obtain ⟨j, hj, rfl⟩ := List.getElem_of_mem hx
          rw [List.getElem_drop]
          rw [← not_lt, ← key]; omega
        · rintro ⟨hx, hdx⟩
          obtain ⟨j, hj, rfl⟩ := List.getElem_of_mem hx
          have : ¬ j < c := by rw [key j hj]; exact not_lt.mpr hdx
          have : (ts.drop c)[j - c]'(by simp; omega) = ts[j] := by
            rw [List.getElem_drop]; congr 1; omega
          rw [← this]; exact List.getElem_mem _
      rw [e1, rdI_lt ts (c : Int) c rfl hcl, ok_bind]
      have hexlt : ∃ t ∈ ts, t < d := ⟨_, List.getElem_mem h0, hd⟩
      by_cases hcd : ts[c] = d
      · rw [if_pos hcd]
        refine ⟨_, rfl, ?_, ?_⟩
        · exact hg.sublist (List.drop_sublist _ _)
        · intro x
          rw [Int.toNat_natCast, hmem]
          constructor
          · intro h; exact Or.inl h
          · rintro (h | ⟨rfl, _⟩)
            · exact h
            · exact ⟨hcd ▸ List.getElem_mem _, le_rfl⟩
      · rw [if_neg hcd]
        have hdn : d ∉ ts := by
          intro hdm
          have h1 := (hmem d).mpr ⟨hdm, le_rfl⟩
          obtain ⟨j, hj, hje⟩ := List.getElem_of_mem h1
          rw [List.getElem_drop] at hje
          have h2 : d ≤ ts[c] := by rw [← not_lt, ← key c hcl]; omega
          have h3 : ts[c] ≤ ts[c + j]'(by simp at hj; omega) := getElem_le_of hlt (by omega) _
          exact hcd (le_antisymm (by rw [hje] at h3; exact h3) h2)
        refine ⟨_, rfl, ?_, ?_⟩
        · rw [Int.toNat_natCast, List.pairwise_cons]
          refine ⟨?_, hg.sublist (List.drop_sublist _ _)⟩
          intro x hx
          obtain ⟨hx1, hx2⟩ := (hmem x).mp hx
          have := sep d rfl x hx1 (lt_of_le_of_ne hx2 (by rintro rfl; exact hdn hx1))
          linarith
        · intro x
          rw [Int.toNat_natCast, List.mem_cons, hmem]
          constructor
          · rintro (rfl | h)
            · exact Or.inr ⟨rfl, hexlt⟩
            · exact Or.inl h
          · rintro (h | ⟨rfl, _⟩)
            · exact Or.inr h
            · exact Or.inl rfl
    · rw [if_neg hd]
      refine ⟨_, rfl, hg, ?_⟩
      intro x
      constructor
      · intro hx
        exact Or.inl ⟨hx, le_trans (not_lt.mp hd) (head_le hlt h0 hx)⟩
      · rintro (h | ⟨rfl, t, ht, htd⟩)
        · exact h.1
        · have := head_le hlt h0 ht; linarith [not_lt.mp hd]

theorem cutRight_spec {ts : List ℚ} (hg : ts.Pairwise (fun a b => a + eps < b)) (hne : ts ≠ []) (hi : WithTop ℚ)
    (sep : ∀ d : ℚ, hi = d → ∀ t ∈ ts, t < d → eps < d - t) :
    ∃ r, cutRight ts hi = .ok r ∧ r.Pairwise (fun a b => a + eps < b) ∧
      ∀ x, x ∈ r ↔ (x ∈ ts ∧ (x : WithTop ℚ) ≤ hi) ∨ (hi = x ∧ ∃ t ∈ ts, x < t) := by
  cases hi with
  | top => exact ⟨ts, rfl, hg, by simp⟩
  | coe d =>
    have h0 : 0 < ts.length := List.length_pos_of_ne_nil hne
    have hlt := gap_lt hg
    have hle := hlt.imp le_of_lt
    simp only [WithTop.coe_le_coe, WithTop.coe_inj] at sep ⊢
    show ∃ r, (do
      let tl ← rdLast ts
      if tl > d then do
        let rnk ← elemRank ts d
        let t ← rdI ts (rnk + 1)
        if t = d then pure (ts.take (rnk + 2).toNat)
        else pure (ts.take (rnk + 1).toNat ++ [d])
      else pure ts) = _ ∧ _
    rw [rdLast_eq _ hne, ok_bind]
    by_cases hd : ts.getLast hne > d
    · rw [if_pos hd, elemRank_eq hle hne, ok_bind]
      have key := fun i hi => lt_countP_lt_iff hle d i hi
      have hc : ts.countP (· < d) ≤ ts.length := List.countP_le_length
      generalize hcc : ts.countP (· < d) = c at *
      have e1 : ((c : Int) - 1 + 1) = (c : Int) := by omega
      have e2 : ((c : Int) - 1 + 2) = ((c + 1 : Nat) : Int) := by omega
      have hexlt : ∃ t ∈ ts, d < t := ⟨_, List.getLast_mem hne, hd⟩
      have hcl : c < ts.length := by
        obtain ⟨t, ht, hdt⟩ := hexlt
        obtain ⟨j, hj, rfl⟩ := List.getElem_of_mem ht
        have : ¬ j < c := by rw [key j hj]; exact not_lt.mpr (le_of_lt hdt)
        omega
      have hmem : ∀ x, x ∈ ts.take c ↔ x ∈ ts ∧ x < d := by
        intro x
        constructor
        · intro hx
          refine ⟨List.mem_of_mem_take hx, ?_⟩
          obtain ⟨j, hj, rfl⟩ := List.getElem_of_mem hx
          rw [List.getElem_take]
          rw [← key]; simp at hj; omega
        · rintro ⟨hx, hdx⟩
          obtain ⟨j, hj, rfl⟩ := List.getElem_of_mem hx
          have : j < c := by rw [key j hj]; exact hdx
          have : (ts.take c)[j]'(by simp; omega) = ts[j] := by
            rw [List.getElem_take]
          rw [← this]; exact List.getElem_mem _
      rw [e1, e2, rdI_lt ts (c : Int) c rfl hcl, ok_bind]
      have hdc : d ≤ ts[c] := by rw [← not_lt, ← key c hcl]; omega
      by_cases hcd : ts[c] = d
      · rw [if_pos hcd]
        refine ⟨_, rfl, ?_, ?_⟩
        · exact hg.sublist (List.take_sublist _ _)
        · intro x
          rw [Int.toNat_natCast, List.take_succ_eq_append_getElem hcl, List.mem_append, hmem, List.mem_singleton, hcd]
          constructor
          · rintro (h | rfl)
            · exact Or.inl ⟨h.1, le_of_lt h.2⟩
            · exact Or.inr ⟨rfl, hexlt⟩
          · rintro (h | ⟨rfl, _⟩)
            · rcases lt_or_eq_of_le h.2 with h2 | h2
              · exact Or.inl ⟨h.1, h2⟩
              · exact Or.inr h2
            · exact Or.inr rfl
      · rw [if_neg hcd]
        refine ⟨_, rfl, ?_, ?_⟩
        · rw [Int.toNat_natCast, List.pairwise_append]
          refine ⟨hg.sublist (List.take_sublist _ _), by simp, ?_⟩
          intro x hx y hy
          obtain ⟨hx1, hx2⟩ := (hmem x).mp hx
          rw [List.mem_singleton] at hy
          subst hy
          have := sep y rfl x hx1 hx2
          linarith
        · intro x
          rw [Int.toNat_natCast, List.mem_append, hmem, List.mem_singleton]
          constructor
          · rintro (h | rfl)
            · exact Or.inl ⟨h.1, le_of_lt h.2⟩
            · exact Or.inr ⟨rfl, hexlt⟩
          · rintro (h | ⟨rfl, _⟩)
            · rcases lt_or_eq_of_le h.2 with h2 | h2
              · exact Or.inl ⟨h.1, h2⟩
              · exact Or.inr h2
            · exact Or.inr rfl
    · rw [if_neg hd]
      refine ⟨_, rfl, hg, ?_⟩
      intro x
      constructor
      · intro hx
        exact Or.inl ⟨hx, le_trans (le_getLast hlt hne hx) (not_lt.mp hd)⟩
      · rintro (h | ⟨rfl, t, ht, htd⟩)
        · exact h.1
        · have := le_getLast hlt hne ht; linarith [not_lt.mp hd]

theorem mapM_add {f g : PL} (hf : f.WF) (hg : g.WF) (xs : List ℚ) (hd : ∀ x ∈ xs, f.inDom x ∧ g.inDom x) :
    xs.mapM (fun x => do
      let a ← f.eval x
      let b ← g.eval x
      pure (a + b)) = (.ok (xs.map (fun x => f.fn x + g.fn x)) : Py (List ℚ)) := by
  induction xs with
  | nil => rfl
  | cons x xs ih =>
    rw [List.mapM_cons, eval_eq hf (hd x (by simp)).1, ok_bind, eval_eq hg (hd x (by simp)).2, ok_bind,
      py_pure, ok_bind, ih (fun y hy => hd y (by simp [hy])), ok_bind]
    rfl

/-- The distinct points that matter for an operation on `f` and `g` are more than `eps` apart. -/
def Sep2 (f g : PL) : Prop :=
  ∀ a ∈ f.times ++ g.times ++ ends (max f.lo g.lo) (min f.hi g.hi),
    ∀ b ∈ f.times ++ g.times ++ ends (max f.lo g.lo) (min f.hi g.hi), a < b → eps < b - a

theorem plus_ok {f g : PL} (hf : f.WF) (hg : g.WF) (hdom : ltEnds (max f.lo g.lo) (min f.hi g.hi) = true)
    (hsep : Sep2 f g) :
    ∃ s, f.plus g = .ok s ∧ s.WF ∧ s.lo = max f.lo g.lo ∧ s.hi = min f.hi g.hi ∧
      s.first = f.first + g.first ∧ s.last = f.last + g.last ∧
      (∀ x, s.inDom x → s.fn x = f.fn x + g.fn x) ∧
      (∀ x ∈ s.times, x ∈ f.times ∨ x ∈ g.times ∨ x ∈ ends s.lo s.hi) ∧
      (∀ x, s.inDom x → (x ∈ f.times ∨ x ∈ g.times) → x ∈ s.times) := by
  have hm := mergeSorted_isMerge f.times g.times hf.le hg.le
  have hmem := hm.mem_iff (fun a ha b hb => hsep a (by simp at ha ⊢; tauto) b (by simp at hb ⊢; tauto))
  unfold plus
  simp only
  rw [pyAssert_true hdom, ok_bind]
  generalize mergeSorted f.times g.times = M at hm hmem ⊢
  have hMlt := gap_lt hm.gaps
  set lo := max f.lo g.lo with hlo
  set hi := min f.hi g.hi with hhi
  -- some break point is right of the left end, some left of the right end
  have hexl : ∃ t ∈ M, lo ≤ (t : WithBot ℚ) := by
    rcases le_total f.lo g.lo with h | h
    · refine ⟨g.times[0]'hg.pos, (hmem _).mpr (by simp), ?_⟩
      rw [hlo, max_eq_right h]; exact (hg.dom _ (List.getElem_mem _)).1
    · refine ⟨f.times[0]'hf.pos, (hmem _).mpr (by simp), ?_⟩
      rw [hlo, max_eq_left h]; exact (hf.dom _ (List.getElem_mem _)).1
  have hexr : ∃ t ∈ M, (t : WithTop ℚ) ≤ hi := by
    rcases le_total f.hi g.hi with h | h
    · refine ⟨f.times[0]'hf.pos, (hmem _).mpr (by simp), ?_⟩
      rw [hhi, min_eq_left h]; exact (hf.dom _ (List.getElem_mem _)).2
    · refine ⟨g.times[0]'hg.pos, (hmem _).mpr (by simp), ?_⟩
      rw [hhi, min_eq_right h]; exact (hg.dom _ (List.getElem_mem _)).2
  have hendl : ∀ d : ℚ, lo = d → d ∈ ends lo hi := by intro d e; rw [e]; simp [ends]
  have hendr : ∀ d : ℚ, hi = d → d ∈ ends lo hi := by
    intro d e; rw [e]; unfold ends; cases lo <;> simp
  obtain ⟨A, hA, hAg, hAm⟩ := cutLeft_spec hm.gaps lo hexl (by
    intro d e t ht hlt
    exact hsep d (List.mem_append_right _ (hendl d e)) t (List.mem_append_left _ ((hmem t).mp ht)) hlt)
  have hlohi : ∀ a b : ℚ, lo = a → hi = b → a < b := by
    intro a b h1 h2
    rw [h1, h2] at hdom
    exact of_decide_eq_true hdom
  have hAne : A ≠ [] := by
    obtain ⟨t, ht, htl⟩ := hexl
    have := (hAm t).mpr (Or.inl ⟨ht, htl⟩)
    rintro rfl; simp at this
  obtain ⟨B, hB, hBg, hBm⟩ := cutRight_spec hAg hAne hi (by
    intro d e t ht hlt
    have hd : d ∈ f.times ++ g.times ++ ends lo hi := List.mem_append_right _ (hendr d e)
    rcases (hAm t).mp ht with h | h
    · exact hsep t (List.mem_append_left _ ((hmem t).mp h.1)) d hd hlt
    · exact hsep t (List.mem_append_right _ (hendl t h.1)) d hd hlt)
  rw [hA, ok_bind, hB, ok_bind]
  have hBlt := gap_lt hBg
  -- every element of B lies in the domain
  have hBdom : ∀ x ∈ B, lo ≤ (x : WithBot ℚ) ∧ (x : WithTop ℚ) ≤ hi := by
    intro x hx
    rcases (hBm x).mp hx with ⟨h1, h2⟩ | ⟨h1, t, ht, hxt⟩
    · refine ⟨?_, h2⟩
      rcases (hAm x).mp h1 with h | h
      · exact h.2
      · rw [h.1]
    · refine ⟨?_, by rw [h1]⟩
      cases e : lo with
      | bot => exact bot_le
      | coe d => exact WithBot.coe_le_coe.mpr (le_of_lt (hlohi d x e h1))
  have hBdom2 : ∀ x : ℚ, (lo ≤ (x : WithBot ℚ) ∧ (x : WithTop ℚ) ≤ hi) → f.inDom x ∧ g.inDom x := by
    rintro x ⟨h1, h2⟩
    exact ⟨⟨le_trans (le_max_left _ _) h1, le_trans h2 (min_le_left _ _)⟩,
      ⟨le_trans (le_max_right _ _) h1, le_trans h2 (min_le_right _ _)⟩⟩
  have hBne : B ≠ [] := by
    obtain ⟨t, ht, htr⟩ := hexr
    by_cases hc : lo ≤ (t : WithBot ℚ)
    · have := (hBm t).mpr (Or.inl ⟨(hAm t).mpr (Or.inl ⟨ht, hc⟩), htr⟩)
      rintro rfl; simp at this
    · cases e : lo with
      | bot => rw [e] at hc; simp at hc
      | coe d =>
        rw [e, WithBot.coe_le_coe, not_le] at hc
        have h1 := (hAm d).mpr (Or.inr ⟨e, t, ht, hc⟩)
        have h2 : (d : WithTop ℚ) ≤ hi := by
          cases e' : hi with
          | top => exact le_top
          | coe b => exact WithTop.coe_le_coe.mpr (le_of_lt (hlohi d b e e'))
        have := (hBm d).mpr (Or.inl ⟨h1, h2⟩)
        rintro rfl; simp at this
  rw [mapM_add hf hg B (fun x hx => hBdom2 x (hBdom x hx)), ok_bind]
  have hw : WF ⟨B, B.map (fun x => f.fn x + g.fn x), f.first + g.first, f.last + g.last, lo, hi⟩ :=
    ⟨by simp, hBne, hBg.imp (fun {a b} hab => by linarith), hBdom⟩
  -- membership of inner break points
  have hin : ∀ t : ℚ, (t ∈ f.times ∨ t ∈ g.times) → lo ≤ (t : WithBot ℚ) → (t : WithTop ℚ) ≤ hi → t ∈ B := by
    intro t ht h1 h2
    exact (hBm t).mpr (Or.inl ⟨(hAm t).mpr (Or.inl ⟨(hmem t).mpr (by simpa using ht), h1⟩), h2⟩)
  refine ⟨_, new_ok hw, hw, rfl, rfl, rfl, rfl, ?_, ?_, ?_⟩
  · intro x hx
    refine fn_eq_of hw (fun x => f.fn x + g.fn x) (fun x => lo ≤ (x : WithBot ℚ) ∧ (x : WithTop ℚ) ≤ hi)
      (by intro i hi; simp) ?_ ?_ ?_ x hx
    · intro i hi'
      simp only at hi' ⊢
      have hno : ∀ t, (t ∈ f.times ∨ t ∈ g.times) → ¬ (B[i] < t ∧ t < B[i + 1]) := by
        rintro t ht ⟨h1, h2⟩
        have d1 := (hBdom _ (List.getElem_mem (show i < B.length by omega))).1
        have d2 := (hBdom _ (List.getElem_mem hi')).2
        have : t ∈ B := hin t ht (le_trans d1 (WithBot.coe_le_coe.mpr (le_of_lt h1)))
          (le_trans (WithTop.coe_le_coe.mpr (le_of_lt h2)) d2)
        exact no_between hBlt hi' this ⟨h1, h2⟩
      obtain ⟨m1, hm1⟩ := fn_affine hf (fun t ht => hno t (Or.inl ht))
      obtain ⟨m2, hm2⟩ := fn_affine hg (fun t ht => hno t (Or.inr ht))
      refine ⟨m1 + m2, ?_⟩
      intro x h1 h2
      rw [hm1 x h1 h2, hm2 x h1 h2]; ring
    · intro x hx hx0
      simp only at hx0 ⊢
      have hB0 : 0 < B.length := List.length_pos_of_ne_nil hBne
      by_cases hall : ∀ t, (t ∈ f.times ∨ t ∈ g.times) → B[0] ≤ t
      · rw [fn_left_aff hf (x := x) (y := B[0]) (fun t ht => le_trans hx0 (hall t (Or.inl ht))) (fun t ht => hall t (Or.inl ht)),
          fn_left_aff hg (x := x) (y := B[0]) (fun t ht => le_trans hx0 (hall t (Or.inr ht))) (fun t ht => hall t (Or.inr ht))]; ring
      · have hxe : x = B[0] := by
          push Not at hall
          obtain ⟨t, ht, hlt⟩ := hall
          have hnl : ¬ lo ≤ (t : WithBot ℚ) := by
            intro hc
            have d2 := (hBdom _ (List.getElem_mem hB0)).2
            have := hin t ht hc (le_trans (WithTop.coe_le_coe.mpr (le_of_lt hlt)) d2)
            have := head_le hBlt hB0 this
            linarith
          cases e : lo with
          | bot => rw [e] at hnl; simp at hnl
          | coe d =>
            rw [e, WithBot.coe_le_coe, not_le] at hnl
            have h1 := (hAm d).mpr (Or.inr ⟨e, t, (hmem t).mpr (by simpa using ht), hnl⟩)
            have h2 : (d : WithTop ℚ) ≤ hi := by
              cases e' : hi with
              | top => exact le_top
              | coe b => exact WithTop.coe_le_coe.mpr (le_of_lt (hlohi d b e e'))
            have h3 := head_le hBlt hB0 ((hBm d).mpr (Or.inl ⟨h1, h2⟩))
            have h4 := hx.1
            rw [e, WithBot.coe_le_coe] at h4
            linarith
        rw [hxe]; ring
    · intro x hx hxl
      simp only at hxl ⊢
      by_cases hall : ∀ t, (t ∈ f.times ∨ t ∈ g.times) → t ≤ B.getLast hBne
      · rw [fn_right_aff hf (x := x) (y := B.getLast hBne) (fun t ht => le_trans (hall t (Or.inl ht)) hxl) (fun t ht => hall t (Or.inl ht)),
          fn_right_aff hg (x := x) (y := B.getLast hBne) (fun t ht => le_trans (hall t (Or.inr ht)) hxl) (fun t ht => hall t (Or.inr ht))]; ring
      · have hxe : x = B.getLast hBne := by
          push Not at hall
          obtain ⟨t, ht, hlt⟩ := hall
          have d1 := (hBdom _ (List.getLast_mem hBne)).1
          have htA : t ∈ A := (hAm t).mpr (Or.inl ⟨(hmem t).mpr (by simpa using ht),
            le_trans d1 (WithBot.coe_le_coe.mpr (le_of_lt hlt))⟩)
          have hnl : ¬ (t : WithTop ℚ) ≤ hi := by
            intro hc
            have := (hBm t).mpr (Or.inl ⟨htA, hc⟩)
            have := le_getLast hBlt hBne this
            linarith
          cases e : hi with
          | top => rw [e] at hnl; simp at hnl
          | coe d =>
            rw [e, WithTop.coe_le_coe, not_le] at hnl
            have h3 := le_getLast hBlt hBne ((hBm d).mpr (Or.inr ⟨e, t, htA, hnl⟩))
            have h4 := hx.2
            rw [e, WithTop.coe_le_coe] at h4
            linarith
        rw [hxe]; ring
  · intro x hx
    rcases (hBm x).mp hx with ⟨h1, _⟩ | ⟨h1, _⟩
    · rcases (hAm x).mp h1 with h | h
      · have := (hmem x).mp h.1
        simp at this; tauto
      · exact Or.inr (Or.inr (hendl x h.1))
    · exact Or.inr (Or.inr (hendr x h1))
  · intro x hx ht
    exact hin x ht hx.1 hx.2

end PL
end Verif
