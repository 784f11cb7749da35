import Verif.Proofs.DFlowRun

/-! Collections of rates that differ only in the order of their dicts and in the place of the head of the event list. -/

namespace Verif
open Spec

/-- The same dict: the same entries, in any order. -/
structure SameDict (v w : Rates) : Prop where
  perm : v.Perm w
  nodup : (v.map Prod.fst).Nodup

namespace SameDict

theorem refl {v : Rates} (h : (v.map Prod.fst).Nodup) : SameDict v v := ⟨.refl _, h⟩

theorem nodup' {v w : Rates} (h : SameDict v w) : (w.map Prod.fst).Nodup := (h.perm.map Prod.fst).nodup_iff.mp h.nodup

theorem symm {v w : Rates} (h : SameDict v w) : SameDict w v := ⟨h.perm.symm, h.nodup'⟩

theorem trans {u v w : Rates} (h : SameDict u v) (h' : SameDict v w) : SameDict u w := ⟨h.perm.trans h'.perm, h.nodup⟩

theorem lookup {v w : Rates} (h : SameDict v w) (i : Nat) : v.lookup i = w.lookup i := by
  cases hv : v.lookup i with
  | some x => exact (Rates.mem_lookup h.nodup' (h.perm.mem_iff.mp (Rates.lookup_mem hv))).symm
  | none =>
    cases hw : w.lookup i with
    | none => rfl
    | some x =>
      have := Rates.mem_lookup h.nodup (h.perm.mem_iff.mpr (Rates.lookup_mem hw))
      rw [hv] at this; cases this

theorem get {v w : Rates} (h : SameDict v w) (i : Nat) : v.get i = w.get i := by unfold Rates.get; rw [h.lookup]

theorem has {v w : Rates} (h : SameDict v w) (i : Nat) : v.has i = w.has i := by unfold Rates.has; rw [h.lookup]

theorem total {v w : Rates} (h : SameDict v w) : v.total = w.total := (h.perm.map Prod.snd).sum_eq

theorem scale {v w : Rates} (h : SameDict v w) (c : ℚ) : SameDict (v.scale c) (w.scale c) := by
  refine ⟨h.perm.map _, ?_⟩
  unfold Rates.scale
  rw [List.map_map]
  exact h.nodup

theorem pos {v w : Rates} (h : SameDict v w) : (∀ p ∈ v, 0 < p.2) ↔ ∀ p ∈ w, 0 < p.2 := by
  constructor
  · intro hp p hw; exact hp p (h.perm.mem_iff.mpr hw)
  · intro hp p hw; exact hp p (h.perm.mem_iff.mp hw)

theorem dictEq {a a' v w : Rates} (ha : SameDict a a') (h : SameDict v w) : a.dictEq v = a'.dictEq w := by
  unfold Rates.dictEq
  rw [ha.perm.length_eq, h.perm.length_eq]
  congr 1
  have : ∀ p : Nat × ℚ, (v.lookup p.1 == some p.2) = (w.lookup p.1 == some p.2) := fun p => by rw [h.lookup]
  simp only [this]
  rw [Bool.eq_iff_iff, List.all_eq_true, List.all_eq_true]
  constructor
  · intro h p hp; exact h p (ha.perm.mem_iff.mpr hp)
  · intro h p hp; exact h p (ha.perm.mem_iff.mp hp)

end SameDict

/-- Valid dicts with the same rates are the same. -/
theorem sameDict_of_get {v w : Rates} (hv : RatesOk v) (hw : RatesOk w) (h : ∀ i, v.get i = w.get i) : SameDict v w := by
  refine ⟨?_, hv.nodup⟩
  have key : ∀ {a b : Rates}, RatesOk a → RatesOk b → (∀ i, a.get i = b.get i) → ∀ p ∈ a, p ∈ b := by
    intro a b ha hb hab p hp
    have h1 := Rates.get_mem ha.nodup (i := p.1) (x := p.2) hp
    have h2 := ha.pos p hp
    by_cases hh : b.has p.1 = true
    · obtain ⟨x, hx⟩ := Rates.has_iff.mp hh
      have h3 := Rates.get_mem hb.nodup hx
      rw [hab, h3] at h1
      rw [h1] at hx
      exact hx
    · have := Rates.get_of_not_has hh
      rw [← hab, h1] at this
      linarith
  exact (List.perm_ext_iff_of_nodup (List.Nodup.of_map _ hv.nodup) (List.Nodup.of_map _ hw.nodup)).mpr
    (fun p => ⟨key hv hw h p, key hw hv (fun i => (h i).symm) p⟩)

namespace FRC

theorem put_comm (d : Nat → Option RC) {i j : Nat} (f g : RC) (h : i ≠ j) : put (put d i f) j g = put (put d j g) i f := by
  funext k
  unfold put
  by_cases h1 : k = j
  · subst h1; rw [if_pos rfl, if_neg (Ne.symm h), if_pos rfl]
  · rw [if_neg h1]
    by_cases h2 : k = i
    · rw [if_pos h2, if_pos h2]
    · rw [if_neg h2, if_neg h2, if_neg h1]

theorem put_ne (d : Nat → Option RC) {i j : Nat} (f : RC) (h : i ≠ j) : put d i f j = d j := if_neg (Ne.symm h)

theorem extendLoop_perm {t : ℚ} {vs ws : Rates} (hp : vs.Perm ws) : (vs.map Prod.fst).Nodup → ∀ d d', extendLoop t vs d = .ok d' → extendLoop t ws d = .ok d' := by
  induction hp with
  | nil => intro _ d d' h; exact h
  | cons x _ ih =>
    intro hn d d' h
    obtain ⟨i, v⟩ := x
    rw [List.map_cons, List.nodup_cons] at hn
    unfold extendLoop at h ⊢
    obtain ⟨f, h1, h⟩ := bind_eq_ok.mp h
    obtain ⟨g, h2, h⟩ := bind_eq_ok.mp h
    rw [h1, ok_bind, h2, ok_bind]
    exact ih hn.2 _ _ h
  | swap x y l =>
    intro hn d d' h
    obtain ⟨i, v⟩ := x
    obtain ⟨j, w⟩ := y
    have hij : j ≠ i := by
      intro e; subst e; simp at hn
    simp only [extendLoop] at h ⊢
    obtain ⟨f, h1, h⟩ := bind_eq_ok.mp h
    obtain ⟨g, h2, h⟩ := bind_eq_ok.mp h
    obtain ⟨f', h3, h⟩ := bind_eq_ok.mp h
    obtain ⟨g', h4, h⟩ := bind_eq_ok.mp h
    have e1 : entry (put d j g) i = entry d i := by unfold entry; rw [put_ne _ _ hij]
    have e2 : entry (put d i g') j = entry d j := by unfold entry; rw [put_ne _ _ hij.symm]
    rw [e1] at h3
    rw [h3, ok_bind, h4, ok_bind, e2, h1, ok_bind, h2, ok_bind, put_comm _ _ _ hij.symm]
    exact h
  | trans h1 h2 ih1 ih2 =>
    intro hn d d' h
    exact ih2 ((h1.map Prod.fst).nodup_iff.mp hn) _ _ (ih1 hn _ _ h)

theorem dropLoop_congr {t : ℚ} {v w : Rates} (hvw : SameDict v w) : ∀ (l : Rates) d, dropLoop t v l d = dropLoop t w l d := by
  intro l
  induction l with
  | nil => intro d; rfl
  | cons x l ih =>
    intro d
    obtain ⟨k, c⟩ := x
    unfold dropLoop
    rw [hvw.has, ih]
    simp only [ih]

theorem dropLoop_perm {t : ℚ} {v : Rates} {vs ws : Rates} (hp : vs.Perm ws) : (vs.map Prod.fst).Nodup → ∀ d d', dropLoop t v vs d = .ok d' →
    dropLoop t v ws d = .ok d' := by
  induction hp with
  | nil => intro _ d d' h; exact h
  | cons x _ ih =>
    intro hn d d' h
    obtain ⟨i, u⟩ := x
    rw [List.map_cons, List.nodup_cons] at hn
    unfold dropLoop at h ⊢
    by_cases hi : v.has i = true
    · rw [if_pos hi] at h ⊢
      exact ih hn.2 _ _ h
    · rw [if_neg hi] at h ⊢
      cases hd : d i with
      | none => rw [hd] at h; cases h
      | some f =>
        rw [hd] at h
        simp only at h ⊢
        obtain ⟨g, h2, h⟩ := bind_eq_ok.mp h
        rw [h2, ok_bind]
        exact ih hn.2 _ _ h
  | swap x y l =>
    intro hn d d' h
    obtain ⟨i, a⟩ := x
    obtain ⟨j, b⟩ := y
    have hij : j ≠ i := by
      intro e; subst e; simp at hn
    simp only [dropLoop] at h ⊢
    by_cases hi : v.has i = true
    · simp only [if_pos hi] at h ⊢; exact h
    · simp only [if_neg hi] at h ⊢
      by_cases hj : v.has j = true
      · simp only [if_pos hj] at h ⊢; exact h
      · simp only [if_neg hj] at h ⊢
        cases hdj : d j with
        | none => rw [hdj] at h; cases h
        | some f =>
          rw [hdj] at h
          simp only at h
          obtain ⟨g, h2, h⟩ := bind_eq_ok.mp h
          rw [put_ne _ _ hij] at h
          cases hdi : d i with
          | none => rw [hdi] at h; cases h
          | some f' =>
            rw [hdi] at h
            simp only at h ⊢
            obtain ⟨g', h3, h⟩ := bind_eq_ok.mp h
            rw [h3, ok_bind, put_ne _ _ hij.symm, hdj]
            simp only
            rw [h2, ok_bind, put_comm _ _ _ hij.symm]
            exact h
  | trans h1 h2 ih1 ih2 =>
    intro hn d d' h
    exact ih2 ((h1.map Prod.fst).nodup_iff.mp hn) _ _ (ih1 hn _ _ h)

/-- The same entry of the event list. -/
def SameItem (a b : FRItem) : Prop := a.time = b.time ∧ SameDict a.values b.values

theorem advanceHead_ne {t : ℚ} : ∀ {q : List FRItem}, q ≠ [] → advanceHead t q ≠ [] := by
  intro q
  induction q with
  | nil => intro h; exact absurd rfl h
  | cons a q ih =>
    intro _
    cases q with
    | nil => simp [advanceHead]
    | cons b l =>
      unfold advanceHead
      split
      · exact ih (by simp)
      · simp

theorem advanceHead_append {t u : ℚ} (htu : t ≤ u) (r : List FRItem) : ∀ {q : List FRItem}, q ≠ [] → advanceHead u (advanceHead t q ++ r) = advanceHead u (q ++ r) := by
  intro q
  induction q with
  | nil => intro h; exact absurd rfl h
  | cons a q ih =>
    intro _
    cases q with
    | nil => rfl
    | cons b l =>
      by_cases hb : b.time ≤ t
      · rw [show advanceHead t (a :: b :: l) = advanceHead t (b :: l) by rw [advanceHead, if_pos hb], ih (by simp)]
        rw [List.cons_append, List.cons_append, List.cons_append, show advanceHead u (a :: b :: (l ++ r)) = advanceHead u (b :: (l ++ r)) by rw [advanceHead, if_pos (le_trans hb htu)]]
      · rw [show advanceHead t (a :: b :: l) = a :: b :: l by rw [advanceHead, if_neg hb]]

theorem advanceHead_idem {t u : ℚ} (htu : t ≤ u) (q : List FRItem) : advanceHead u (advanceHead t q) = advanceHead u q := by
  by_cases hq : q = []
  · subst hq; rfl
  · have := advanceHead_append htu [] hq
    simpa using this

theorem advanceHead_last {t : ℚ} : ∀ (q : List FRItem), (advanceHead t q).getLast? = q.getLast? := by
  intro q
  induction q with
  | nil => rfl
  | cons a q ih =>
    cases q with
    | nil => rfl
    | cons b l =>
      unfold advanceHead
      split
      · rw [ih]; simp
      · rfl

theorem advanceHead_same {t : ℚ} {q q' : List FRItem} (h : List.Forall₂ SameItem q q') : List.Forall₂ SameItem (advanceHead t q) (advanceHead t q') := by
  induction h with
  | nil => exact .nil
  | cons h1 h2 ih =>
    cases h2 with
    | nil => exact .cons h1 .nil
    | cons h3 h4 =>
      unfold advanceHead
      rw [h3.1]
      split
      · exact ih
      · exact .cons h1 (.cons h3 h4)

/-- Collections that cannot be told apart from time `t` on. -/
structure Twin (t : ℚ) (c d : FRC) : Prop where
  funs : c.funs = d.funs
  acc : c.acc = d.acc
  headc : ∃ h, c.queue.head? = some h ∧ h.time ≤ t
  headd : ∃ h, d.queue.head? = some h ∧ h.time ≤ t
  queue : List.Forall₂ SameItem (advanceHead t c.queue) (advanceHead t d.queue)

theorem head_ne {q : List FRItem} {t : ℚ} (h : ∃ h, q.head? = some h ∧ h.time ≤ t) : q ≠ [] := by
  rintro rfl
  obtain ⟨_, h, _⟩ := h
  cases h

namespace Twin

theorem later {t u : ℚ} {c d : FRC} (h : Twin t c d) (htu : t ≤ u) : Twin u c d := by
  obtain ⟨a, ha, hat⟩ := h.headc
  obtain ⟨b, hb, hbt⟩ := h.headd
  refine ⟨h.funs, h.acc, ⟨a, ha, le_trans hat htu⟩, ⟨b, hb, le_trans hbt htu⟩, ?_⟩
  rw [← advanceHead_idem htu c.queue, ← advanceHead_idem htu d.queue]
  exact advanceHead_same h.queue

/-- Reading gives the same dict and leaves the collections alike. -/
theorem read {t : ℚ} {c d : FRC} (h : Twin t c d) : ∃ v w c' d', c.getValuesAtTime t = .ok (v, c') ∧ d.getValuesAtTime t = .ok (w, d') ∧ SameDict v w ∧
    Twin t c' d' ∧ Twin t c d' ∧ Twin t c' d := by
  obtain ⟨a, ha, hat⟩ := h.headc
  obtain ⟨b, hb, hbt⟩ := h.headd
  obtain ⟨p1, h1, r1, e1, e2, e3, e4⟩ := advanceHead_cut t c.queue a ha hat
  obtain ⟨p2, h2, r2, f1, f2, f3, f4⟩ := advanceHead_cut t d.queue b hb hbt
  have key : ∀ {c : FRC} {a h1 : FRItem} {r1 : List FRItem}, c.queue.head? = some a → a.time ≤ t → advanceHead t c.queue = h1 :: r1 →
      c.getValuesAtTime t = .ok (h1.values, { c with queue := h1 :: r1 }) := by
    intro c a h1 r1 ha hat e1
    unfold getValuesAtTime
    cases hq : c.queue with
    | nil => rw [hq] at ha; cases ha
    | cons x l =>
      rw [hq] at ha e1
      simp only [List.head?_cons, Option.some.injEq] at ha
      subst ha
      simp only
      rw [if_neg (not_lt.mpr hat), e1]
  have hq := h.queue
  rw [e1, f1] at hq
  have hitem : SameItem h1 h2 := by cases hq with | cons x _ => exact x
  have ic : advanceHead t (h1 :: r1) = advanceHead t c.queue := by rw [← e1]; exact advanceHead_idem le_rfl _
  have id' : advanceHead t (h2 :: r2) = advanceHead t d.queue := by rw [← f1]; exact advanceHead_idem le_rfl _
  refine ⟨h1.values, h2.values, _, _, key ha hat e1, key hb hbt f1, hitem.2, ⟨h.funs, h.acc, ⟨h1, rfl, e3⟩, ⟨h2, rfl, f3⟩, ?_⟩,
    ⟨h.funs, h.acc, ⟨a, ha, hat⟩, ⟨h2, rfl, f3⟩, ?_⟩, ⟨h.funs, h.acc, ⟨h1, rfl, e3⟩, ⟨b, hb, hbt⟩, ?_⟩⟩
  · simp only; rw [ic, id']; exact h.queue
  · simp only; rw [id']; exact h.queue
  · simp only; rw [ic]; exact h.queue

/-- The last entries are the same. -/
theorem last {t : ℚ} {c d : FRC} (h : Twin t c d) : ∃ a b, c.queue.getLast? = some a ∧ d.queue.getLast? = some b ∧ SameItem a b := by
  rw [← advanceHead_last (t := t) c.queue, ← advanceHead_last (t := t) d.queue]
  have hne := advanceHead_ne (t := t) (head_ne h.headc)
  have key : ∀ {q q' : List FRItem}, List.Forall₂ SameItem q q' → q ≠ [] → ∃ a b, q.getLast? = some a ∧ q'.getLast? = some b ∧ SameItem a b := by
    intro q q' hf
    induction hf with
    | nil => intro h; exact absurd rfl h
    | cons h1 h2 ih =>
      intro _
      cases h2 with
      | nil => exact ⟨_, _, rfl, rfl, h1⟩
      | cons h3 h4 =>
        obtain ⟨a, b, x, y, z⟩ := ih (by simp)
        refine ⟨a, b, ?_, ?_, z⟩
        · rw [List.getLast?_cons_cons]; exact x
        · rw [List.getLast?_cons_cons]; exact y
  exact key h.queue hne

/-- Extending both by the same. -/
theorem extend {φ t s : ℚ} {c d c' : FRC} {v w : Rates} (h : Twin φ c d) (hv : SameDict v w) (he : c.extend t v s = .ok c') :
    ∃ d', d.extend t w s = .ok d' ∧ Twin φ c' d' := by
  obtain ⟨q1, a1, p1⟩ := FRC.extend_inv he
  obtain ⟨a, b, l1, l2, hab⟩ := h.last
  unfold FRC.extend at he ⊢
  obtain ⟨item, h1, h2⟩ := bind_eq_ok.mp he
  have hi : FRItem.new t w = .ok ⟨t, w⟩ := by
    unfold FRItem.new
    rw [pyAssert_true (hv.pos.mp p1)]; rfl
  rw [hi, ok_bind, l2]
  rw [l1] at h2
  simp only at h2 ⊢
  obtain ⟨u, h3, h4⟩ := bind_eq_ok.mp h2
  obtain ⟨d1, h5, h6⟩ := bind_eq_ok.mp h4
  obtain ⟨d2, h7, h8⟩ := bind_eq_ok.mp h6
  obtain ⟨acc, h9, h10⟩ := bind_eq_ok.mp h8
  rw [hab.1] at h3
  rw [h3, ok_bind, ← h.funs, extendLoop_perm hv.perm hv.nodup _ _ h5, ok_bind, ← dropLoop_congr hv, dropLoop_perm hab.2.perm hab.2.nodup _ _ h7, ok_bind, ← h.acc, h9, ok_bind]
  refine ⟨_, rfl, ?_⟩
  injection h10 with h10
  have hf : c'.funs = d2 := by rw [← h10]
  have hacc : c'.acc = acc := by rw [← h10]
  obtain ⟨x, hx, hxt⟩ := h.headc
  obtain ⟨y, hy, hyt⟩ := h.headd
  refine ⟨hf, hacc, ⟨x, ?_, hxt⟩, ⟨y, ?_, hyt⟩, ?_⟩
  · rw [q1, List.head?_append, hx]; rfl
  · simp only; rw [List.head?_append, hy]; rfl
  · simp only
    rw [q1, ← advanceHead_append le_rfl [⟨t, v⟩] (head_ne h.headc), ← advanceHead_append le_rfl [⟨t, w⟩] (head_ne h.headd)]
    exact advanceHead_same (List.rel_append h.queue (.cons ⟨rfl, hv⟩ .nil))

theorem symm {t : ℚ} {c d : FRC} (h : Twin t c d) : Twin t d c := by
  refine ⟨h.funs.symm, h.acc.symm, h.headd, h.headc, ?_⟩
  have := h.queue.flip
  exact this.imp (fun a b hab => ⟨hab.1.symm, hab.2.symm⟩)

end Twin
end FRC
end Verif
