import Verif.Proofs.DFlowRun

/-! Reading rates at the current time, and collections made from functions. -/

namespace Verif
open Spec

namespace FRC

theorem qRate_append {p q : List FRItem} {i : Nat} {x : ℚ} (h : ∃ it ∈ q, it.time ≤ x) : qRate (p ++ q) i x = qRate q i x := by
  unfold qRate
  rw [List.filter_append]
  obtain ⟨it, h1, h2⟩ := h
  have : q.filter (fun it => decide (it.time ≤ x)) ≠ [] := List.ne_nil_of_mem (List.mem_filter.mpr ⟨h1, by simpa using h2⟩)
  rw [List.getLast?_append_of_ne_nil _ this]

/-- The items at or before `x` are those at or before `y`. -/
theorem qRate_congr {q : List FRItem} {i : Nat} {x y : ℚ} (h : ∀ it ∈ q, it.time ≤ x ↔ it.time ≤ y) : qRate q i x = qRate q i y := by
  unfold qRate
  rw [List.filter_congr (q := fun it => decide (it.time ≤ y))]
  intro it hit
  simpa using h it hit

theorem qRate_filter {q q' : List FRItem} {i : Nat} {x y : ℚ}
    (h : q.filter (fun it => decide (it.time ≤ x)) = q'.filter (fun it => decide (it.time ≤ y))) : qRate q i x = qRate q' i y := by
  unfold qRate; rw [h]

/-- Queries from time `φ` on are answered with the rates `R`. -/
structure Reads (c : FRC) (φ : ℚ) (R : Nat → ℚ → ℚ) : Prop where
  sorted : c.queue.Pairwise (fun a b => a.time ≤ b.time)
  items : ∀ it ∈ c.queue, it.values.Ok
  head : ∃ h, c.queue.head? = some h ∧ h.time ≤ φ
  rate : ∀ i x, φ ≤ x → qRate c.queue i x = R i x

theorem Reads.later {c : FRC} {φ ψ : ℚ} {R : Nat → ℚ → ℚ} (h : c.Reads φ R) (hle : φ ≤ ψ) : c.Reads ψ R := by
  obtain ⟨a, h1, h2⟩ := h.head
  exact ⟨h.sorted, h.items, ⟨a, h1, le_trans h2 hle⟩, fun i x hx => h.rate i x (le_trans hle hx)⟩

theorem advanceHead_next {t : ℚ} : ∀ (q : List FRItem) {a : FRItem} {r : List FRItem}, advanceHead t q = a :: r →
    ∀ b l, r = b :: l → t < b.time := by
  intro q
  induction q with
  | nil => intro a r h; cases h
  | cons x q ih =>
    intro a r h b l hr
    cases q with
    | nil => simp [advanceHead] at h; rw [h.2] at hr; cases hr
    | cons y q =>
      unfold advanceHead at h
      split at h
      · exact ih h b l hr
      · rename_i hy
        injection h with h1 h2
        rw [← h2] at hr
        injection hr with hr _
        rw [← hr]; exact not_le.mp hy

theorem Reads.query {c : FRC} {φ : ℚ} {R : Nat → ℚ → ℚ} (h : c.Reads φ R) :
    ∃ v c', c.getValuesAtTime φ = .ok (v, c') ∧ v.Ok ∧ (∀ i, v.get i = R i φ) ∧ c'.Reads φ R ∧ c'.funs = c.funs ∧ c'.acc = c.acc := by
  obtain ⟨a, h1, h2⟩ := h.head
  obtain ⟨pre, h', r', x1, x2, x3, x4⟩ := advanceHead_cut φ c.queue a h1 h2
  have hq : c.getValuesAtTime φ = .ok (h'.values, { c with queue := h' :: r' }) := by
    unfold getValuesAtTime
    cases hq : c.queue with
    | nil => rw [hq] at h1; cases h1
    | cons b l =>
      rw [hq] at h1
      simp at h1
      subst h1
      simp only
      rw [if_neg (not_lt.mpr h2), ← hq, x1]
  have hs := h.sorted
  rw [x2, List.pairwise_append] at hs
  have hs2 := hs.2.1
  have hr : ∀ it ∈ r', φ < it.time := by
    cases r' with
    | nil => intro it hit; cases hit
    | cons b l =>
      have hb := advanceHead_next c.queue x1 b l rfl
      intro it hit
      rcases List.mem_cons.mp hit with rfl | hit
      · exact hb
      · rw [List.pairwise_cons] at hs2
        exact lt_of_lt_of_le hb ((List.pairwise_cons.mp hs2.2).1 it hit)
  have hrate : ∀ i x, φ ≤ x → qRate (h' :: r') i x = R i x := by
    intro i x hx
    rw [← h.rate i x hx, x2]
    exact (qRate_append ⟨h', by simp, le_trans x3 hx⟩).symm
  refine ⟨h'.values, _, hq, h.items h' (by rw [x2]; simp), ?_, ⟨hs2, ?_, ⟨h', rfl, x3⟩, hrate⟩, rfl, rfl⟩
  · intro i
    rw [← hrate i φ le_rfl]
    unfold qRate
    rw [List.filter_cons_of_pos (by simpa using x3), List.filter_eq_nil_iff.mpr (by
      intro it hit; simpa using hr it hit)]
    simp
  · intro it hit
    exact h.items it (by rw [x2]; exact List.mem_append_right _ hit)

/-- The rates of a good collection can be read. -/
theorem Good.reads {c : FRC} {L R : ℚ} {V : Rates} (h : c.Good L V R) {φ : ℚ} (h0 : 0 ≤ φ)
    (hh : ∃ a, c.queue.head? = some a ∧ a.time ≤ φ) : c.Reads φ (FRC.rate c.funs) := by
  refine ⟨h.sorted, h.items, hh, fun i x hx => ?_⟩
  obtain ⟨pre, hp⟩ := h.hist
  obtain ⟨a, h1, h2⟩ := hh
  rw [hp i x (le_trans h0 hx)]
  exact (qRate_append ⟨a, List.mem_of_mem_head? h1, le_trans h2 hx⟩).symm

/-- The rate of commodity `i` in a dict of functions. -/
def dictRate (l : List (Nat × RC)) (i : Nat) (t : ℚ) : ℚ :=
  match l.lookup i with
  | none => 0
  | some f => f.fn t

/-- A dict of functions from which a collection can be made. -/
structure DictOk (l : List (Nat × RC)) : Prop where
  keys : (l.map Prod.fst).Nodup
  wf : ∀ p ∈ l, p.2.WF
  lo : ∀ p ∈ l, p.2.lo ≤ ((0 : ℚ) : WithBot ℚ)
  hi : ∀ p ∈ l, p.2.hi = ⊤
  pos : ∀ p ∈ l, ∀ t ∈ p.2.times, 0 ≤ t
  start : l ≠ [] → ∃ p ∈ l, (0 : ℚ) ∈ p.2.times
  apart : Apart eps (l.map (fun p => p.2.times)).flatten
  vals : ∀ p ∈ l, ∀ v ∈ p.2.values, 0 ≤ v

theorem mergeTimes_spec : ∀ (l : List (Nat × RC)) (S times : List ℚ), (∀ p ∈ l, p.2.times.Pairwise (· ≤ ·)) →
    times.Pairwise (· < ·) → (∀ t, t ∈ times ↔ t ∈ S) → Apart eps (S ++ (l.map (fun p => p.2.times)).flatten) →
    (mergeTimes l times).Pairwise (· < ·) ∧ ∀ t, t ∈ mergeTimes l times ↔ t ∈ S ∨ ∃ p ∈ l, t ∈ p.2.times := by
  intro l
  induction l with
  | nil => intro S times _ h1 h2 _; exact ⟨h1, by simpa [mergeTimes] using h2⟩
  | cons p l ih =>
    intro S times hs h1 h2 hap
    have hm := mergeSorted_isMerge times p.2.times (h1.imp le_of_lt) (hs p (by simp))
    have hmem : ∀ t, t ∈ mergeSorted times p.2.times ↔ t ∈ S ++ p.2.times := by
      intro t
      rw [hm.mem_iff (by
        intro a ha b hb
        apply hap
        · rcases List.mem_append.mp ha with ha | ha
          · exact List.mem_append_left _ ((h2 a).mp ha)
          · simp [ha]
        · rcases List.mem_append.mp hb with hb | hb
          · exact List.mem_append_left _ ((h2 b).mp hb)
          · simp [hb])]
      rw [List.mem_append, List.mem_append, h2]
    obtain ⟨a, b⟩ := ih (S ++ p.2.times) (mergeSorted times p.2.times) (fun q hq => hs q (by simp [hq])) (PL.gap_lt hm.gaps) hmem
      (by simpa [List.append_assoc] using hap)
    refine ⟨by rw [mergeTimes]; exact a, ?_⟩
    intro t
    rw [mergeTimes, b t]
    simp [or_assoc]

theorem positiveAt_spec (time : ℚ) : ∀ (l : List (Nat × RC)), (∀ p ∈ l, p.2.WF ∧ p.2.inDom time) →
    ∃ v, positiveAt time l = .ok v ∧ (∀ q ∈ v, 0 < q.2) ∧ (∀ q ∈ v, ∃ p ∈ l, p.1 = q.1) ∧
      ((l.map Prod.fst).Nodup → (v.map Prod.fst).Nodup ∧ ∀ i, v.get i = max 0 (dictRate l i time)) := by
  intro l
  induction l with
  | nil => intro _; exact ⟨[], rfl, by simp, by simp, by simp [Rates.get, dictRate]⟩
  | cons p l ih =>
    obtain ⟨j, f⟩ := p
    intro h
    obtain ⟨v, e1, e2, e3, e4⟩ := ih (fun p hp => h p (by simp [hp]))
    obtain ⟨hw, hd⟩ := h (j, f) (by simp)
    refine ⟨if f.fn time > 0 then (j, f.fn time) :: v else v, ?_, ?_, ?_, ?_⟩
    · unfold positiveAt
      rw [RC.eval_eq hw hd, ok_bind, e1, ok_bind]; rfl
    · intro q hq
      split at hq
      · rename_i hpos
        rcases List.mem_cons.mp hq with rfl | hq
        · exact hpos
        · exact e2 q hq
      · exact e2 q hq
    · intro q hq
      have : q = (j, f.fn time) ∨ q ∈ v := by
        split at hq
        · exact List.mem_cons.mp hq
        · exact Or.inr hq
      rcases this with rfl | hq
      · exact ⟨(j, f), by simp, rfl⟩
      · obtain ⟨p, hp, hpe⟩ := e3 q hq
        exact ⟨p, by simp [hp], hpe⟩
    · intro hnd
      rw [List.map_cons, List.nodup_cons] at hnd
      obtain ⟨k1, k2⟩ := e4 hnd.2
      have hjv : j ∉ v.map Prod.fst := by
        intro hc
        obtain ⟨q, hq, hqe⟩ := List.mem_map.mp hc
        obtain ⟨p, hp, hpe⟩ := e3 q hq
        exact hnd.1 (List.mem_map.mpr ⟨p, hp, by rw [hpe, hqe]⟩)
      constructor
      · split
        · rw [List.map_cons, List.nodup_cons]; exact ⟨hjv, k1⟩
        · exact k1
      · intro i
        unfold dictRate
        by_cases hi : i = j
        · subst hi
          simp only [List.lookup_cons, beq_self_eq_true]
          split
          · rename_i hpos
            rw [max_eq_right (le_of_lt hpos)]
            simp [Rates.get]
          · rename_i hpos
            rw [max_eq_left (not_lt.mp hpos)]
            apply Rates.get_of_not_has
            intro hc
            obtain ⟨x, hx⟩ := Rates.has_iff.mp hc
            exact hjv (List.mem_map.mpr ⟨_, hx, rfl⟩)
        · have hb : (i == j) = false := by simpa using hi
          simp only [List.lookup_cons, hb]
          have := k2 i
          unfold dictRate at this
          rw [← this]
          split
          · unfold Rates.get; rw [List.lookup_cons]; simp only [hb]
          · rfl

theorem itemsAt_spec (l : List (Nat × RC)) (hnd : (l.map Prod.fst).Nodup) : ∀ (ts : List ℚ), (∀ t ∈ ts, ∀ p ∈ l, p.2.WF ∧ p.2.inDom t) →
    ∃ items, itemsAt l ts = .ok items ∧ items.map FRItem.time = ts ∧
      ∀ it ∈ items, it.values.Ok ∧ ∀ i, it.values.get i = max 0 (dictRate l i it.time) := by
  intro ts
  induction ts with
  | nil => intro _; exact ⟨[], rfl, rfl, by simp⟩
  | cons t ts ih =>
    intro h
    obtain ⟨v, e1, e2, e3, e4⟩ := positiveAt_spec t l (h t (by simp))
    obtain ⟨items, f1, f2, f3⟩ := ih (fun t' ht' => h t' (by simp [ht']))
    obtain ⟨k1, k2⟩ := e4 hnd
    refine ⟨⟨t, v⟩ :: items, ?_, by simp [f2], ?_⟩
    · unfold itemsAt FRItem.new
      rw [e1, ok_bind, pyAssert_true e2, ok_bind, py_pure, ok_bind, f1, ok_bind]; rfl
    · intro it hit
      rcases List.mem_cons.mp hit with rfl | hit
      · exact ⟨⟨k1, e2⟩, k2⟩
      · exact f3 it hit

theorem fn_nonneg {f : RC} (h : f.WF) (hv : ∀ v ∈ f.values, 0 ≤ v) (x : ℚ) : 0 ≤ f.fn x := by
  rw [RC.fn_eq_getElem h]
  exact hv _ (List.getElem_mem _)

theorem lookup_of_mem {α : Type} {l : List (Nat × α)} (hnd : (l.map Prod.fst).Nodup) {p : Nat × α} (hp : p ∈ l) : l.lookup p.1 = some p.2 := by
  induction l with
  | nil => cases hp
  | cons q l ih =>
    rw [List.map_cons, List.nodup_cons] at hnd
    rcases List.mem_cons.mp hp with rfl | hp
    · rw [List.lookup_cons, beq_self_eq_true]
    · have : p.1 ≠ q.1 := fun e => hnd.1 (List.mem_map.mpr ⟨p, hp, e⟩)
      rw [List.lookup_cons]
      have hb : (p.1 == q.1) = false := by simpa using this
      rw [hb]; exact ih hnd.2 hp

theorem mem_of_lookup {α : Type} {l : List (Nat × α)} {i : Nat} {x : α} (h : l.lookup i = some x) : (i, x) ∈ l := by
  induction l with
  | nil => cases h
  | cons q l ih =>
    obtain ⟨j, y⟩ := q
    rw [List.lookup_cons] at h
    by_cases hj : i = j
    · subst hj; simp at h; subst h; simp
    · have : (i == j) = false := by simpa using hj
      rw [this] at h
      exact List.mem_cons_of_mem _ (ih h)

theorem DictOk.nonneg {l : List (Nat × RC)} (h : DictOk l) (i : Nat) (t : ℚ) : 0 ≤ dictRate l i t := by
  unfold dictRate
  cases hl : l.lookup i with
  | none => exact le_rfl
  | some f =>
    have := mem_of_lookup hl
    exact fn_nonneg (h.wf _ this) (h.vals _ this) t

/-- `FlowRatesCollection(functions_dict)`. -/
theorem ofDict_reads {l : List (Nat × RC)} (h : DictOk l) :
    ∃ c, ofDict l = .ok c ∧ c.Reads 0 (dictRate l) ∧ c.funs = fun i => l.lookup i := by
  obtain ⟨m1, m2⟩ := mergeTimes_spec l [] [] (fun p hp => (h.wf p hp).le) (by simp) (by simp) (by simpa using h.apart)
  have m2' : ∀ t, t ∈ mergeTimes l [] ↔ ∃ p ∈ l, t ∈ p.2.times := by intro t; rw [m2]; simp
  obtain ⟨items, i1, i2, i3⟩ := itemsAt_spec l h.keys (mergeTimes l []) (by
    intro t ht p hp
    obtain ⟨q, hq, ht⟩ := (m2' t).mp ht
    refine ⟨h.wf p hp, ?_⟩
    unfold RC.inDom
    rw [h.hi p hp]
    exact ⟨le_trans (h.lo p hp) (WithBot.coe_le_coe.mpr (h.pos q hq t ht)), le_top⟩)
  have hnew : FRItem.new 0 [] = .ok ⟨0, []⟩ := by decide +kernel
  have hacc : ∃ s acc, RC.sum (l.map Prod.snd) ((0 : ℚ) : WithBot ℚ) ⊤ = .ok s ∧ s.integral = .ok acc := by
    by_cases hl : l = []
    · subst hl
      refine ⟨⟨[0], [0], (0 : ℚ), ⊤⟩, ⟨[0], [0], 0, 0, (0 : ℚ), ⊤⟩, by decide +kernel, by decide +kernel⟩
    · obtain ⟨s, e1, e2, e3, e4, e5, e6⟩ := RC.sum_ok (fs := l.map Prod.snd) (lo := ((0 : ℚ) : WithBot ℚ)) (hi := ⊤)
        (by intro f hf; obtain ⟨p, hp, rfl⟩ := List.mem_map.mp hf; exact h.wf p hp) (by simpa using hl)
        (by
          intro f hf t ht
          obtain ⟨p, hp, rfl⟩ := List.mem_map.mp hf
          exact ⟨WithBot.coe_le_coe.mpr (h.pos p hp t ht), le_top⟩)
        (by
          have := h.apart
          rw [List.map_map]
          exact this)
      have hmem : ∀ t, t ∈ s.times ↔ ∃ p ∈ l, t ∈ p.2.times := by
        intro t; rw [e6]
        constructor
        · rintro ⟨f, hf, ht⟩
          obtain ⟨p, hp, rfl⟩ := List.mem_map.mp hf
          exact ⟨p, hp, ht⟩
        · rintro ⟨p, hp, ht⟩
          exact ⟨p.2, List.mem_map.mpr ⟨p, hp, rfl⟩, ht⟩
      have h0 : s.times[0]'e2.pos = 0 := by
        obtain ⟨p, hp, hp0⟩ := h.start hl
        obtain ⟨j, hj, hj0⟩ := List.getElem_of_mem ((hmem 0).mpr ⟨p, hp, hp0⟩)
        obtain ⟨q, hq, hqt⟩ := (hmem _).mp (List.getElem_mem e2.pos)
        have h1 := h.pos q hq _ hqt
        have h2 : s.times[0]'e2.pos ≤ s.times[j] := by
          rcases Nat.eq_zero_or_pos j with hj | hj
          · subst hj; exact le_rfl
          · exact le_of_lt (List.pairwise_iff_getElem.mp e2.lt 0 j e2.pos (by assumption) hj)
        rw [hj0] at h2
        exact le_antisymm h2 h1
      obtain ⟨F, g1, _⟩ := RC.integral_ok e2 (by
        rw [List.pairwise_iff_getElem]
        intro a b ha hb hab
        have hlt := List.pairwise_iff_getElem.mp e2.lt a b ha hb hab
        obtain ⟨p, hp, hpt⟩ := (hmem _).mp (List.getElem_mem ha)
        obtain ⟨q, hq, hqt⟩ := (hmem _).mp (List.getElem_mem hb)
        have := h.apart _ (List.mem_flatten.mpr ⟨_, List.mem_map.mpr ⟨p, hp, rfl⟩, hpt⟩) _ (List.mem_flatten.mpr ⟨_, List.mem_map.mpr ⟨q, hq, rfl⟩, hqt⟩) hlt
        linarith) (by rw [h0, e3]) (by rw [e4]; exact le_top)
      exact ⟨s, F, e1, g1⟩
  obtain ⟨s, acc, a1, a2⟩ := hacc
  refine ⟨⟨fun i => l.lookup i, ⟨0, []⟩ :: items, acc⟩, ?_, ⟨?_, ?_, ⟨_, rfl, le_rfl⟩, ?_⟩, rfl⟩
  · unfold ofDict
    rw [hnew, ok_bind, a1, ok_bind, a2, ok_bind, i1, ok_bind]; rfl
  · rw [List.pairwise_cons]
    constructor
    · intro it hit
      have : it.time ∈ mergeTimes l [] := by rw [← i2]; exact List.mem_map.mpr ⟨it, hit, rfl⟩
      obtain ⟨p, hp, hpt⟩ := (m2' _).mp this
      exact h.pos p hp _ hpt
    · have : items.Pairwise (fun a b => a.time < b.time) := by
        rw [← i2, List.pairwise_map] at m1; exact m1
      exact this.imp le_of_lt
  · intro it hit
    rcases List.mem_cons.mp hit with rfl | hit
    · exact ⟨by simp, by simp⟩
    · exact (i3 it hit).1
  · intro i x hx
    simp only
    by_cases hl : l = []
    · subst hl
      have : items = [] := by rw [mergeTimes] at i2; exact List.map_eq_nil_iff.mp i2
      subst this
      unfold qRate dictRate
      simp [hx, Rates.get]
    · -- the last item not later than `x`
      have hne : items.filter (fun it => decide (it.time ≤ x)) ≠ [] := by
        obtain ⟨p, hp, hp0⟩ := h.start hl
        have h1 : (0 : ℚ) ∈ items.map FRItem.time := by rw [i2]; exact (m2' 0).mpr ⟨p, hp, hp0⟩
        obtain ⟨it, hit, ht⟩ := List.mem_map.mp h1
        exact List.ne_nil_of_mem (List.mem_filter.mpr ⟨hit, by simpa [ht] using hx⟩)
      have : qRate (⟨0, []⟩ :: items) i x = qRate items i x := by
        have h2 : ∃ it ∈ items, it.time ≤ x := by
          obtain ⟨it, hit⟩ := List.exists_mem_of_ne_nil _ hne
          obtain ⟨h3, h4⟩ := List.mem_filter.mp hit
          exact ⟨it, h3, by simpa using h4⟩
        exact qRate_append (p := [⟨0, []⟩]) h2
      rw [this]
      unfold qRate
      rw [List.getLast?_eq_some_getLast hne]
      simp only
      set it := (items.filter (fun it => decide (it.time ≤ x))).getLast hne with hit
      have hmem := List.getLast_mem hne
      rw [← hit] at hmem
      obtain ⟨h3, h4⟩ := List.mem_filter.mp hmem
      have h4' : it.time ≤ x := by simpa using h4
      rw [(i3 it h3).2 i, max_eq_right (h.nonneg i _)]
      unfold dictRate
      cases hlk : l.lookup i with
      | none => rfl
      | some f =>
        apply RC.fn_congr
        intro t ht
        constructor
        · intro h5; exact le_trans h5 h4'
        · intro h5
          have h6 : t ∈ items.map FRItem.time := by rw [i2]; exact (m2' t).mpr ⟨_, mem_of_lookup hlk, ht⟩
          obtain ⟨it2, h7, h8⟩ := List.mem_map.mp h6
          have h9 : it2 ∈ items.filter (fun it => decide (it.time ≤ x)) := List.mem_filter.mpr ⟨h7, by rw [h8]; simpa using h5⟩
          have hs : (items.filter (fun it => decide (it.time ≤ x))).Pairwise (fun a b => a.time ≤ b.time) := by
            have : items.Pairwise (fun a b => a.time < b.time) := by
              rw [← i2, List.pairwise_map] at m1; exact m1
            exact (this.imp le_of_lt).filter _
          rw [← List.dropLast_append_getLast hne, List.pairwise_append] at hs
          rw [← List.dropLast_append_getLast hne] at h9
          rcases List.mem_append.mp h9 with h9 | h9
          · have := hs.2.2 it2 h9 _ (List.mem_singleton_self _)
            rw [h8] at this; exact this
          · rw [List.mem_singleton.mp h9] at h8
            rw [← h8]

end FRC
end Verif
