import Verif.Proofs.FlowRatesLinked
import Verif.Spec.FlowRates

/-! Runs of calls on a collection (src/core/flow_rates_collection.py). -/

namespace Verif
open Spec

namespace FRC

/-- The step function can be extended from `L` on. -/
def TameRC (L : ℚ) (f : RC) : Prop := (∃ l, f.times.getLast? = some l ∧ l ≤ L) ∧ f.values ≠ []

/-- The cumulative function can be extended from `L` on. -/
def TamePL (L : ℚ) (f : PL) : Prop := (∃ l, f.times.getLast? = some l ∧ l ≤ L) ∧ f.values ≠ []

theorem TameRC.extend {L t v : ℚ} {f : RC} (h : TameRC L f) (ht : L ≤ t) :
    ∃ g, f.extend t v = .ok g ∧ TameRC t g := by
  have hep := eps_pos
  obtain ⟨⟨l, h1, h2⟩, h3⟩ := h
  have hne : f.times ≠ [] := by intro e; rw [e] at h1; cases h1
  have hl : f.times.getLast hne = l := by
    rw [List.getLast?_eq_some_getLast hne] at h1; injection h1
  unfold RC.extend
  rw [rdLast_eq _ hne, ok_bind, hl, pyAssert_true (by linarith), ok_bind, rdLast_eq _ h3, ok_bind]
  split
  · exact ⟨f, rfl, ⟨l, h1, by linarith⟩, h3⟩
  · split
    · exact ⟨_, rfl, ⟨l, h1, by linarith⟩, by simp⟩
    · exact ⟨_, rfl, ⟨t, by simp, le_rfl⟩, by simp⟩

theorem TamePL.extend {L t v : ℚ} {f : PL} (h : TamePL L f) (ht : L ≤ t) :
    ∃ g, f.extendWithSlope t v = .ok g ∧ TamePL t g := by
  have hep := eps_pos
  obtain ⟨⟨l, h1, h2⟩, h3⟩ := h
  have hne : f.times ≠ [] := by intro e; rw [e] at h1; cases h1
  have hl : f.times.getLast hne = l := by
    rw [List.getLast?_eq_some_getLast hne] at h1; injection h1
  unfold PL.extendWithSlope
  rw [rdLast_eq _ hne, ok_bind, hl, pyAssert_true (by linarith), ok_bind]
  split
  · exact ⟨f, rfl, ⟨l, h1, by linarith⟩, h3⟩
  · split
    · rw [rdLast_eq _ h3, ok_bind]
      exact ⟨_, rfl, ⟨t, by simp, le_rfl⟩, by simp⟩
    · exact ⟨_, rfl, ⟨l, h1, by linarith⟩, h3⟩

theorem TameRC.mono {L t : ℚ} {f : RC} (h : TameRC L f) (ht : L ≤ t) : TameRC t f := by
  obtain ⟨⟨l, h1, h2⟩, h3⟩ := h; exact ⟨⟨l, h1, by linarith⟩, h3⟩

theorem entry_tame {d : Nat → Option RC} {L : ℚ} (h0 : 0 ≤ L) (h : ∀ i f, d i = some f → TameRC L f) (i : Nat) :
    ∃ f, entry d i = .ok f ∧ TameRC L f := by
  unfold entry
  cases hd : d i with
  | none => exact ⟨⟨[0], [0], (0 : ℚ), ⊤⟩, by decide +kernel, ⟨0, rfl, h0⟩, by decide⟩
  | some f => exact ⟨f, rfl, h i f hd⟩

theorem extendLoop_tame {L t : ℚ} (h0 : 0 ≤ L) (ht : L ≤ t) :
    ∀ (vs : Rates) (d : Nat → Option RC), (∀ i f, d i = some f → TameRC t f) →
      ∃ d', extendLoop t vs d = .ok d' ∧ (∀ i f, d' i = some f → TameRC t f) ∧
        (∀ i, (d i).isSome → (d' i).isSome) ∧ (∀ p ∈ vs, (d' p.1).isSome) := by
  intro vs
  induction vs with
  | nil => intro d h; exact ⟨d, rfl, h, fun _ h => h, by simp⟩
  | cons p vs ih =>
    obtain ⟨i, v⟩ := p
    intro d h
    obtain ⟨f, e1, hf⟩ := entry_tame (le_trans h0 ht) h i
    obtain ⟨g, e2, hg⟩ := hf.extend (v := v) le_rfl
    have h' : ∀ j f, put d i g j = some f → TameRC t f := by
      intro j f hj
      unfold put at hj
      split at hj
      · injection hj with hj; subst hj; exact hg
      · exact h j f hj
    obtain ⟨d', e3, a, b, c⟩ := ih (put d i g) h'
    refine ⟨d', ?_, a, ?_, ?_⟩
    · unfold extendLoop; rw [e1, ok_bind, e2, ok_bind, e3]
    · intro j hj
      apply b; unfold put; split
      · rfl
      · exact hj
    · intro p hp
      rcases List.mem_cons.mp hp with rfl | hp
      · apply b; simp [put]
      · exact c p hp

theorem dropLoop_tame {t : ℚ} (values : Rates) :
    ∀ (vs : Rates) (d : Nat → Option RC), (∀ p ∈ vs, (d p.1).isSome) →
      (∀ i f, d i = some f → TameRC t f) →
      ∃ d', dropLoop t values vs d = .ok d' ∧ (∀ i f, d' i = some f → TameRC t f) ∧
        (∀ i, (d i).isSome → (d' i).isSome) := by
  intro vs
  induction vs with
  | nil => intro d _ h; exact ⟨d, rfl, h, fun _ h => h⟩
  | cons p vs ih =>
    obtain ⟨i, v⟩ := p
    intro d hk h
    unfold dropLoop
    split
    · exact ih d (fun p hp => hk p (by simp [hp])) h
    · obtain ⟨f, hf⟩ := Option.isSome_iff_exists.mp (hk (i, v) (by simp))
      simp only at hf
      rw [hf]
      obtain ⟨g, e2, hg⟩ := (h i f hf).extend (v := 0) le_rfl
      simp only
      rw [e2, ok_bind]
      have h' : ∀ j f, put d i g j = some f → TameRC t f := by
        intro j f hj
        unfold put at hj
        split at hj
        · injection hj with hj; subst hj; exact hg
        · exact h j f hj
      have hs : ∀ j, (d j).isSome → (put d i g j).isSome := by
        intro j hj; unfold put; split
        · rfl
        · exact hj
      obtain ⟨d', e3, a, b⟩ := ih (put d i g) (fun p hp => hs _ (hk p (by simp [hp]))) h'
      exact ⟨d', e3, a, fun j hj => b j (hs j hj)⟩

/-- The collection accepts every extension from `L` on. -/
structure Tame (c : FRC) (L : ℚ) : Prop where
  start : 0 ≤ L
  acc : TamePL L c.acc
  funs : ∀ i f, c.funs i = some f → TameRC L f
  tail : ∃ it, c.queue.getLast? = some it ∧ it.time ≤ L ∧ ∀ p ∈ it.values, (c.funs p.1).isSome
  pos : ∀ it ∈ c.queue, ∀ p ∈ it.values, 0 < p.2

theorem Tame.extend {c : FRC} {L t s : ℚ} {v : Rates} (h : c.Tame L) (ht : L ≤ t) (hv : ∀ p ∈ v, 0 < p.2) :
    ∃ c', c.extend t v s = .ok c' ∧ c'.Tame t ∧ c'.queue = c.queue ++ [⟨t, v⟩] := by
  have hep := eps_pos
  obtain ⟨it, q1, q2, q3⟩ := h.tail
  have hf : ∀ i f, c.funs i = some f → TameRC t f := fun i f hf => (h.funs i f hf).mono ht
  obtain ⟨d1, e1, a1, b1, c1⟩ := extendLoop_tame h.start ht v c.funs hf
  obtain ⟨d2, e2, a2, b2⟩ := dropLoop_tame v it.values d1 (fun p hp => b1 _ (q3 p hp)) a1
  obtain ⟨acc, e3, ha⟩ := h.acc.extend (v := s) ht
  refine ⟨⟨d2, c.queue ++ [⟨t, v⟩], acc⟩, ?_, ⟨le_trans h.start ht, ha, a2, ⟨⟨t, v⟩, by simp, le_rfl, ?_⟩, ?_⟩, rfl⟩
  · unfold FRC.extend FRItem.new
    rw [pyAssert_true hv, ok_bind]
    simp only [py_pure, ok_bind]
    rw [q1]
    simp only
    rw [pyAssert_true (by linarith), ok_bind, e1, ok_bind, e2, ok_bind, e3, ok_bind]
  · intro p hp; exact b2 _ (c1 p hp)
  · intro i hi
    rcases List.mem_append.mp hi with hi | hi
    · exact h.pos i hi
    · simp at hi; subst hi; exact hv

theorem empty_tame : ∃ c, FRC.empty = .ok c ∧ c.Tame 0 ∧ c.queue = [⟨0, []⟩] := by
  obtain ⟨c, h1, h2, _, h4, h5, h6⟩ := empty_good
  refine ⟨c, h1, ⟨le_rfl, ⟨⟨0, by rw [h6]; rfl, le_rfl⟩, h2.acc.wf.vne⟩, ?_, ⟨⟨0, []⟩, by rw [h5]; rfl, le_rfl, by simp⟩, ?_⟩, h5⟩
  · intro i f hf
    have := (h2.funs i).1 f hf
    refine ⟨⟨_, List.getLast?_eq_some_getLast this.wf.ne, ?_⟩, this.wf.vne⟩
    have := this.last.le
    exact this
  · rw [h5]; simp

/-- The item as a pair. -/
def pr (i : FRItem) : ℚ × List (Nat × ℚ) := (i.time, i.values)

/-- What the queue of a collection knows of the history: it is a part from the end, and everything before it is not later
than its first item. -/
def Suffix (hist : List (ℚ × List (Nat × ℚ))) (cons : ℚ) (q : List FRItem) : Prop :=
  ∃ pre h r, hist = pre ++ (q.map pr) ∧ q = h :: r ∧ h.time = cons ∧ (q.map FRItem.time).Pairwise (· ≤ ·)

theorem advanceHead_spec (t : ℚ) : ∀ (q : List FRItem) (h : FRItem) (r : List FRItem), q = h :: r → h.time ≤ t →
    (q.map FRItem.time).Pairwise (· ≤ ·) →
    ∃ pre h' r', advanceHead t q = h' :: r' ∧ q = pre ++ h' :: r' ∧ h'.time ≤ t ∧ ∀ x ∈ r', t < x.time := by
  intro q
  induction q with
  | nil => intro h r e; cases e
  | cons a q ih =>
    intro h r e ht hs
    injection e with e1 e2
    subst e1; subst e2
    cases q with
    | nil => exact ⟨[], a, [], rfl, rfl, ht, by simp⟩
    | cons b l =>
      rw [List.map_cons, List.pairwise_cons] at hs
      unfold advanceHead
      by_cases hb : b.time ≤ t
      · rw [if_pos hb]
        obtain ⟨pre, h', r', x1, x2, x3, x4⟩ := ih b l rfl hb hs.2
        exact ⟨a :: pre, h', r', x1, by rw [x2]; rfl, x3, x4⟩
      · rw [if_neg hb]
        refine ⟨[], a, b :: l, rfl, rfl, ht, ?_⟩
        intro x hx
        rcases List.mem_cons.mp hx with rfl | hx
        · exact not_le.mp hb
        · have h2 := hs.2
          rw [List.map_cons, List.pairwise_cons] at h2
          have := h2.1 x.time (List.mem_map.mpr ⟨x, hx, rfl⟩)
          exact lt_of_lt_of_le (not_le.mp hb) this

theorem inForce_append {pre : List (ℚ × List (Nat × ℚ))} {h : FRItem} {r : List FRItem} {t : ℚ} (h1 : h.time ≤ t)
    (h2 : ∀ x ∈ r, t < x.time) : inForce (pre ++ pr h :: r.map pr) t = some (pr h) := by
  unfold inForce
  have h3 : (r.map pr).filter (fun p => decide (p.1 ≤ t)) = [] := by
    rw [List.filter_eq_nil_iff]
    intro p hp
    obtain ⟨x, hx, rfl⟩ := List.mem_map.mp hp
    have := h2 x hx
    intro hc
    exact not_le.mpr this (of_decide_eq_true hc)
  rw [List.filter_append, List.filter_cons_of_pos (p := fun p : ℚ × List (Nat × ℚ) => decide (p.1 ≤ t)) (a := pr h) (decide_eq_true h1), h3]
  simp

/-- A query against the specification. -/
theorem query_spec {c : FRC} {hist : List (ℚ × List (Nat × ℚ))} {cons : ℚ} (h : Suffix hist cons c.queue) (t : ℚ) :
    (t < cons ∧ c.getValuesAtTime t = .error .value) ∨
    (¬ t < cons ∧ ∃ p q, inForce hist t = some p ∧ c.getValuesAtTime t = .ok (p.2, { c with queue := q }) ∧
      Suffix hist p.1 q ∧ (∃ pre, c.queue = pre ++ q)) := by
  obtain ⟨pre, h0, r, h1, h2, h3, h4⟩ := h
  unfold getValuesAtTime
  rw [h2]
  simp only
  by_cases ht : h0.time > t
  · left; rw [if_pos ht]; exact ⟨by rw [← h3]; exact ht, rfl⟩
  · right
    rw [if_neg ht]
    refine ⟨by rw [← h3]; exact ht, ?_⟩
    rw [h2] at h4
    obtain ⟨pre', h', r', x1, x2, x3, x4⟩ := advanceHead_spec t (h0 :: r) h0 r rfl (not_lt.mp ht) h4
    rw [x1]
    simp only
    refine ⟨pr h', h' :: r', ?_, rfl, ⟨pre ++ pre'.map pr, h', r', ?_, rfl, rfl, ?_⟩, ⟨pre', x2⟩⟩
    · rw [h1, h2, x2, List.map_append, ← List.append_assoc, List.map_cons]
      exact inForce_append x3 x4
    · rw [h1, h2, x2, List.map_append, List.append_assoc]
    · rw [x2, List.map_append, List.pairwise_append] at h4
      exact h4.2.1

end FRC
end Verif
