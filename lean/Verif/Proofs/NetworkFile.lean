import Verif.Spec.NetworkFile
import Mathlib.Data.List.Basic
import Mathlib.Tactic.Common

/-! Proofs about the shared network file. -/

namespace Verif.NetworkFile
open Verif.Spec

theorem writeAt_length (file : List UInt8) (k : Nat) (b : List UInt8) : (writeAt file k b).length = max file.length (k + b.length) := by
  unfold writeAt
  simp only [List.length_append, List.length_take, List.length_replicate, List.length_drop]
  omega

theorem writeAt_get (file : List UInt8) (k : Nat) (b : List UInt8) (i : Nat) (h : i < file.length ∨ k ≤ i) :
    (writeAt file k b)[i]? = if k ≤ i ∧ i < k + b.length then b[i - k]? else file[i]? := by
  unfold writeAt
  have hl : ((file ++ List.replicate (k - file.length) 0).take k).length = k := by
    simp only [List.length_append, List.length_take, List.length_replicate]; omega
  by_cases h1 : i < k
  · rw [if_neg (by omega), List.append_assoc, List.getElem?_append_left (by omega), List.getElem?_take_of_lt h1]
    rw [List.getElem?_append_left (by omega)]
  · by_cases h2 : i < k + b.length
    · rw [if_pos ⟨by omega, h2⟩, List.append_assoc, List.getElem?_append_right (by omega), hl, List.getElem?_append_left (by omega)]
    · rw [if_neg (by omega), List.getElem?_append_right (by rw [List.length_append, hl]; omega), List.length_append, hl, List.getElem?_drop]
      congr 1
      omega

/-- The first `k` bytes are there. -/
def Prefix (bytes file : List UInt8) (k : Nat) : Prop := k ≤ bytes.length ∧ file.length ≤ bytes.length ∧ ∀ i, i < k → file[i]? = bytes[i]?

theorem Prefix.le {bytes file : List UInt8} {k : Nat} (h : Prefix bytes file k) : k ≤ file.length := by
  rcases Nat.eq_zero_or_pos k with h0 | h0
  · omega
  · have := h.2.2 (k - 1) (by omega)
    have h1 := h.1
    rw [List.getElem?_eq_getElem (l := bytes) (by omega)] at this
    have := (List.getElem?_eq_some_iff.mp this).1
    omega

theorem Prefix.all {bytes file : List UInt8} (h : Prefix bytes file bytes.length) : file = bytes := by
  apply List.ext_getElem?
  intro i
  by_cases hi : i < bytes.length
  · exact h.2.2 i hi
  · have := h.2.1
    rw [List.getElem?_eq_none (by omega), List.getElem?_eq_none (by omega)]

theorem prefix_self (bytes : List UInt8) : Prefix bytes bytes bytes.length := ⟨le_refl _, le_refl _, fun _ _ => rfl⟩

theorem piece_get (bytes : List UInt8) (j m i : Nat) (h1 : j ≤ i) (h2 : i < j + m) : ((bytes.drop j).take m)[i - j]? = bytes[i]? := by
  rw [List.getElem?_take_of_lt (by omega), List.getElem?_drop]
  congr 1
  omega

theorem piece_length (bytes : List UInt8) (j m : Nat) (h : j + m ≤ bytes.length) : ((bytes.drop j).take m).length = m := by
  simp only [List.length_take, List.length_drop]
  omega

/-- Writes of the same bytes at the right place keep what is there. -/
theorem Prefix.write {bytes file : List UInt8} {k : Nat} (h : Prefix bytes file k) (j m : Nat) (hm : j + m ≤ bytes.length) : Prefix bytes (writeAt file j ((bytes.drop j).take m)) k := by
  have hl := piece_length bytes j m hm
  refine ⟨h.1, ?_, ?_⟩
  · rw [writeAt_length, hl]
    have := h.2.1
    omega
  · intro i hi
    rw [writeAt_get _ _ _ _ (Or.inl (lt_of_lt_of_le hi h.le)), hl]
    split
    · rename_i hc
      exact piece_get bytes j m i hc.1 hc.2
    · exact h.2.2 i hi

/-- The own write adds bytes. -/
theorem Prefix.more {bytes file : List UInt8} {k : Nat} (h : Prefix bytes file k) (m : Nat) (hm : k + m ≤ bytes.length) : Prefix bytes (writeAt file k ((bytes.drop k).take m)) (k + m) := by
  have hl := piece_length bytes k m hm
  refine ⟨hm, ?_, ?_⟩
  · rw [writeAt_length, hl]
    have := h.2.1
    omega
  · intro i hi
    have := h.le
    rw [writeAt_get _ _ _ _ (by omega), hl]
    split
    · rename_i hc
      exact piece_get bytes k m i hc.1 hc.2
    · exact h.2.2 i (by omega)

variable {N : Type} {pickled : Nat → List UInt8} {bytes : List UInt8} {loads : List UInt8 → Py N} {w w' : World N}

theorem run_cons {p : Nat} {ev : Event} {evs : List (Nat × Event)} (h : run pickled loads w ((p, ev) :: evs) = some w') : ∃ w1, step pickled loads w p ev = some w1 ∧ run pickled loads w1 evs = some w' := by
  unfold run at h
  split at h
  · rename_i w1 h1
    exact ⟨w1, h1, h⟩
  · cases h

theorem run_append : ∀ (a b : List (Nat × Event)) (w : World N), run pickled loads w (a ++ b) = some w' → ∃ w1, run pickled loads w a = some w1 ∧ run pickled loads w1 b = some w' := by
  intro a
  induction a with
  | nil => intro b w h; exact ⟨w, rfl, h⟩
  | cons x a ih =>
    intro b w h
    obtain ⟨p, ev⟩ := x
    obtain ⟨w1, h1, h2⟩ := run_cons h
    obtain ⟨w2, h3, h4⟩ := ih b w1 h2
    refine ⟨w2, ?_, h4⟩
    unfold run
    rw [h1]
    exact h3

theorem now_same (w : World N) (p : Nat) (ph : Phase) : (w.now p ph).phase p = ph := by
  unfold World.now; simp

theorem now_other (w : World N) {p q : Nat} (h : q ≠ p) (ph : Phase) : (w.now p ph).phase q = w.phase q := by
  unfold World.now; simp [h]

/-- What a step of `p` may do: to the file, to `p` and to the list of results. -/
theorem step_cases {p : Nat} {ev : Event} (h : step pickled loads w p ev = some w') :
    (ev = .create ∧ w.phase p = .before ∧ w' = ({ w with file := [] } : World N).now p (.writing 0)) ∨
    (∃ m k, ev = .write m ∧ w.phase p = .writing k ∧ 0 < m ∧ k + m ≤ (pickled p).length ∧ w' = ({ w with file := writeAt w.file k (((pickled p).drop k).take m) } : World N).now p (.writing (k + m))) ∨
    (ev = .close ∧ w.phase p = .writing (pickled p).length ∧ w' = w.now p .ready) ∨
    (ev = .look ∧ w.phase p = .ready ∧ w' = w.now p (.reading [])) ∨
    (∃ m b, ev = .read m ∧ w.phase p = .reading b ∧ w' = w.now p (.reading (b ++ (w.file.drop b.length).take m))) ∨
    (∃ b, ev = .load ∧ w.phase p = .reading b ∧ w.file.length ≤ b.length ∧ w' = ({ w with results := (p, loads b) :: w.results } : World N).now p .ready) ∨
    (ev = .kill ∧ w' = w.now p .dead) := by
  cases ev with
  | create =>
    unfold step at h
    simp only at h
    split at h
    · rename_i h1; injection h with h; exact Or.inl ⟨rfl, h1, h.symm⟩
    · cases h
  | write m =>
    unfold step at h
    simp only at h
    split at h
    · rename_i k hk
      split at h
      · rename_i hm; injection h with h; exact Or.inr (Or.inl ⟨m, k, rfl, hk, hm.1, hm.2, h.symm⟩)
      · cases h
    · cases h
  | close =>
    unfold step at h
    simp only at h
    split at h
    · rename_i h1; injection h with h; exact Or.inr (Or.inr (Or.inl ⟨rfl, h1, h.symm⟩))
    · cases h
  | look =>
    unfold step at h
    simp only at h
    split at h
    · rename_i h1; injection h with h; exact Or.inr (Or.inr (Or.inr (Or.inl ⟨rfl, h1, h.symm⟩)))
    · cases h
  | read m =>
    unfold step at h
    simp only at h
    split at h
    · rename_i b hb; injection h with h; exact Or.inr (Or.inr (Or.inr (Or.inr (Or.inl ⟨m, b, rfl, hb, h.symm⟩))))
    · cases h
  | load =>
    unfold step at h
    simp only at h
    split at h
    · rename_i b hb
      split at h
      · rename_i hl; injection h with h; exact Or.inr (Or.inr (Or.inr (Or.inr (Or.inr (Or.inl ⟨b, rfl, hb, hl, h.symm⟩)))))
      · cases h
    · cases h
  | kill =>
    injection h with h
    exact Or.inr (Or.inr (Or.inr (Or.inr (Or.inr (Or.inr ⟨rfl, h.symm⟩)))))

theorem step_others {p q : Nat} {ev : Event} (h : step pickled loads w p ev = some w') (hq : q ≠ p) : w'.phase q = w.phase q := by
  rcases step_cases h with ⟨_, _, h⟩ | ⟨_, _, _, _, _, _, h⟩ | ⟨_, _, h⟩ | ⟨_, _, h⟩ | ⟨_, _, _, _, h⟩ | ⟨_, _, _, _, h⟩ | ⟨_, h⟩ <;> rw [h, now_other _ hq]

/-- Only writing changes the file: nobody spoils what is there. -/
theorem step_prefix (hp : SamePickle pickled bytes) {p : Nat} {ev : Event} (h : step pickled loads w p ev = some w') (hc : ev ≠ .create) {k : Nat} (hk : Prefix bytes w.file k) : Prefix bytes w'.file k := by
  rcases step_cases h with ⟨h1, _, h⟩ | ⟨m, j, _, _, _, h2, h⟩ | ⟨_, _, h⟩ | ⟨_, _, h⟩ | ⟨_, _, _, _, h⟩ | ⟨_, _, _, _, h⟩ | ⟨_, h⟩
  · exact absurd h1 hc
  · rw [h]
    rw [hp p] at h2 ⊢
    exact hk.write j m h2
  all_goals rw [h]; exact hk

theorem run_prefix (hp : SamePickle pickled bytes) {k : Nat} : ∀ (evs : List (Nat × Event)) (w : World N), run pickled loads w evs = some w' → NobodyCreates evs → Prefix bytes w.file k → Prefix bytes w'.file k := by
  intro evs
  induction evs with
  | nil => intro w h _ hk; injection h with h; rw [← h]; exact hk
  | cons x evs ih =>
    intro w h hn hk
    obtain ⟨p, ev⟩ := x
    obtain ⟨w1, h1, h2⟩ := run_cons h
    exact ih w1 h2 (fun q hq => hn q (List.mem_cons_of_mem _ hq)) (step_prefix hp h1 (fun he => hn p (by rw [he]; simp)) hk)

/-- A worker that was killed does nothing, but to be killed. -/
theorem dead_stays {p : Nat} : ∀ (evs : List (Nat × Event)) (w : World N), run pickled loads w evs = some w' → w.phase p = .dead → w'.phase p = .dead ∧ (p, Event.close) ∉ evs := by
  intro evs
  induction evs with
  | nil => intro w h hd; injection h with h; rw [← h]; exact ⟨hd, by simp⟩
  | cons x evs ih =>
    intro w h hd
    obtain ⟨q, ev⟩ := x
    obtain ⟨w1, h1, h2⟩ := run_cons h
    by_cases hq : p = q
    · subst hq
      rcases step_cases h1 with ⟨_, h3, h⟩ | ⟨_, _, _, h3, _, _, h⟩ | ⟨_, h3, h⟩ | ⟨_, h3, h⟩ | ⟨_, _, _, h3, h⟩ | ⟨_, _, h3, _, h⟩ | ⟨h3, h⟩
      all_goals first | (rw [hd] at h3; cases h3) | skip
      obtain ⟨a, b⟩ := ih w1 h2 (by rw [h, now_same])
      refine ⟨a, ?_⟩
      rw [h3]
      simp [b]
    · obtain ⟨a, b⟩ := ih w1 h2 (by rw [step_others h1 hq]; exact hd)
      refine ⟨a, ?_⟩
      intro hm
      rcases List.mem_cons.mp hm with hm | hm
      · injection hm with hm _; exact hq hm
      · exact b hm

/-- A worker that writes goes on until it has written everything. -/
theorem writer_closes (hp : SamePickle pickled bytes) {p : Nat} : ∀ (evs : List (Nat × Event)) (w : World N) (k : Nat), run pickled loads w evs = some w' → NobodyCreates evs →
    w.phase p = .writing k → Prefix bytes w.file k → (p, Event.close) ∈ evs → w'.file = bytes := by
  intro evs
  induction evs with
  | nil => intro w k _ _ _ _ h; cases h
  | cons x evs ih =>
    intro w k h hn hph hk hcl
    obtain ⟨q, ev⟩ := x
    obtain ⟨w1, h1, h2⟩ := run_cons h
    have hn' : NobodyCreates evs := fun q hq => hn q (List.mem_cons_of_mem _ hq)
    have hne : ev ≠ .create := fun he => hn q (by rw [he]; simp)
    by_cases hq : p = q
    · subst hq
      rcases step_cases h1 with ⟨h3, _, h⟩ | ⟨m, j, h4, h3, _, h5, h⟩ | ⟨h4, h3, h⟩ | ⟨_, h3, h⟩ | ⟨_, _, _, h3, h⟩ | ⟨_, _, h3, _, h⟩ | ⟨h3, h⟩
      · exact absurd h3 hne
      · rw [hph] at h3
        injection h3 with h3
        subst h3
        rw [hp p] at h h5
        refine ih w1 (k + m) h2 hn' (by rw [h, now_same]) ?_ ?_
        · rw [h]
          exact hk.more m h5
        · rcases List.mem_cons.mp hcl with hm | hm
          · injection hm with _ hm; rw [h4] at hm; cases hm
          · exact hm
      · rw [hph, hp p] at h3
        injection h3 with h3
        subst h3
        exact (run_prefix hp evs w1 h2 hn' (step_prefix hp h1 hne hk)).all
      · rw [hph] at h3; cases h3
      · rw [hph] at h3; cases h3
      · rw [hph] at h3; cases h3
      · rcases List.mem_cons.mp hcl with hm | hm
        · injection hm with _ hm; rw [h3] at hm; cases hm
        · exact absurd hm (dead_stays evs w1 h2 (by rw [h, now_same])).2
    · refine ih w1 k h2 hn' (by rw [step_others h1 hq]; exact hph) (step_prefix hp h1 hne hk) ?_
      rcases List.mem_cons.mp hcl with hm | hm
      · injection hm with hm _; exact absurd hm hq
      · exact hm

/-- A worker that has begun to write and has not closed the file is still writing, or dead. -/
theorem writer_stays {p : Nat} : ∀ (evs : List (Nat × Event)) (w : World N) (k : Nat), run pickled loads w evs = some w' → w.phase p = .writing k → (p, Event.close) ∉ evs →
    (∃ j, w'.phase p = .writing j) ∨ w'.phase p = .dead := by
  intro evs
  induction evs with
  | nil => intro w k h hph _; injection h with h; rw [← h]; exact Or.inl ⟨k, hph⟩
  | cons x evs ih =>
    intro w k h hph hcl
    obtain ⟨q, ev⟩ := x
    obtain ⟨w1, h1, h2⟩ := run_cons h
    have hcl' : (p, Event.close) ∉ evs := fun hm => hcl (List.mem_cons_of_mem _ hm)
    by_cases hq : p = q
    · subst hq
      rcases step_cases h1 with ⟨_, h3, h⟩ | ⟨m, j, h4, h3, _, h5, h⟩ | ⟨h4, h3, h⟩ | ⟨_, h3, h⟩ | ⟨_, _, _, h3, h⟩ | ⟨_, _, h3, _, h⟩ | ⟨h3, h⟩
      · rw [hph] at h3; cases h3
      · exact ih w1 _ h2 (by rw [h, now_same]) hcl'
      · exact absurd (by rw [h4]; simp) hcl
      · rw [hph] at h3; cases h3
      · rw [hph] at h3; cases h3
      · rw [hph] at h3; cases h3
      · exact Or.inr (dead_stays evs w1 h2 (by rw [h, now_same])).1
    · exact ih w1 k h2 (by rw [step_others h1 hq]; exact hph) hcl'

/-- A worker that reads a complete file gets its beginning, and at last all of it. -/
theorem reader_gets (hp : SamePickle pickled bytes) {p : Nat} : ∀ (evs : List (Nat × Event)) (w : World N), run pickled loads w evs = some w' → NobodyCreates evs →
    w.file = bytes → (∀ b, w.phase p = .reading b → b = bytes.take b.length) → ∃ new, w'.results = new ++ w.results ∧ ∀ r, (p, r) ∈ new → r = loads bytes := by
  intro evs
  induction evs with
  | nil => intro w h _ _ _; injection h with h; rw [← h]; exact ⟨[], rfl, by simp⟩
  | cons x evs ih =>
    intro w h hn hf hph
    obtain ⟨q, ev⟩ := x
    obtain ⟨w1, h1, h2⟩ := run_cons h
    have hn' : NobodyCreates evs := fun q hq => hn q (List.mem_cons_of_mem _ hq)
    have hne : ev ≠ .create := fun he => hn q (by rw [he]; simp)
    have hf1 : w1.file = bytes := (step_prefix hp h1 hne (by rw [hf]; exact prefix_self bytes)).all
    have hnew : ∃ new, w1.results = new ++ w.results ∧ ∀ r, (p, r) ∈ new → r = loads bytes := by
      rcases step_cases h1 with ⟨_, _, h⟩ | ⟨_, _, _, _, _, _, h⟩ | ⟨_, _, h⟩ | ⟨_, _, h⟩ | ⟨_, _, _, _, h⟩ | ⟨b, _, h3, h4, h⟩ | ⟨_, h⟩
      all_goals first | (refine ⟨[], by rw [h]; rfl, by simp⟩) | skip
      refine ⟨[(q, loads b)], by rw [h]; rfl, ?_⟩
      intro r hr
      simp only [List.mem_singleton, Prod.mk.injEq] at hr
      obtain ⟨hq, hr⟩ := hr
      subst hq
      have hb := hph b h3
      rw [hf] at h4
      rw [List.take_of_length_le h4] at hb
      rw [hr, hb]
    have hph1 : ∀ b, w1.phase p = .reading b → b = bytes.take b.length := by
      intro b hb
      by_cases hq : p = q
      · subst hq
        rcases step_cases h1 with ⟨_, _, h⟩ | ⟨_, _, _, _, _, _, h⟩ | ⟨_, _, h⟩ | ⟨_, _, h⟩ | ⟨m, b0, _, h3, h⟩ | ⟨_, _, _, _, h⟩ | ⟨_, h⟩
        all_goals rw [h, now_same] at hb
        all_goals first | (cases hb; done) | skip
        · injection hb with hb; rw [← hb]; simp
        · injection hb with hb
          have h0 := hph b0 h3
          rw [← hb, hf]
          have hb0 : b0.length ≤ bytes.length := by
            have := congrArg List.length h0
            rw [List.length_take] at this
            omega
          rw [List.length_append, List.length_take, List.length_drop]
          conv_lhs => rw [h0]
          rw [List.length_take, Nat.min_eq_left hb0, ← List.take_add]
          by_cases hm : m ≤ bytes.length - b0.length
          · rw [Nat.min_eq_left hm]
          · rw [Nat.min_eq_right (by omega), List.take_of_length_le (by omega), List.take_of_length_le (by omega)]
      · rw [step_others h1 hq] at hb
        exact hph b hb
    obtain ⟨n2, h5, h6⟩ := ih w1 h2 hn' hf1 hph1
    obtain ⟨n1, h7, h8⟩ := hnew
    refine ⟨n2 ++ n1, by rw [h5, h7, List.append_assoc], ?_⟩
    intro r hr
    rcases List.mem_append.mp hr with hr | hr
    · exact h6 r hr
    · exact h8 r hr

/-- What a single worker goes through. -/
def Lone (bytes : List UInt8) (loads : List UInt8 → Py N) (w : World N) (p : Nat) : Prop :=
  (∀ x ∈ w.results, x.2 = loads bytes) ∧
  (w.phase p = .before ∨ (∃ k, w.phase p = .writing k ∧ Prefix bytes w.file k) ∨ (w.phase p = .ready ∧ w.file = bytes) ∨ (∃ b, w.phase p = .reading b ∧ w.file = bytes ∧ b = bytes.take b.length) ∨ w.phase p = .dead)

theorem lone_step (hp : SamePickle pickled bytes) {p : Nat} {ev : Event} (h1 : step pickled loads w p ev = some w') (hl : Lone bytes loads w p) : Lone bytes loads w' p := by
  obtain ⟨hr, hph⟩ := hl
  rcases step_cases h1 with ⟨_, h3, h⟩ | ⟨m, k, _, h3, _, h4, h⟩ | ⟨_, h3, h⟩ | ⟨_, h3, h⟩ | ⟨m, b, _, h3, h⟩ | ⟨b, _, h3, h4, h⟩ | ⟨_, h⟩
  · refine ⟨by rw [h]; exact hr, Or.inr (Or.inl ⟨0, by rw [h, now_same], ?_⟩)⟩
    rw [h]
    exact ⟨by omega, by simp [World.now], by omega⟩
  · refine ⟨by rw [h]; exact hr, Or.inr (Or.inl ⟨k + m, by rw [h, now_same], ?_⟩)⟩
    rw [h3] at hph
    rcases hph with h5 | ⟨k', h5, h6⟩ | ⟨h5, _⟩ | ⟨_, h5, _⟩ | h5
    all_goals first | (cases h5; done) | skip
    injection h5 with h5
    subst h5
    rw [h]
    rw [hp p] at h4 ⊢
    exact h6.more m h4
  · refine ⟨by rw [h]; exact hr, Or.inr (Or.inr (Or.inl ⟨by rw [h, now_same], ?_⟩))⟩
    rw [h3] at hph
    rcases hph with h5 | ⟨k', h5, h6⟩ | ⟨h5, _⟩ | ⟨_, h5, _⟩ | h5
    all_goals first | (cases h5; done) | skip
    injection h5 with h5
    rw [hp p] at h5
    subst h5
    rw [h]
    exact h6.all
  · rw [h3] at hph
    rcases hph with h5 | ⟨k', h5, h6⟩ | ⟨h5, h6⟩ | ⟨_, h5, _⟩ | h5
    all_goals first | (cases h5; done) | skip
    exact ⟨by rw [h]; exact hr, Or.inr (Or.inr (Or.inr (Or.inl ⟨[], by rw [h, now_same], by rw [h]; exact h6, by simp⟩)))⟩
  · rw [h3] at hph
    rcases hph with h5 | ⟨k', h5, h6⟩ | ⟨h5, h6⟩ | ⟨b', h5, h6, h7⟩ | h5
    all_goals first | (cases h5; done) | skip
    injection h5 with h5
    subst h5
    refine ⟨by rw [h]; exact hr, Or.inr (Or.inr (Or.inr (Or.inl ⟨_, by rw [h, now_same], by rw [h]; exact h6, ?_⟩)))⟩
    rw [h6]
    have hb0 : b.length ≤ bytes.length := by
      have := congrArg List.length h7
      rw [List.length_take] at this
      omega
    rw [List.length_append, List.length_take, List.length_drop]
    conv_lhs => rw [h7]
    rw [List.length_take, Nat.min_eq_left hb0, ← List.take_add]
    by_cases hm : m ≤ bytes.length - b.length
    · rw [Nat.min_eq_left hm]
    · rw [Nat.min_eq_right (by omega), List.take_of_length_le (by omega), List.take_of_length_le (by omega)]
  · rw [h3] at hph
    rcases hph with h5 | ⟨k', h5, h6⟩ | ⟨h5, h6⟩ | ⟨b', h5, h6, h7⟩ | h5
    all_goals first | (cases h5; done) | skip
    injection h5 with h5
    subst h5
    refine ⟨?_, Or.inr (Or.inr (Or.inl ⟨by rw [h, now_same], by rw [h]; exact h6⟩))⟩
    rw [h]
    intro x hx
    rcases List.mem_cons.mp hx with hx | hx
    · rw [hx]
      rw [h6] at h4
      rw [List.take_of_length_le h4] at h7
      rw [h7]
    · exact hr x hx
  · exact ⟨by rw [h]; exact hr, Or.inr (Or.inr (Or.inr (Or.inr (by rw [h, now_same]))))⟩

theorem lone_run (hp : SamePickle pickled bytes) {p : Nat} : ∀ (evs : List (Nat × Event)) (w : World N), run pickled loads w evs = some w' → (∀ x ∈ evs, x.1 = p) → Lone bytes loads w p → Lone bytes loads w' p := by
  intro evs
  induction evs with
  | nil => intro w h _ hl; injection h with h; rw [← h]; exact hl
  | cons x evs ih =>
    intro w h hx hl
    obtain ⟨q, ev⟩ := x
    obtain ⟨w1, h1, h2⟩ := run_cons h
    have hq : q = p := hx (q, ev) (by simp)
    subst hq
    exact ih w1 h2 (fun y hy => hx y (List.mem_cons_of_mem _ hy)) (lone_step hp h1 hl)

end Verif.NetworkFile
