import Verif.Proofs.FileLock

/-! Property theorems C65, C66 and C76: file locks. -/

namespace Verif.Props
open Verif.Spec Verif.FileLock

variable {calls : Nat → Call} {w w' : World} {evs : List (Nat × Event)}

/-! ### C65 -/

theorem fresh_excl (h : Fresh w) : Excl calls w := by
  have : ∀ i, ¬ HoldsLock w i := by
    intro i hi
    unfold HoldsLock at hi
    rw [h.1 i] at hi
    rcases hi with hi | ⟨_, hi⟩ <;> cases hi
  exact ⟨fun i hi => absurd hi (this i), fun i _ _ hi => absurd hi (this i), fun i _ _ hi => absurd hi (this i)⟩

theorem excl_run : ∀ (evs : List (Nat × Event)) (w : World), Excl calls w → Respects calls KeepsLocks w evs → NoRace calls w evs → ∀ w', run calls w evs = some w' → Excl calls w' := by
  intro evs
  induction evs with
  | nil => intro w h _ _ w' hr; injection hr with hr; rw [← hr]; exact h
  | cons x evs ih =>
    intro w h hq hn w' hr
    obtain ⟨i, ev⟩ := x
    obtain ⟨w1, h1, h2⟩ := run_cons hr
    obtain ⟨h3, h4⟩ := step_inv h1
    exact ih w1 (excl_step h h3 h4 (fun fs he => by subst he; exact hq.head) (fun he => hn.1 i (by rw [← he]; simp)) (fun a b c => hn.head a b c)) (hq.tail h1) (hn.tail h1) w' h2

/-- **C65** for schedules without races: of the processes that work on the same file, at most one is in its handler at any time, and its lock file exists. -/
theorem C65_exclusive_partial (hw : Fresh w) (hq : Respects calls KeepsLocks w evs) (hn : NoRace calls w evs) (hr : run calls w evs = some w') {i j : Nat}
    (hij : (calls i).file = (calls j).file) (hi : InHandler w' i) : w'.fs (lockPath (calls i).file) = true ∧ (InHandler w' j → i = j) := by
  have h := excl_run evs w (fresh_excl hw) hq hn w' hr
  exact ⟨h.lock i (.inl hi), fun hj => h.one i j hij (.inl hi) (.inl hj)⟩

theorem missing_run (hout : ∀ i, ∀ p ∈ (calls i).outputs, ¬ IsLock p) : ∀ (evs : List (Nat × Event)) (w : World), Excl calls w → Missing calls w → Checks calls w →
    Respects calls KeepsLocks w evs → Respects calls (OwnOutputs calls) w evs → NoRace calls w evs → ∀ w', run calls w evs = some w' → Missing calls w' := by
  intro evs
  induction evs with
  | nil => intro w _ h _ _ _ _ w' hr; injection hr with hr; rw [← hr]; exact h
  | cons x evs ih =>
    intro w h hm hc hq hq' hn w' hr
    obtain ⟨i, ev⟩ := x
    obtain ⟨w1, h1, h2⟩ := run_cons hr
    obtain ⟨h3, h4⟩ := step_inv h1
    exact ih w1 (excl_step h h3 h4 (fun fs he => by subst he; exact hq.head) (fun he => hn.1 i (by rw [← he]; simp)) (fun a b c => hn.head a b c))
      (missing_step h hm hout h3 h4 (fun fs he => by subst he; exact hq'.head) hc) (checks_step hc h4) (hq.tail h1) (hq'.tail h1) (hn.tail h1) w' h2

/-- **C65** for schedules without races: a handler is started only if one of its outputs does not exist at that very time: no finished task is started again. -/
theorem C65_unfinished_partial (hout : ∀ i, ∀ p ∈ (calls i).outputs, ¬ IsLock p) (hw : Fresh w) (hq : Respects calls KeepsLocks w evs)
    (hq' : Respects calls (OwnOutputs calls) w evs) (hn : NoRace calls w evs) (hr : run calls w evs = some w') {i : Nat} {ev : Event} {w1 : World}
    (hs : step calls w' i ev = some w1) (hbefore : ¬ InHandler w' i) (hafter : InHandler w1 i) : ∃ p ∈ (calls i).outputs, w'.fs p = false := by
  have hm := missing_run hout evs w (fresh_excl hw) (fun i _ hi => by rw [hw.1 i] at hi; cases hi) (fun i _ hi => by rw [hw.1 i] at hi; cases hi) hq hq' hn w' hr
  obtain ⟨h3, h4⟩ := step_inv hs
  cases h4 with
  | kill => exact absurd hafter hbefore
  | @move _ fs pc hmv =>
    unfold InHandler at hafter hbefore
    simp only [if_pos] at hafter
    subst hafter
    rcases stepCall_inv hmv with ⟨e1, e2, e3, e4, e5⟩ | ⟨e1, e2, e3, e4, e5⟩ | ⟨e1, e2, e3, e5⟩ | ⟨q, rest', e1, e2, e3, e4, e5⟩ | ⟨_, rest', e1, e2, e3, e4, e5⟩ |
      ⟨e1, e2, e3, e5⟩ | ⟨e1, e2, e3, e5⟩ | ⟨e1, e2, e5⟩ | ⟨res, e1, e2, e3, e5⟩ | ⟨res, e1, e2, e3, e5⟩ <;> try (cases e5)
    · exact hm i h3 e1
    · exact absurd e1 hbefore

/-- **C65**, in every schedule: a call that begins when its outputs exist never runs its handler, as long as no handler deletes them. -/
theorem C65_finished {i : Nat} (hout : ∀ p ∈ (calls i).outputs, ¬ IsLock p) (hi : w.pc i = .start) (hex : ∀ p ∈ (calls i).outputs, w.fs p = true)
    (hq : Respects calls (KeepsOutputs (calls i)) w evs) (hr : run calls w evs = some w') : ¬ InHandler w' i := by
  have inv := run_inv (calls := calls) (Q := KeepsOutputs (calls i))
    (Inv := fun w => (∀ p ∈ (calls i).outputs, w.fs p = true) ∧ (w.pc i = .start ∨ w.pc i = .skipped ∨ ∃ rest, w.pc i = .checking rest ∧ ∀ p ∈ rest, p ∈ (calls i).outputs)) (by
      intro w w' j ev ⟨h1, h2⟩ hd hs hw
      cases hs with
      | kill => exact ⟨h1, h2⟩
      | @move _ fs pc hm =>
        have hne : ∀ p ∈ (calls i).outputs, p ≠ lockPath (calls j).file := fun p hp hc => hout p hp (by rw [hc]; exact isLock_lockPath _)
        constructor
        · intro p hp
          show fs p = true
          rcases stepCall_inv hm with ⟨e1, e2, e3, e4, e5⟩ | ⟨e1, e2, e3, e4, e5⟩ | ⟨e1, e2, e3, e5⟩ | ⟨_, rest, e1, e2, e3, e4, e5⟩ | ⟨_, rest, e1, e2, e3, e4, e5⟩ |
            ⟨e1, e2, e3, e5⟩ | ⟨e1, e2, e3, e5⟩ | ⟨e1, e2, e5⟩ | ⟨res, e1, e2, e3, e5⟩ | ⟨res, e1, e2, e3, e5⟩ <;> try (rw [e3]; exact h1 p hp)
          · rw [e3]; exact openFile_mono (h1 p hp)
          · exact hw fs e2 p hp (h1 p hp)
          · rw [e3, removeFile_ne (hne p hp)]; exact h1 p hp
        · show (if i = j then pc else w.pc i) = .start ∨ (if i = j then pc else w.pc i) = .skipped ∨ ∃ rest, (if i = j then pc else w.pc i) = .checking rest ∧ _
          by_cases hij : i = j
          · subst hij
            rw [if_pos rfl]
            rcases stepCall_inv hm with ⟨e1, e2, e3, e4, e5⟩ | ⟨e1, e2, e3, e4, e5⟩ | ⟨e1, e2, e3, e5⟩ | ⟨p, rest, e1, e2, e3, e4, e5⟩ | ⟨p, rest, e1, e2, e3, e4, e5⟩ |
              ⟨e1, e2, e3, e5⟩ | ⟨e1, e2, e3, e5⟩ | ⟨e1, e2, e5⟩ | ⟨res, e1, e2, e3, e5⟩ | ⟨res, e1, e2, e3, e5⟩ <;> rw [e1] at h2 <;>
              rcases h2 with h2 | h2 | ⟨rest', h2, h3⟩ <;> try (cases h2)
            · exact .inr (.inl e5)
            · exact .inr (.inr ⟨_, e5, fun p hp => hp⟩)
            · exact .inr (.inl e5)
            · exact .inr (.inr ⟨_, e5, fun q hq => h3 q (List.mem_cons_of_mem _ hq)⟩)
            · rw [h1 p (h3 p (by simp))] at e4; cases e4
          · rw [if_neg hij]; exact h2) evs w ⟨hex, .inl hi⟩ hq w' hr
  intro hc
  unfold InHandler at hc
  rcases inv.2 with h | h | ⟨_, h, _⟩ <;> rw [hc] at h <;> cases h

/-! #### What is wrong without that assumption, and schedules that satisfy it -/

theorem respects_nil {P : Nat → Fs → Fs → Prop} : Respects calls P w [] := fun pre post i fs w' h => by cases pre <;> cases h

theorem respects_cons {P : Nat → Fs → Fs → Prop} {i : Nat} {ev : Event} (h1 : ∀ fs, ev = .work fs → P i w.fs fs) (h2 : ∀ w', step calls w i ev = some w' → Respects calls P w' evs) :
    Respects calls P w ((i, ev) :: evs) := by
  intro pre post j fs w' he hr
  cases pre with
  | nil =>
    injection he with he _
    injection he with he1 he2
    injection hr with hr
    rw [← he1, ← hr]
    exact h1 fs he2
  | cons x pre =>
    injection he with he1 he2
    rw [← he1] at hr
    obtain ⟨w1, hr1, hr2⟩ := run_cons hr
    exact h2 w1 hr1 pre post j fs w' he2 hr2

theorem noRace_nil (h : ∀ i j, (calls i).file = (calls j).file → InWindow w i → InWindow w j → i = j) : NoRace calls w [] := by
  refine ⟨by simp, fun pre post w' he hr => ?_⟩
  cases pre with
  | nil => injection hr with hr; rw [← hr]; exact h
  | cons x pre => cases he

theorem noRace_cons {i : Nat} {ev : Event} (h0 : ev ≠ .openFails) (h1 : ∀ i j, (calls i).file = (calls j).file → InWindow w i → InWindow w j → i = j)
    (h2 : ∃ w', step calls w i ev = some w' ∧ NoRace calls w' evs) : NoRace calls w ((i, ev) :: evs) := by
  obtain ⟨w2, hs, h2⟩ := h2
  refine ⟨fun j hj => ?_, fun pre post w' he hr => ?_⟩
  · rcases List.mem_cons.mp hj with hj | hj
    · injection hj with _ hj; exact h0 hj.symm
    · exact h2.1 j hj
  cases pre with
  | nil => injection hr with hr; rw [← hr]; exact h1
  | cons x pre =>
    injection he with he1 he2
    rw [← he1] at hr
    obtain ⟨w1, hr1, hr2⟩ := run_cons hr
    rw [hs] at hr1
    injection hr1 with hr1
    rw [← hr1] at hr2
    exact h2.2 pre post w' he2 hr2

/-- Every process works on the same file. -/
def sameCalls : Nat → Call := fun _ => ⟨("out".toList, "a.json".toList), none⟩

/-- Nothing has happened, and the directory is empty. -/
def emptyWorld : World := ⟨fun _ => false, fun _ => .start, fun _ => false⟩

/-- The output has been written. -/
def written (locked : Bool) : Fs := fun p => if p = ("out".toList, "a.json".toList) then true else if p = ("out".toList, ".lock.a.json".toList) then locked else false

theorem emptyWorld_fresh : Fresh emptyWorld := ⟨fun _ => rfl, fun _ => rfl⟩

/-- **C65 is false** of the code as it is: looking for the lock file and making it are two steps, so two processes that look at the same time both run their handler. -/
theorem C65_race : ∃ (calls : Nat → Call) (w w' : World) (evs : List (Nat × Event)), Fresh w ∧ Respects calls KeepsLocks w evs ∧ (∀ i, (i, Event.openFails) ∉ evs) ∧
    run calls w evs = some w' ∧ (calls 0).file = (calls 1).file ∧ InHandler w' 0 ∧ InHandler w' 1 := by
  refine ⟨sameCalls, emptyWorld, _, [(0, .go), (0, .go), (1, .go), (1, .go), (0, .go), (1, .go)], emptyWorld_fresh, ?_, by simp, rfl, rfl, rfl, rfl⟩
  intro pre post i fs w' h
  have := congrArg (fun l => (i, Event.work fs) ∈ l) h
  simp at this

/-- **C65 is false** of the code as it is: a process that was overtaken runs its handler although another one has finished the task and all outputs exist. -/
theorem C65_rerun : ∃ (calls : Nat → Call) (w w1 w' : World) (evs : List (Nat × Event)), Fresh w ∧ (∀ i, (i, Event.openFails) ∉ evs) ∧
    run calls w evs = some w1 ∧ w1.pc 1 = .finished .returned ∧ (∀ p ∈ (calls 0).outputs, w1.fs p = true) ∧ ¬ InHandler w1 0 ∧ step calls w1 0 .go = some w' ∧ InHandler w' 0 := by
  refine ⟨sameCalls, emptyWorld, _, _, [(0, .go), (0, .go), (1, .go), (1, .go), (1, .go), (1, .work (written true)), (1, .ends .returned), (1, .go)], emptyWorld_fresh, by simp, rfl, rfl, ?_, ?_, rfl, rfl⟩
  · intro p hp
    have : p = ("out".toList, "a.json".toList) := by simpa [sameCalls, Call.outputs] using hp
    subst this
    rfl
  · intro h
    have : Pc.opening = Pc.running := h
    cases this

/-- A schedule in which 1 finds the lock of 0, and 2 finds the output. -/
def goodSchedule : List (Nat × Event) :=
  [(0, .go), (0, .go), (0, .go), (1, .go), (0, .work (written true)), (0, .ends .returned), (0, .go), (2, .go), (2, .go), (2, .go)]

/-- Only `k` is in the window. -/
theorem window_only {k : Nat} (h : ∀ i, i ≠ k → ¬ ((∃ rest, w.pc i = .checking rest) ∨ w.pc i = .opening)) : ∀ i j, (calls i).file = (calls j).file → InWindow w i → InWindow w j → i = j := by
  have : ∀ i, InWindow w i → i = k := fun i hi => Classical.byContradiction (fun hne => h i hne hi.2)
  intro i j _ hi hj
  rw [this i hi, this j hj]

theorem others {w : World} {a b : Pc} (h0 : w.pc 0 = a) (h1 : w.pc 1 = b) (h2 : ∀ i, i ≠ 0 → i ≠ 1 → i ≠ 2 → w.pc i = .start)
    (ha : ¬ ((∃ rest, a = .checking rest) ∨ a = .opening) := by simp) (hb : ¬ ((∃ rest, b = .checking rest) ∨ b = .opening) := by simp) :
    ∀ i, i ≠ 2 → ¬ ((∃ rest, w.pc i = .checking rest) ∨ w.pc i = .opening) := by
  intro i hi
  by_cases hi0 : i = 0
  · subst hi0; rw [h0]; exact ha
  by_cases hi1 : i = 1
  · subst hi1; rw [h1]; exact hb
  rw [h2 i hi0 hi1 hi]; simp

theorem goodSchedule_noRace : NoRace sameCalls emptyWorld goodSchedule := by
  unfold goodSchedule
  refine noRace_cons (by simp) (window_only (k := 0) ?_) ⟨_, rfl, ?_⟩
  · intro i _; simp [emptyWorld]
  refine noRace_cons (by simp) (window_only (k := 0) ?_) ⟨_, rfl, ?_⟩
  · intro i hi; simp [emptyWorld, hi]
  refine noRace_cons (by simp) (window_only (k := 0) ?_) ⟨_, rfl, ?_⟩
  · intro i hi; simp [emptyWorld, hi]
  refine noRace_cons (by simp) (window_only (k := 0) ?_) ⟨_, rfl, ?_⟩
  · intro i hi; simp [emptyWorld, hi]
  refine noRace_cons (by simp) (window_only (k := 2) ?_) ⟨_, rfl, ?_⟩
  · exact others (a := .running) (b := .skipped) rfl rfl (fun i h0 h1 h2 => by simp [emptyWorld, h0, h1, h2])
  refine noRace_cons (by simp) (window_only (k := 2) ?_) ⟨_, rfl, ?_⟩
  · exact others (a := .running) (b := .skipped) rfl rfl (fun i h0 h1 h2 => by simp [emptyWorld, h0, h1, h2])
  refine noRace_cons (by simp) (window_only (k := 2) ?_) ⟨_, rfl, ?_⟩
  · exact others (a := (.removing .returned)) (b := .skipped) rfl rfl (fun i h0 h1 h2 => by simp [emptyWorld, h0, h1, h2])
  refine noRace_cons (by simp) (window_only (k := 2) ?_) ⟨_, rfl, ?_⟩
  · exact others (a := (.finished .returned)) (b := .skipped) rfl rfl (fun i h0 h1 h2 => by simp [emptyWorld, h0, h1, h2])
  refine noRace_cons (by simp) (window_only (k := 2) ?_) ⟨_, rfl, ?_⟩
  · exact others (a := (.finished .returned)) (b := .skipped) rfl rfl (fun i h0 h1 h2 => by simp [emptyWorld, h0, h1, h2])
  refine noRace_cons (by simp) (window_only (k := 2) ?_) ⟨_, rfl, ?_⟩
  · exact others (a := (.finished .returned)) (b := .skipped) rfl rfl (fun i h0 h1 h2 => by simp [emptyWorld, h0, h1, h2])
  refine noRace_nil (window_only (k := 2) ?_)
  exact others (a := (.finished .returned)) (b := .skipped) rfl rfl (fun i h0 h1 h2 => by simp [emptyWorld, h0, h1, h2])

theorem goodSchedule_respects {P : Nat → Fs → Fs → Prop} (h : P 0 (openFile (fun _ => false) ("out".toList, ".lock.a.json".toList)) (written true)) :
    Respects sameCalls P emptyWorld goodSchedule := by
  unfold goodSchedule
  refine respects_cons (by simp) (fun w1 h1 => ?_)
  cases h1
  refine respects_cons (by simp) (fun w1 h1 => ?_)
  cases h1
  refine respects_cons (by simp) (fun w1 h1 => ?_)
  cases h1
  refine respects_cons (by simp) (fun w1 h1 => ?_)
  cases h1
  refine respects_cons (fun fs hfs => ?_) (fun w1 h1 => ?_)
  · injection hfs with hfs; subst hfs; exact h
  intro pre post i fs w' h
  have := congrArg (fun l => (i, Event.work fs) ∈ l) h
  simp at this

theorem goodSchedule_locks : Respects sameCalls KeepsLocks emptyWorld goodSchedule := by
  refine goodSchedule_respects (fun p hp => ?_)
  obtain ⟨q, rfl⟩ := (isLock_iff p).mp hp
  have hne : lockPath q ≠ ("out".toList, "a.json".toList) := by
    intro hc
    have := congrArg (fun p => p.2.head?) hc
    simp [lockPath, lockPrefix] at this
  unfold written openFile
  rw [if_neg hne]

/-- The hypotheses of `C65_exclusive_partial` hold of `goodSchedule`, in the middle of which 0 is in its handler. -/
example : ∃ w', run sameCalls emptyWorld (goodSchedule.take 4) = some w' ∧ InHandler w' 0 ∧ w'.pc 1 = .skipped := ⟨_, rfl, rfl, rfl⟩

example : ∃ w', run sameCalls emptyWorld goodSchedule = some w' ∧ w'.pc 0 = .finished .returned ∧ w'.pc 1 = .skipped ∧ w'.pc 2 = .skipped ∧
    w'.fs ("out".toList, "a.json".toList) = true ∧ w'.fs ("out".toList, ".lock.a.json".toList) = false := ⟨_, rfl, rfl, rfl, rfl, rfl, rfl⟩

/-- The hypotheses of `C65_unfinished_partial`. -/
example : (∀ i, ∀ p ∈ (sameCalls i).outputs, ¬ IsLock p) ∧ Fresh emptyWorld ∧ Respects sameCalls KeepsLocks emptyWorld goodSchedule ∧ Respects sameCalls (OwnOutputs sameCalls) emptyWorld goodSchedule ∧
    NoRace sameCalls emptyWorld goodSchedule := by
  refine ⟨fun i p hp => ?_, emptyWorld_fresh, goodSchedule_locks, goodSchedule_respects (fun i hi => absurd rfl hi), goodSchedule_noRace⟩
  have : p = ("out".toList, "a.json".toList) := by simpa [sameCalls, Call.outputs] using hp
  subst this
  unfold IsLock
  decide

/-! ### C66 -/

/-- **C66**, in every schedule: a lock file exists only if it did at the beginning, or if some call has made it and has not yet ended (perhaps because its process was killed). -/
theorem C66_released (hq : Respects calls KeepsLocks w evs) (hr : run calls w evs = some w') (p : Path) (hl : w'.fs (lockPath p) = true) :
    w.fs (lockPath p) = true ∨ ∃ i, (calls i).file = p ∧ HoldsLock w' i := by
  refine run_inv (calls := calls) (Q := KeepsLocks) (Inv := fun v => ∀ p, v.fs (lockPath p) = true → w.fs (lockPath p) = true ∨ ∃ i, (calls i).file = p ∧ HoldsLock v i) ?_
    evs w (fun p h => .inl h) hq w' hr p hl
  intro v v' j ev h hd hs hw p hp
  cases hs with
  | kill => exact h p hp
  | @move _ fs pc hm =>
    have keep : fs (lockPath p) = v.fs (lockPath p) → ((∃ res, v.pc j = .removing res) ∨ v.pc j = .running → ((∃ res, pc = .removing res) ∨ pc = .running)) →
        w.fs (lockPath p) = true ∨ ∃ i, (calls i).file = p ∧ HoldsLock { v with fs := fs, pc := fun k => if k = j then pc else v.pc k } i := by
      intro k1 k2
      have hp' : fs (lockPath p) = true := hp
      rw [k1] at hp'
      rcases h p hp' with h' | ⟨i, h1, h2⟩
      · exact .inl h'
      · refine .inr ⟨i, h1, ?_⟩
        unfold HoldsLock at h2 ⊢
        simp only
        by_cases hij : i = j
        · subst hij; rw [if_pos rfl]; rw [or_comm] at h2 ⊢; exact k2 h2
        · rw [if_neg hij]; exact h2
    rcases stepCall_inv hm with ⟨e1, e2, e3, e4, e5⟩ | ⟨e1, e2, e3, e4, e5⟩ | ⟨e1, e2, e3, e5⟩ | ⟨_, rest, e1, e2, e3, e4, e5⟩ | ⟨_, rest, e1, e2, e3, e4, e5⟩ |
      ⟨e1, e2, e3, e5⟩ | ⟨e1, e2, e3, e5⟩ | ⟨e1, e2, e5⟩ | ⟨res, e1, e2, e3, e5⟩ | ⟨res, e1, e2, e3, e5⟩
    · exact keep (by rw [e3]) (by rw [e1]; simp)
    · exact keep (by rw [e3]) (by rw [e1]; simp)
    · exact keep (by rw [e3]) (by rw [e1]; simp)
    · exact keep (by rw [e3]) (by rw [e1]; simp)
    · exact keep (by rw [e3]) (by rw [e1]; simp)
    · by_cases hf : (calls j).file = p
      · refine .inr ⟨j, hf, .inl ?_⟩
        show (if j = j then pc else v.pc j) = .running
        rw [if_pos rfl]; exact e5
      · exact keep (by rw [e3]; exact openFile_ne (fun hc => hf (lock_injective hc).symm)) (by rw [e1]; simp)
    · exact keep (by rw [e3]) (by rw [e1]; simp)
    · exact keep (hw fs e2 _ (isLock_lockPath _)) (fun _ => .inr e5)
    · exact keep (by rw [e3]) (fun _ => .inl ⟨res, e5⟩)
    · have hne : p ≠ (calls j).file := by
        intro hc
        have : fs (lockPath p) = true := hp
        rw [e3, hc, removeFile_same] at this; cases this
      have hfs : fs (lockPath p) = v.fs (lockPath p) := by rw [e3]; exact removeFile_ne (fun hc => hne (lock_injective hc))
      have hp' : fs (lockPath p) = true := hp
      rw [hfs] at hp'
      rcases h p hp' with h' | ⟨i, h1, h2⟩
      · exact .inl h'
      · refine .inr ⟨i, h1, ?_⟩
        have hij : i ≠ j := fun hc => hne (by rw [← hc]; exact h1.symm)
        unfold HoldsLock at h2 ⊢
        simp only
        rw [if_neg hij]; exact h2

/-- **C66**: from the handler on, however it ends, the call removes its lock file as its last act, touches nothing else, and ends the same way. -/
theorem C66_ends {i : Nat} (hd : w.dead i = false) (hi : InHandler w i) (res : Ending) : ∃ w', run calls w [(i, .ends res), (i, .go)] = some w' ∧ w'.pc i = .finished res ∧
    w'.fs (lockPath (calls i).file) = false ∧ (∀ p, p ≠ lockPath (calls i).file → w'.fs p = w.fs p) ∧ ∀ j, j ≠ i → w'.pc j = w.pc j := by
  unfold InHandler at hi
  refine ⟨{ w with fs := removeFile w.fs (lockPath (calls i).file), pc := fun j => if j = i then .finished res else w.pc j }, ?_, by simp, removeFile_same _ _,
    fun p hp => removeFile_ne hp, fun j hj => by simp [hj]⟩
  simp only [run, step, hd, hi, stepCall, Bool.false_eq_true, if_false, if_true, Option.map_some, Option.bind_some]
  congr 2
  funext j
  by_cases hj : j = i <;> simp [hj]

/-- A process that has seen that there is work to do never skips. -/
theorem later_run {i : Nat} : ∀ (evs : List (Nat × Event)) (w : World), (w.pc i = .opening ∨ w.pc i = .running ∨ (∃ r, w.pc i = .removing r) ∨ ∃ r, w.pc i = .finished r) → ∀ w',
    run calls w evs = some w' → (w'.pc i = .opening ∨ w'.pc i = .running ∨ (∃ r, w'.pc i = .removing r) ∨ ∃ r, w'.pc i = .finished r) := by
  intro evs w h w' hr
  refine run_inv (calls := calls) (Q := fun _ _ _ => True) (Inv := fun w => w.pc i = .opening ∨ w.pc i = .running ∨ (∃ r, w.pc i = .removing r) ∨ ∃ r, w.pc i = .finished r) ?_
    evs w h (fun _ _ _ _ _ _ _ => trivial) w' hr
  intro v v' j ev h hd hs _
  cases hs with
  | kill => exact h
  | @move _ fs pc hm =>
    simp only
    by_cases hij : i = j
    · subst hij
      rw [if_pos rfl]
      rcases stepCall_inv hm with ⟨e1, e2, e3, e4, e5⟩ | ⟨e1, e2, e3, e4, e5⟩ | ⟨e1, e2, e3, e5⟩ | ⟨p, rest, e1, e2, e3, e4, e5⟩ | ⟨p, rest, e1, e2, e3, e4, e5⟩ |
        ⟨e1, e2, e3, e5⟩ | ⟨e1, e2, e3, e5⟩ | ⟨e1, e2, e5⟩ | ⟨res, e1, e2, e3, e5⟩ | ⟨res, e1, e2, e3, e5⟩ <;> rw [e1] at h <;> rw [e5] <;> simp at h ⊢
    · rw [if_neg hij]; exact h

theorem skip_run {i : Nat} : ∀ (evs : List (Nat × Event)) (w v : World), v.fs = w.fs → (∀ j, j ≠ i → v.pc j = w.pc j ∧ v.dead j = w.dead j) → ∀ w', run calls w evs = some w' →
    w'.pc i = .skipped → ∃ v', run calls v (evs.filter (fun x => decide (x.1 ≠ i))) = some v' ∧ v'.fs = w'.fs ∧ ∀ j, j ≠ i → v'.pc j = w'.pc j ∧ v'.dead j = w'.dead j := by
  intro evs
  induction evs with
  | nil => intro w v h1 h2 w' hr _; injection hr with hr; subst hr; exact ⟨v, rfl, h1, h2⟩
  | cons x evs ih =>
    intro w v h1 h2 w' hr hsk
    obtain ⟨j, ev⟩ := x
    obtain ⟨w1, r1, r2⟩ := run_cons hr
    by_cases hj : j = i
    · rw [List.filter_cons_of_neg (by simp [hj])]
      obtain ⟨hd, hs⟩ := step_inv r1
      refine ih w1 v ?_ ?_ w' r2 hsk
      · cases hs with
        | kill => exact h1
        | @move _ fs pc hm =>
          rw [h1]
          have hlate : ¬ (pc = .opening ∨ pc = .running ∨ (∃ r, pc = .removing r) ∨ ∃ r, pc = .finished r) := by
            intro hc
            have := later_run (i := i) evs _ (by simp only; rw [if_pos hj.symm]; exact hc) w' r2
            rw [hsk] at this
            simp at this
          rcases stepCall_inv hm with ⟨e1, e2, e3, e4, e5⟩ | ⟨e1, e2, e3, e4, e5⟩ | ⟨e1, e2, e3, e5⟩ | ⟨p, rest, e1, e2, e3, e4, e5⟩ | ⟨p, rest, e1, e2, e3, e4, e5⟩ |
            ⟨e1, e2, e3, e5⟩ | ⟨e1, e2, e3, e5⟩ | ⟨e1, e2, e5⟩ | ⟨res, e1, e2, e3, e5⟩ | ⟨res, e1, e2, e3, e5⟩ <;>
            first | exact e3.symm | (refine absurd ?_ hlate; rw [e5]; simp; done)
      · intro k hk
        cases hs with
        | kill => simp only; rw [if_neg (by rw [hj]; exact hk)]; exact h2 k hk
        | @move _ fs pc hm => simp only; rw [if_neg (by rw [hj]; exact hk)]; exact h2 k hk
    · rw [List.filter_cons_of_pos (by simp [hj])]
      have hdj := (h2 j hj).2
      have hpj := (h2 j hj).1
      have : ∃ v1, step calls v j ev = some v1 ∧ v1.fs = w1.fs ∧ ∀ k, k ≠ i → v1.pc k = w1.pc k ∧ v1.dead k = w1.dead k := by
        obtain ⟨hd, hs⟩ := step_inv r1
        unfold step
        rw [hdj, hd]
        simp only [Bool.false_eq_true, if_false]
        cases hs with
        | kill =>
          refine ⟨_, rfl, h1, fun k hk => ⟨(h2 k hk).1, ?_⟩⟩
          simp only
          rw [(h2 k hk).2]
        | @move _ fs pc hm =>
          rw [hpj, h1]
          cases ev with
          | kill =>
            unfold stepCall at hm
            cases hpc : w.pc j <;> rw [hpc] at hm <;> simp at hm
          | _ =>
            simp only [hm, Option.map_some]
            exact ⟨_, rfl, rfl, fun k hk => ⟨by simp only; rw [(h2 k hk).1], (h2 k hk).2⟩⟩
      obtain ⟨v1, s1, s2, s3⟩ := this
      obtain ⟨v', t1, t2⟩ := ih w1 v1 s2 s3 w' r2 hsk
      refine ⟨v', ?_, t2⟩
      unfold run
      rw [s1]; exact t1

/-- **C66**, in every schedule: a call that skips has no effect at all: without its steps, the others do the same and the files are the same. -/
theorem C66_skip {i : Nat} (hr : run calls w evs = some w') (hs : w'.pc i = .skipped) : ∃ v, run calls w (evs.filter (fun x => decide (x.1 ≠ i))) = some v ∧ v.fs = w'.fs ∧
    ∀ j, j ≠ i → v.pc j = w'.pc j ∧ v.dead j = w'.dead j :=
  skip_run evs w w rfl (fun _ _ => ⟨rfl, rfl⟩) w' hr hs

/-- **C66**: a process that begins while there is a lock skips. -/
theorem C66_locked {i : Nat} (hd : w.dead i = false) (hi : w.pc i = .start) (hl : w.fs (lockPath (calls i).file) = true) : ∃ w', step calls w i .go = some w' ∧ w'.pc i = .skipped ∧ w'.fs = w.fs := by
  refine ⟨{ w with pc := fun j => if j = i then .skipped else w.pc j }, ?_, by simp, rfl⟩
  simp [step, hd, hi, stepCall, hl]

theorem checking_run {i : Nat} : ∀ (rest : List Path) (w : World), w.dead i = false → w.pc i = .checking rest →
    ((∃ p ∈ rest, w.fs p = false) → ∃ n w', run calls w (List.replicate n (i, .go)) = some w' ∧ InHandler w' i ∧ w'.fs = openFile w.fs (lockPath (calls i).file)) ∧
    ((∀ p ∈ rest, w.fs p = true) → ∃ n w', run calls w (List.replicate n (i, .go)) = some w' ∧ w'.pc i = .skipped ∧ w'.fs = w.fs) := by
  intro rest
  induction rest with
  | nil =>
    intro w hd hi
    refine ⟨by simp, fun _ => ⟨1, { w with pc := fun j => if j = i then .skipped else w.pc j }, ?_, by simp, rfl⟩⟩
    simp [run, step, hd, hi, stepCall]
  | cons p rest ih =>
    intro w hd hi
    cases hp : w.fs p with
    | true =>
      have hs : step calls w i .go = some { w with pc := fun j => if j = i then .checking rest else w.pc j } := by simp [step, hd, hi, stepCall, hp]
      obtain ⟨h1, h2⟩ := ih { w with pc := fun j => if j = i then .checking rest else w.pc j } hd (by simp)
      refine ⟨fun h => ?_, fun h => ?_⟩
      · obtain ⟨n, w', r1, r2⟩ := h1 (by
          obtain ⟨q, hq1, hq2⟩ := h
          rcases List.mem_cons.mp hq1 with hq1 | hq1
          · subst hq1; rw [hp] at hq2; cases hq2
          · exact ⟨q, hq1, hq2⟩)
        exact ⟨n + 1, w', by rw [List.replicate_succ, run, hs]; exact r1, r2⟩
      · obtain ⟨n, w', r1, r2⟩ := h2 (fun q hq => h q (List.mem_cons_of_mem _ hq))
        exact ⟨n + 1, w', by rw [List.replicate_succ, run, hs]; exact r1, r2⟩
    | false =>
      refine ⟨fun _ => ?_, fun h => ?_⟩
      · refine ⟨2, { w with fs := openFile w.fs (lockPath (calls i).file), pc := fun j => if j = i then .running else w.pc j }, ?_, by simp [InHandler], rfl⟩
        simp only [List.replicate, run, step, hd, hi, stepCall, hp, Bool.false_eq_true, if_false, if_true, Option.map_some, Option.bind_some]
        congr 2
        funext j
        by_cases hj : j = i <;> simp [hj]
      · rw [h p (by simp)] at hp; cases hp

/-- **C66**: a process that finds no lock and runs without interruption starts its handler, with the lock file and no other file made, if an output is missing; and otherwise skips. -/
theorem C66_starts {i : Nat} (hd : w.dead i = false) (hi : w.pc i = .start) (hl : w.fs (lockPath (calls i).file) = false) :
    ((∃ p ∈ (calls i).outputs, w.fs p = false) → ∃ n w', run calls w (List.replicate n (i, .go)) = some w' ∧ InHandler w' i ∧ w'.fs (lockPath (calls i).file) = true ∧
      ∀ p, p ≠ lockPath (calls i).file → w'.fs p = w.fs p) ∧
    ((∀ p ∈ (calls i).outputs, w.fs p = true) → ∃ n w', run calls w (List.replicate n (i, .go)) = some w' ∧ w'.pc i = .skipped ∧ w'.fs = w.fs) := by
  have hs : step calls w i .go = some { w with pc := fun j => if j = i then .checking (calls i).outputs else w.pc j } := by simp [step, hd, hi, stepCall, hl]
  obtain ⟨h1, h2⟩ := checking_run (calls := calls) (i := i) (calls i).outputs { w with pc := fun j => if j = i then .checking (calls i).outputs else w.pc j } hd (by simp)
  refine ⟨fun h => ?_, fun h => ?_⟩
  · obtain ⟨n, w', r1, r2, r3⟩ := h1 h
    exact ⟨n + 1, w', by rw [List.replicate_succ, run, hs]; exact r1, r2, by rw [r3]; exact openFile_same _ _, fun p hp => by rw [r3]; exact openFile_ne hp⟩
  · obtain ⟨n, w', r1, r2⟩ := h2 h
    exact ⟨n + 1, w', by rw [List.replicate_succ, run, hs]; exact r1, r2⟩

theorem dead_run {i : Nat} : ∀ (evs : List (Nat × Event)) (w : World), w.dead i = true → ∀ w', run calls w evs = some w' → w'.dead i = true ∧ w'.pc i = w.pc i := by
  intro evs w hd w' hr
  refine run_inv (calls := calls) (Q := fun _ _ _ => True) (Inv := fun v => v.dead i = true ∧ v.pc i = w.pc i) ?_ evs w ⟨hd, rfl⟩ (fun _ _ _ _ _ _ _ => trivial) w' hr
  intro v v' j ev ⟨h1, h2⟩ hdj hs _
  have hij : i ≠ j := by rintro rfl; rw [h1] at hdj; cases hdj
  cases hs with
  | kill => exact ⟨by simp only; rw [if_neg hij]; exact h1, h2⟩
  | @move _ fs pc hm => exact ⟨h1, by simp only; rw [if_neg hij]; exact h2⟩

/-- **C66**, what a crash does: when a process is killed while it holds its lock, then (without races) the lock file stays for ever, and no other process ever runs a handler for this file. -/
theorem C66_stale (hw : Fresh w) {pre post : List (Nat × Event)} {w1 : World} (hq : Respects calls KeepsLocks w (pre ++ post)) (hn : NoRace calls w (pre ++ post)) (hr1 : run calls w pre = some w1)
    (hr : run calls w (pre ++ post) = some w') {i : Nat} (hd : w1.dead i = true) (hi : HoldsLock w1 i) :
    w'.fs (lockPath (calls i).file) = true ∧ ∀ j, j ≠ i → (calls j).file = (calls i).file → ¬ InHandler w' j := by
  have hsplit : ∀ (pre post : List (Nat × Event)) (w w1 : World), run calls w pre = some w1 → run calls w (pre ++ post) = run calls w1 post := by
    intro pre
    induction pre with
    | nil => intro post w w1 h; injection h with h; rw [h]; rfl
    | cons x pre ih =>
      intro post w w1 h
      obtain ⟨a, ev⟩ := x
      obtain ⟨w2, h1, h2⟩ := run_cons h
      rw [List.cons_append, run, h1, Option.bind_some]
      exact ih post w2 w1 h2
  rw [hsplit pre post w w1 hr1] at hr
  obtain ⟨d1, d2⟩ := dead_run post w1 hd w' hr
  have hx := excl_run (pre ++ post) w (fresh_excl hw) hq hn w' (by rw [hsplit pre post w w1 hr1]; exact hr)
  have hh : HoldsLock w' i := by unfold HoldsLock at hi ⊢; rw [d2]; exact hi
  exact ⟨hx.lock i hh, fun j hj hf hc => hj (hx.one j i hf (.inl hc) hh)⟩

/-- The hypotheses of `C66_stale`: 0 is killed in its handler; 1 comes later. -/
example : ∃ (pre post : List (Nat × Event)) (w1 w' : World), Respects sameCalls KeepsLocks emptyWorld (pre ++ post) ∧ NoRace sameCalls emptyWorld (pre ++ post) ∧
    run sameCalls emptyWorld pre = some w1 ∧ run sameCalls emptyWorld (pre ++ post) = some w' ∧ w1.dead 0 = true ∧ HoldsLock w1 0 ∧ w'.pc 1 = .skipped := by
  refine ⟨[(0, .go), (0, .go), (0, .go), (0, .kill)], [(1, .go)], _, _, ?_, ?_, rfl, rfl, rfl, .inl rfl, rfl⟩
  · intro pre post i fs w' h
    have := congrArg (fun l => (i, Event.work fs) ∈ l) h
    simp at this
  · show NoRace sameCalls emptyWorld [(0, .go), (0, .go), (0, .go), (0, .kill), (1, .go)]
    refine noRace_cons (by simp) (window_only (k := 0) ?_) ⟨_, rfl, ?_⟩
    · intro i _; simp [emptyWorld]
    refine noRace_cons (by simp) (window_only (k := 0) ?_) ⟨_, rfl, ?_⟩
    · intro i hi; simp [emptyWorld, hi]
    refine noRace_cons (by simp) (window_only (k := 0) ?_) ⟨_, rfl, ?_⟩
    · intro i hi; simp [emptyWorld, hi]
    refine noRace_cons (by simp) (window_only (k := 0) ?_) ⟨_, rfl, ?_⟩
    · intro i hi; simp [emptyWorld, hi]
    refine noRace_cons (by simp) (window_only (k := 0) ?_) ⟨_, rfl, ?_⟩
    · intro i hi; simp [emptyWorld, hi]
    refine noRace_nil (window_only (k := 2) ?_)
    exact others (a := .running) (b := .skipped) rfl rfl (fun i h0 h1 h2 => by simp [emptyWorld, h0, h1, h2])

/-! ### C76 -/

/-- **C76**: `wait_for_locks` returns only at a time when there is no lock file in the directory. -/
theorem C76_returns (listing : Nat → List (List Char)) : ∀ (fuel now backoff t : Nat), waitForLocks listing fuel now backoff = some t → now ≤ t ∧ ∀ n ∈ listing t, ¬ lockPrefix <+: n := by
  intro fuel
  induction fuel with
  | zero => intro _ _ _ h; cases h
  | succ fuel ih =>
    intro now backoff t h
    unfold waitForLocks at h
    split at h
    · obtain ⟨h1, h2⟩ := ih _ _ _ h
      exact ⟨by omega, h2⟩
    · rename_i hc
      injection h with h
      subst h
      refine ⟨Nat.le_refl _, fun n hn hl => hc ?_⟩
      exact List.length_pos_of_mem (List.mem_filter.mpr ⟨hn, by simpa using hl⟩)

theorem wait_bound (listing : Nat → List (List Char)) {τ : Nat} (hτ : ∀ t, τ ≤ t → ∀ n ∈ listing t, ¬ lockPrefix <+: n) : ∀ (fuel now backoff : Nat), 1 ≤ backoff → backoff ≤ 30 →
    τ ≤ fuel + now → ∃ t, waitForLocks listing (fuel + 1) now backoff = some t ∧ (t = now ∨ t < τ + 30) := by
  intro fuel
  induction fuel with
  | zero =>
    intro now backoff _ _ hf
    have hc : ¬ ((listing now).filter (fun n => lockPrefix.isPrefixOf n)).length > 0 := by
      intro hc
      obtain ⟨n, hn⟩ := List.exists_mem_of_length_pos hc
      obtain ⟨hn1, hn2⟩ := List.mem_filter.mp hn
      exact hτ now (by omega) n hn1 (by simpa using hn2)
    exact ⟨now, by unfold waitForLocks; rw [if_neg hc], .inl rfl⟩
  | succ fuel ih =>
    intro now backoff h1 h2 hf
    unfold waitForLocks
    split
    · rename_i hc
      have hlt : now < τ := by
        apply Nat.lt_of_not_le
        intro hge
        obtain ⟨n, hn⟩ := List.exists_mem_of_length_pos hc
        obtain ⟨hn1, hn2⟩ := List.mem_filter.mp hn
        exact hτ now (by omega) n hn1 (by simpa using hn2)
      obtain ⟨t, t1, t2⟩ := ih (now + backoff) (min (backoff * 2) 30) (by omega) (by omega) (by omega)
      exact ⟨t, t1, .inr (by omega)⟩
    · exact ⟨now, rfl, .inl rfl⟩

/-- **C76**: if from time `τ` on there are no lock files any more, `wait_for_locks` returns, at once or less than 30 seconds after `τ`, and after at most `τ + 1` rounds. -/
theorem C76_waits (listing : Nat → List (List Char)) {τ : Nat} (hτ : ∀ t, τ ≤ t → ∀ n ∈ listing t, ¬ lockPrefix <+: n) :
    ∃ t, waitForLocks listing (τ + 1) 0 1 = some t ∧ (t = 0 ∨ t < τ + 30) := wait_bound listing hτ τ 0 1 (by omega) (by omega) (by omega)

/-- **C76**: while there are lock files it goes on waiting. A stale lock (see `C66_stale`) makes it wait for ever. -/
theorem C76_never (listing : Nat → List (List Char)) (h : ∀ t, ∃ n ∈ listing t, lockPrefix <+: n) : ∀ (fuel now backoff : Nat), waitForLocks listing fuel now backoff = none := by
  intro fuel
  induction fuel with
  | zero => intro _ _; rfl
  | succ fuel ih =>
    intro now backoff
    unfold waitForLocks
    obtain ⟨n, h1, h2⟩ := h now
    rw [if_pos (List.length_pos_of_mem (List.mem_filter.mpr ⟨h1, by simpa using h2⟩))]
    exact ih _ _

/-- A lock that is there for 40 seconds: looked for at 0, 1, 3, 7, 15, 31 and 61 seconds. -/
example : waitForLocks (fun t => if t < 40 then [".lock.a.json".toList, "b".toList] else ["b".toList]) 41 0 1 = some 61 := by decide +kernel

end Verif.Props
