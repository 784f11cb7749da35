import Verif.Spec.FileLock

/-! Lemmas about file locks. -/

namespace Verif.FileLock
open Verif.Spec

theorem lock_injective {p q : Path} (h : lockPath p = lockPath q) : p = q := by
  unfold lockPath at h
  rw [Prod.mk.injEq] at h
  exact Prod.ext h.1 (List.append_cancel_left h.2)

theorem isLock_lockPath (p : Path) : IsLock (lockPath p) := ⟨p.2, rfl⟩

theorem isLock_iff (p : Path) : IsLock p ↔ ∃ q, p = lockPath q := by
  constructor
  · rintro ⟨n, hn⟩; exact ⟨(p.1, n), Prod.ext rfl hn.symm⟩
  · rintro ⟨q, rfl⟩; exact isLock_lockPath q

variable {calls : Nat → Call} {w w' : World} {i : Nat} {ev : Event} {evs : List (Nat × Event)} {P : Nat → Fs → Fs → Prop}

/-- The steps of a process, one by one. -/
inductive Steps (calls : Nat → Call) (w : World) (i : Nat) : Event → World → Prop
  | kill : Steps calls w i .kill { w with dead := fun j => if j = i then true else w.dead j }
  | move {ev : Event} {fs : Fs} {pc : Pc} : stepCall (calls i) w.fs (w.pc i) ev = some (fs, pc) → Steps calls w i ev { w with fs := fs, pc := fun j => if j = i then pc else w.pc j }

theorem step_inv (h : step calls w i ev = some w') : w.dead i = false ∧ Steps calls w i ev w' := by
  unfold step at h
  split at h
  · cases h
  · rename_i hd
    refine ⟨by simpa using hd, ?_⟩
    split at h
    · injection h with h; rw [← h]; exact .kill
    · rw [Option.map_eq_some_iff] at h
      obtain ⟨r, h1, h2⟩ := h
      rw [← h2]
      exact .move h1

/-- The moves of `with_file_lock`. -/
theorem stepCall_inv {c : Call} {fs fs' : Fs} {pc pc' : Pc} (h : stepCall c fs pc ev = some (fs', pc')) :
    (pc = .start ∧ ev = .go ∧ fs' = fs ∧ fs (lockPath c.file) = true ∧ pc' = .skipped) ∨
    (pc = .start ∧ ev = .go ∧ fs' = fs ∧ fs (lockPath c.file) = false ∧ pc' = .checking c.outputs) ∨
    (pc = .checking [] ∧ ev = .go ∧ fs' = fs ∧ pc' = .skipped) ∨
    (∃ p rest, pc = .checking (p :: rest) ∧ ev = .go ∧ fs' = fs ∧ fs p = true ∧ pc' = .checking rest) ∨
    (∃ p rest, pc = .checking (p :: rest) ∧ ev = .go ∧ fs' = fs ∧ fs p = false ∧ pc' = .opening) ∨
    (pc = .opening ∧ ev = .go ∧ fs' = openFile fs (lockPath c.file) ∧ pc' = .running) ∨
    (pc = .opening ∧ ev = .openFails ∧ fs' = fs ∧ pc' = .removing .raised) ∨
    (pc = .running ∧ ev = .work fs' ∧ pc' = .running) ∨
    (∃ res, pc = .running ∧ ev = .ends res ∧ fs' = fs ∧ pc' = .removing res) ∨
    (∃ res, pc = .removing res ∧ ev = .go ∧ fs' = removeFile fs (lockPath c.file) ∧ pc' = .finished res) := by
  unfold stepCall at h
  split at h
  · injection h with h; rw [Prod.mk.injEq] at h
    cases hl : fs (lockPath c.file) with
    | true => rw [hl] at h; exact .inl ⟨rfl, rfl, h.1.symm, rfl, h.2.symm⟩
    | false => rw [hl] at h; exact .inr (.inl ⟨rfl, rfl, h.1.symm, rfl, h.2.symm⟩)
  · injection h with h; rw [Prod.mk.injEq] at h
    exact .inr (.inr (.inl ⟨rfl, rfl, h.1.symm, h.2.symm⟩))
  · rename_i p rest
    injection h with h; rw [Prod.mk.injEq] at h
    cases hl : fs p with
    | true => rw [hl] at h; exact .inr (.inr (.inr (.inl ⟨p, rest, rfl, rfl, h.1.symm, hl, h.2.symm⟩)))
    | false => rw [hl] at h; exact .inr (.inr (.inr (.inr (.inl ⟨p, rest, rfl, rfl, h.1.symm, hl, h.2.symm⟩))))
  · injection h with h; rw [Prod.mk.injEq] at h
    exact .inr (.inr (.inr (.inr (.inr (.inl ⟨rfl, rfl, h.1.symm, h.2.symm⟩)))))
  · injection h with h; rw [Prod.mk.injEq] at h
    exact .inr (.inr (.inr (.inr (.inr (.inr (.inl ⟨rfl, rfl, h.1.symm, h.2.symm⟩))))))
  · injection h with h; rw [Prod.mk.injEq] at h
    exact .inr (.inr (.inr (.inr (.inr (.inr (.inr (.inl ⟨rfl, by rw [h.1], h.2.symm⟩)))))))
  · rename_i res
    injection h with h; rw [Prod.mk.injEq] at h
    exact .inr (.inr (.inr (.inr (.inr (.inr (.inr (.inr (.inl ⟨res, rfl, rfl, h.1.symm, h.2.symm⟩))))))))
  · rename_i res
    injection h with h; rw [Prod.mk.injEq] at h
    exact .inr (.inr (.inr (.inr (.inr (.inr (.inr (.inr (.inr ⟨res, rfl, rfl, h.1.symm, h.2.symm⟩))))))))
  · cases h

theorem run_cons (h : run calls w ((i, ev) :: evs) = some w') : ∃ w1, step calls w i ev = some w1 ∧ run calls w1 evs = some w' := by
  unfold run at h
  exact Option.bind_eq_some_iff.mp h

theorem _root_.Verif.Spec.Respects.head {fs : Fs} (h : Respects calls P w ((i, .work fs) :: evs)) : P i w.fs fs := h [] evs i fs w rfl rfl

theorem _root_.Verif.Spec.Respects.tail (h : Respects calls P w ((i, ev) :: evs)) (hs : step calls w i ev = some w') : Respects calls P w' evs := by
  intro pre post j fs w2 h1 h2
  refine h ((i, ev) :: pre) post j fs w2 (by rw [h1]; rfl) ?_
  unfold run
  rw [hs]; exact h2

theorem _root_.Verif.Spec.NoRace.tail (h : NoRace calls w ((i, ev) :: evs)) (hs : step calls w i ev = some w') : NoRace calls w' evs := by
  refine ⟨fun j hj => h.1 j (List.mem_cons_of_mem _ hj), fun pre post w2 h1 h2 => h.2 ((i, ev) :: pre) post w2 (by rw [h1]; rfl) ?_⟩
  unfold run
  rw [hs]; exact h2

theorem _root_.Verif.Spec.NoRace.head (h : NoRace calls w evs) {i j : Nat} : (calls i).file = (calls j).file → InWindow w i → InWindow w j → i = j := h.2 [] evs w rfl rfl i j

/-- An invariant of all runs. -/
theorem run_inv {Q : Nat → Fs → Fs → Prop} {Inv : World → Prop} (hstep : ∀ w w' i ev, Inv w → w.dead i = false → Steps calls w i ev w' → (∀ fs, ev = .work fs → Q i w.fs fs) → Inv w') :
    ∀ (evs : List (Nat × Event)) (w : World), Inv w → Respects calls Q w evs → ∀ w', run calls w evs = some w' → Inv w' := by
  intro evs
  induction evs with
  | nil => intro w h _ w' hr; injection hr with hr; rw [← hr]; exact h
  | cons x evs ih =>
    intro w h hq w' hr
    obtain ⟨i, ev⟩ := x
    obtain ⟨w1, h1, h2⟩ := run_cons hr
    obtain ⟨h3, h4⟩ := step_inv h1
    exact ih w1 (hstep w w1 i ev h h3 h4 (fun fs he => by subst he; exact hq.head)) (hq.tail h1) w' h2

/-- The invariant of runs without races. -/
structure Excl (calls : Nat → Call) (w : World) : Prop where
  lock : ∀ i, HoldsLock w i → w.fs (lockPath (calls i).file) = true
  one : ∀ i j, (calls i).file = (calls j).file → HoldsLock w i → HoldsLock w j → i = j
  alone : ∀ i j, (calls i).file = (calls j).file → HoldsLock w i → ¬ InWindow w j

/-- While a process is about to make its lock, one of its outputs is missing. -/
def Missing (calls : Nat → Call) (w : World) : Prop := ∀ i, w.dead i = false → w.pc i = .opening → ∃ p ∈ (calls i).outputs, w.fs p = false

theorem openFile_same (fs : Fs) (p : Path) : openFile fs p p = true := by simp [openFile]
theorem openFile_mono {fs : Fs} {p q : Path} (h : fs q = true) : openFile fs p q = true := by unfold openFile; split <;> simp_all
theorem openFile_ne {fs : Fs} {p q : Path} (h : q ≠ p) : openFile fs p q = fs q := by simp [openFile, h]
theorem removeFile_same (fs : Fs) (p : Path) : removeFile fs p p = false := by simp [removeFile]
theorem removeFile_ne {fs : Fs} {p q : Path} (h : q ≠ p) : removeFile fs p q = fs q := by simp [removeFile, h]

theorem excl_step (h : Excl calls w) (hd : w.dead i = false) (hs : Steps calls w i ev w') (hw : ∀ fs, ev = .work fs → KeepsLocks i w.fs fs)
    (ho : ev ≠ .openFails) (hr : ∀ {i j : Nat}, (calls i).file = (calls j).file → InWindow w i → InWindow w j → i = j) : Excl calls w' := by
  cases hs with
  | kill =>
    refine ⟨h.lock, h.one, fun a b hab ha hb => h.alone a b hab ha ?_⟩
    obtain ⟨h1, h2⟩ := hb
    refine ⟨?_, h2⟩
    simp only at h1
    split at h1
    · cases h1
    · exact h1
  | @move _ fs pc hm =>
    -- `i` moves to `pc`; who holds and who is in the window
    have holds : ∀ a, HoldsLock { w with fs := fs, pc := fun j => if j = i then pc else w.pc j } a ↔ (a = i ∧ (pc = .running ∨ ∃ res, pc = .removing res)) ∨ (a ≠ i ∧ HoldsLock w a) := by
      intro a
      unfold HoldsLock
      by_cases ha : a = i <;> simp [ha]
    have win : ∀ a, InWindow { w with fs := fs, pc := fun j => if j = i then pc else w.pc j } a ↔
        (a = i ∧ ((∃ rest, pc = .checking rest) ∨ pc = .opening)) ∨ (a ≠ i ∧ InWindow w a) := by
      intro a
      unfold InWindow
      by_cases ha : a = i <;> simp [ha, hd]
    -- moves that do not make `i` a holder and keep the locks of holders
    have key : (¬ (pc = .running ∨ ∃ res, pc = .removing res)) → (∀ a, a ≠ i → HoldsLock w a → fs (lockPath (calls a).file) = true) →
        (((∃ rest, pc = .checking rest) ∨ pc = .opening) → ∀ a, a ≠ i → (calls a).file = (calls i).file → ¬ HoldsLock w a) →
        Excl calls { w with fs := fs, pc := fun j => if j = i then pc else w.pc j } := by
      intro k1 k2 k3
      refine ⟨?_, ?_, ?_⟩
      · intro a ha
        rcases (holds a).mp ha with ⟨_, hc⟩ | ⟨hne, ha⟩
        · exact absurd hc k1
        · exact k2 a hne ha
      · intro a b hab ha hb
        rcases (holds a).mp ha with ⟨_, hc⟩ | ⟨_, ha⟩
        · exact absurd hc k1
        rcases (holds b).mp hb with ⟨_, hc⟩ | ⟨_, hb⟩
        · exact absurd hc k1
        exact h.one a b hab ha hb
      · intro a b hab ha hb
        rcases (holds a).mp ha with ⟨_, hc⟩ | ⟨hne, ha'⟩
        · exact absurd hc k1
        clear ha
        rcases (win b).mp hb with ⟨rb, hc⟩ | ⟨_, hb'⟩
        · exact k3 hc a hne (by rw [← rb]; exact hab) ha'
        · exact h.alone a b hab ha' hb'
    -- `i` holds before and after
    have stay : HoldsLock w i → (pc = .running ∨ ∃ res, pc = .removing res) → (∀ p, IsLock p → fs p = w.fs p) →
        Excl calls { w with fs := fs, pc := fun j => if j = i then pc else w.pc j } := by
      intro k1 k2 k3
      have hh : ∀ a, HoldsLock { w with fs := fs, pc := fun j => if j = i then pc else w.pc j } a ↔ HoldsLock w a := by
        intro a
        rw [holds]
        constructor
        · rintro (⟨rfl, _⟩ | ⟨_, ha⟩); exacts [k1, ha]
        · intro ha
          by_cases hai : a = i
          · exact .inl ⟨hai, k2⟩
          · exact .inr ⟨hai, ha⟩
      refine ⟨fun a ha => ?_, fun a b hab ha hb => h.one a b hab ((hh a).mp ha) ((hh b).mp hb), fun a b hab ha hb => ?_⟩
      · show fs _ = true
        rw [k3 _ (isLock_lockPath _)]
        exact h.lock a ((hh a).mp ha)
      · have ha := (hh a).mp ha
        rcases (win b).mp hb with ⟨_, hc⟩ | ⟨_, hb⟩
        · rcases k2 with k2 | ⟨res, k2⟩ <;> rw [k2] at hc <;> rcases hc with ⟨_, hc⟩ | hc <;> cases hc
        · exact h.alone a b hab ha hb
    rcases stepCall_inv hm with ⟨e1, e2, e3, e4, e5⟩ | ⟨e1, e2, e3, e4, e5⟩ | ⟨e1, e2, e3, e5⟩ | ⟨p, rest, e1, e2, e3, e4, e5⟩ | ⟨p, rest, e1, e2, e3, e4, e5⟩ |
      ⟨e1, e2, e3, e5⟩ | ⟨e1, e2, e3, e5⟩ | ⟨e1, e2, e5⟩ | ⟨res, e1, e2, e3, e5⟩ | ⟨res, e1, e2, e3, e5⟩
    · exact key (by rw [e5]; simp) (fun a _ ha => by rw [e3]; exact h.lock a ha) (by rw [e5]; simp)
    · refine key (by rw [e5]; simp) (fun a _ ha => by rw [e3]; exact h.lock a ha) (fun _ a hne hai ha => ?_)
      have := h.lock a ha
      rw [hai, e4] at this; cases this
    · exact key (by rw [e5]; simp) (fun a _ ha => by rw [e3]; exact h.lock a ha) (by rw [e5]; simp)
    · exact key (by rw [e5]; simp) (fun a _ ha => by rw [e3]; exact h.lock a ha) (fun _ a hne hai ha => h.alone a i hai ha ⟨hd, .inl ⟨_, e1⟩⟩)
    · exact key (by rw [e5]; simp) (fun a _ ha => by rw [e3]; exact h.lock a ha) (fun _ a hne hai ha => h.alone a i hai ha ⟨hd, .inl ⟨_, e1⟩⟩)
    · -- the lock is made
      have hwin : InWindow w i := ⟨hd, .inr e1⟩
      refine ⟨?_, ?_, ?_⟩
      · intro a ha
        simp only [e3]
        rcases (holds a).mp ha with ⟨rfl, _⟩ | ⟨_, ha⟩
        · exact openFile_same _ _
        · exact openFile_mono (h.lock a ha)
      · intro a b hab ha hb
        rcases (holds a).mp ha with ⟨ra, _⟩ | ⟨_, ha'⟩ <;> rcases (holds b).mp hb with ⟨rb, _⟩ | ⟨_, hb'⟩
        · rw [ra, rb]
        · exact absurd hwin (h.alone b i (by rw [← ra]; exact hab.symm) hb')
        · exact absurd hwin (h.alone a i (by rw [← rb]; exact hab) ha')
        · exact h.one a b hab ha' hb'
      · intro a b hab ha hb
        rcases (win b).mp hb with ⟨_, hc⟩ | ⟨hne, hb'⟩
        · rw [e5] at hc; rcases hc with ⟨_, hc⟩ | hc <;> cases hc
        · rcases (holds a).mp ha with ⟨ra, _⟩ | ⟨_, ha'⟩
          · exact hne (hr (by rw [← ra]; exact hab.symm) hb' hwin)
          · exact h.alone a b hab ha' hb'
    · exact absurd e2 ho
    · exact stay (.inl e1) (.inl e5) (fun p hp => hw fs e2 p hp)
    · exact stay (.inl e1) (.inr ⟨res, e5⟩) (fun p hp => by rw [e3])
    · have hi : HoldsLock w i := .inr ⟨res, e1⟩
      refine key (by rw [e5]; simp) (fun a hne ha => ?_) (by rw [e5]; simp)
      rw [e3, removeFile_ne]
      · exact h.lock a ha
      · intro hc
        exact hne (h.one a i (lock_injective hc) ha hi)

theorem missing_step (hx : Excl calls w) (h : Missing calls w) (hout : ∀ i, ∀ p ∈ (calls i).outputs, ¬ IsLock p) (hd : w.dead i = false) (hs : Steps calls w i ev w')
    (hw : ∀ fs, ev = .work fs → OwnOutputs calls i w.fs fs) (hch : ∀ a rest, w.pc a = .checking rest → ∀ p ∈ rest, p ∈ (calls a).outputs) : Missing calls w' := by
  cases hs with
  | kill =>
    intro a ha hpc
    simp only at ha hpc
    split at ha
    · cases ha
    · exact h a ha hpc
  | @move _ fs pc hm =>
    intro a ha hpc
    simp only at ha hpc ⊢
    by_cases hai : a = i
    · subst hai
      rw [if_pos rfl] at hpc
      subst hpc
      rcases stepCall_inv hm with ⟨e1, e2, e3, e4, e5⟩ | ⟨e1, e2, e3, e4, e5⟩ | ⟨e1, e2, e3, e5⟩ | ⟨p, rest, e1, e2, e3, e4, e5⟩ | ⟨p, rest, e1, e2, e3, e4, e5⟩ |
        ⟨e1, e2, e3, e5⟩ | ⟨e1, e2, e3, e5⟩ | ⟨e1, e2, e5⟩ | ⟨res, e1, e2, e3, e5⟩ | ⟨res, e1, e2, e3, e5⟩ <;> try (cases e5)
      exact ⟨p, hch a _ e1 p (by simp), by rw [e3]; exact e4⟩
    · rw [if_neg hai] at hpc
      obtain ⟨p, hp, hpf⟩ := h a ha hpc
      refine ⟨p, hp, ?_⟩
      have hnl := hout a p hp
      have hne : p ≠ lockPath (calls i).file := fun hc => hnl (by rw [hc]; exact isLock_lockPath _)
      rcases stepCall_inv hm with ⟨e1, e2, e3, e4, e5⟩ | ⟨e1, e2, e3, e4, e5⟩ | ⟨e1, e2, e3, e5⟩ | ⟨_, rest, e1, e2, e3, e4, e5⟩ | ⟨_, rest, e1, e2, e3, e4, e5⟩ |
        ⟨e1, e2, e3, e5⟩ | ⟨e1, e2, e3, e5⟩ | ⟨e1, e2, e5⟩ | ⟨res, e1, e2, e3, e5⟩ | ⟨res, e1, e2, e3, e5⟩ <;> try (rw [e3]; exact hpf)
      · rw [e3, openFile_ne hne]; exact hpf
      · by_cases hf : (calls a).file = (calls i).file
        · exact absurd ⟨ha, .inr hpc⟩ (hx.alone i a hf.symm (.inl e1))
        · rw [hw fs e2 a hf p hp]; exact hpf
      · rw [e3, removeFile_ne hne]; exact hpf

/-- What is left to check are outputs. -/
def Checks (calls : Nat → Call) (w : World) : Prop := ∀ a rest, w.pc a = .checking rest → ∀ p ∈ rest, p ∈ (calls a).outputs

theorem checks_step (h : Checks calls w) (hs : Steps calls w i ev w') : Checks calls w' := by
  cases hs with
  | kill => exact h
  | @move _ fs pc hm =>
    intro a rest hpc p hp
    simp only at hpc
    by_cases hai : a = i
    · subst hai
      rw [if_pos rfl] at hpc
      subst hpc
      rcases stepCall_inv hm with ⟨e1, e2, e3, e4, e5⟩ | ⟨e1, e2, e3, e4, e5⟩ | ⟨e1, e2, e3, e5⟩ | ⟨q, rest', e1, e2, e3, e4, e5⟩ | ⟨_, rest', e1, e2, e3, e4, e5⟩ |
        ⟨e1, e2, e3, e5⟩ | ⟨e1, e2, e3, e5⟩ | ⟨e1, e2, e5⟩ | ⟨res, e1, e2, e3, e5⟩ | ⟨res, e1, e2, e3, e5⟩ <;> try (cases e5)
      · exact hp
      · exact h a _ e1 p (List.mem_cons_of_mem _ hp)
    · rw [if_neg hai] at hpc
      exact h a rest hpc p hp

end Verif.FileLock
