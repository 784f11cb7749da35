import Verif.Spec.Workers
import Verif.Proofs.FileLock

/-! Lemmas about processes that work on files with locks. -/

namespace Verif.FileLock
open Verif.Spec

variable {jobs : Nat → Job} {w w' : Workers} {i : Nat} {ev : JobEvent} {evs : List (Nat × JobEvent)}

theorem stepWorkers_inv (h : stepWorkers jobs w i ev = some w') :
    (ev = .kill ∧ w'.fs = w.fs ∧ w'.stage = w.stage) ∨
    (∃ s, stepJob (jobs i) w.fs (w.stage i) ev = some (w'.fs, s) ∧ w'.stage = fun j => if j = i then s else w.stage j) := by
  unfold stepWorkers at h
  split at h
  · cases h
  · split at h
    · injection h with h; rw [← h]; exact .inl ⟨rfl, rfl, rfl⟩
    · rw [Option.map_eq_some_iff] at h
      obtain ⟨r, h1, h2⟩ := h
      rw [← h2]
      exact .inr ⟨r.2, h1, rfl⟩

theorem runWorkers_cons (h : runWorkers jobs w ((i, ev) :: evs) = some w') : ∃ w1, stepWorkers jobs w i ev = some w1 ∧ runWorkers jobs w1 evs = some w' := by
  unfold runWorkers at h
  exact Option.bind_eq_some_iff.mp h

theorem _root_.Verif.Spec.FairRun.head (h : FairRun jobs w ((i, ev) :: evs)) : Fair jobs w i ev := h [] i ev evs w rfl rfl

theorem _root_.Verif.Spec.FairRun.tail (h : FairRun jobs w ((i, ev) :: evs)) (hs : stepWorkers jobs w i ev = some w') : FairRun jobs w' evs := by
  intro pre j ev' post w1 he hr
  refine h ((i, ev) :: pre) j ev' post w1 (by rw [he]; rfl) ?_
  unfold runWorkers
  rw [hs]; exact hr

theorem fairRun_nil : FairRun jobs w [] := fun pre i ev post w' h => by cases pre <;> cases h

theorem fairRun_cons (h1 : Fair jobs w i ev) (hs : stepWorkers jobs w i ev = some w') (h2 : FairRun jobs w' evs) : FairRun jobs w ((i, ev) :: evs) := by
  intro pre j ev' post w1 he hr
  cases pre with
  | nil =>
    rw [List.nil_append, List.cons.injEq, Prod.mk.injEq] at he
    obtain ⟨⟨rfl, rfl⟩, rfl⟩ := he
    injection hr with hr
    rw [← hr]; exact h1
  | cons a pre =>
    rw [List.cons_append, List.cons.injEq] at he
    obtain ⟨rfl, he2⟩ := he
    obtain ⟨w2, hr1, hr2⟩ := runWorkers_cons hr
    rw [hs] at hr1
    injection hr1 with hr1
    rw [← hr1] at hr2
    exact h2 pre j ev' post w1 he2 hr2

/-- All outputs of a call exist. -/
def Made (fs : Fs) (c : Call) : Prop := ∀ p ∈ c.outputs, fs p = true

/-- Somebody seems to be at work on the call's file, or its outputs exist. -/
def Settled (fs : Fs) (c : Call) : Prop := fs (lockPath c.file) = true ∨ Made fs c

/-- What is known about a process within a call. -/
def InCall (fs : Fs) (c : Call) : Pc → Prop
  | .checking rest => ∀ p ∈ c.outputs, p ∈ rest ∨ fs p = true
  | .removing .returned => Made fs c
  | .removing .raised => False
  | .finished _ => False
  | .skipped => False
  | _ => True

/-- What is known about a process. -/
def Known (fs : Fs) (j : Job) : Stage → Prop
  | .call k pc => (∀ k' < k, ∀ c, j.calls[k']? = some c → Settled fs c) ∧ ∀ c, j.calls[k]? = some c → InCall fs c pc
  | .waiting => ∀ c ∈ j.calls, Settled fs c
  | .done => ∀ c ∈ j.calls, c.file.1 = j.waits → Made fs c
  | .raised => False

/-- From `fs` to `fs'`, nothing that processes rely on gets lost. -/
def Grows (jobs : Nat → Job) (fs fs' : Fs) : Prop :=
  (∀ j, ∀ c ∈ (jobs j).calls, ∀ p ∈ c.outputs, fs p = true → fs' p = true) ∧ ∀ j, ∀ c ∈ (jobs j).calls, Settled fs c → Settled fs' c

theorem known_grows {fs fs' : Fs} (h : Grows jobs fs fs') (j : Nat) : ∀ s, Known fs (jobs j) s → Known fs' (jobs j) s := by
  intro s
  cases s with
  | call k pc =>
    rintro ⟨h1, h2⟩
    refine ⟨fun k' hk c hc => h.2 j c (List.mem_of_getElem? hc) (h1 k' hk c hc), fun c hc => ?_⟩
    have hm := List.mem_of_getElem? hc
    have h3 := h2 c hc
    cases pc with
    | checking rest =>
      intro p hp
      rcases h3 p hp with h4 | h4
      · exact .inl h4
      · exact .inr (h.1 j c hm p hp h4)
    | removing res =>
      cases res with
      | returned => exact fun p hp => h.1 j c hm p hp (h3 p hp)
      | raised => exact h3
    | finished res => exact h3
    | skipped => exact h3
    | start => exact trivial
    | opening => exact trivial
    | running => exact trivial
  | waiting => exact fun h1 c hc => h.2 j c hc (h1 c hc)
  | done => exact fun h1 c hc hd p hp => h.1 j c hc p hp (h1 c hc hd p hp)
  | raised => exact id

/-- Going on after a call. -/
theorem known_enter {fs : Fs} {j : Job} {k : Nat} (h1 : ∀ k' < k, ∀ c, j.calls[k']? = some c → Settled fs c) : Known fs j (enter j k) := by
  unfold enter
  split
  · exact ⟨h1, fun c _ => trivial⟩
  · rename_i hk
    intro c hc
    obtain ⟨k', hk', he⟩ := List.mem_iff_getElem.mp hc
    exact h1 k' (by omega) c (by rw [List.getElem?_eq_getElem hk', he])

theorem known_next {fs : Fs} {j : Job} {k : Nat} {c : Call} (hc : j.calls[k]? = some c) (h1 : ∀ k' < k, ∀ c, j.calls[k']? = some c → Settled fs c) (h2 : Settled fs c) : Known fs j (enter j (k + 1)) := by
  refine known_enter fun k' hk c' hc' => ?_
  rcases Nat.lt_succ_iff_lt_or_eq.mp hk with hk | rfl
  · exact h1 k' hk c' hc'
  · rw [hc] at hc'; injection hc' with hc'; rw [← hc']; exact h2

theorem made_open {fs : Fs} {c : Call} {p : Path} (h : Made fs c) : Made (openFile fs p) c := fun q hq => openFile_mono (h q hq)

theorem made_remove {fs : Fs} {c : Call} {p : Path} (hout : ∀ q ∈ c.outputs, ¬ IsLock q) (h : Made fs c) : Made (removeFile fs (lockPath p)) c := by
  intro q hq
  have hne : q ≠ lockPath p := fun he => hout q hq (by rw [he]; exact isLock_lockPath p)
  rw [removeFile_ne hne]
  exact h q hq

theorem step_known (hagree : ∀ i j, ∀ c ∈ (jobs i).calls, ∀ c' ∈ (jobs j).calls, c.file = c'.file → c.outputs = c'.outputs)
    (hout : ∀ i, ∀ c ∈ (jobs i).calls, ∀ p ∈ c.outputs, ¬ IsLock p) (hk : ∀ j, Known w.fs (jobs j) (w.stage j)) (hf : Fair jobs w i ev)
    (h1 : ev ≠ .inCall (.ends .raised)) (h2 : ev ≠ .inCall .openFails) (hs : stepWorkers jobs w i ev = some w') : ∀ j, Known w'.fs (jobs j) (w'.stage j) := by
  rcases stepWorkers_inv hs with ⟨-, hfs, hst⟩ | ⟨s, hj, hst⟩
  · intro j; rw [hfs, hst]; exact hk j
  -- it is enough to look at the process itself and at what gets lost
  suffices hh : Grows jobs w.fs w'.fs ∧ Known w'.fs (jobs i) s by
    intro j
    rw [hst]
    by_cases hji : j = i
    · subst hji; simp only [if_true]; exact hh.2
    · simp only [if_neg hji]; exact known_grows hh.1 j _ (hk j)
  have same : w'.fs = w.fs → Grows jobs w.fs w'.fs := fun h => by rw [h]; exact ⟨fun _ _ _ _ _ h => h, fun _ _ _ h => h⟩
  have hki := hk i
  generalize hst' : w.stage i = st at hj hki
  unfold stepJob at hj
  split at hj
  · rename_i k pc ev
    split at hj
    · rename_i c hc
      rw [Option.map_eq_some_iff] at hj
      obtain ⟨⟨fs1, pc1⟩, hr1, hr2⟩ := hj
      rw [Prod.mk.injEq] at hr2
      obtain ⟨hfs, hs2⟩ := hr2
      simp only at hfs hs2
      rw [← hs2]
      have hm := List.mem_of_getElem? hc
      have hin := hki.2 c hc
      have hpre := hki.1
      rcases stepCall_inv hr1 with ⟨rfl, rfl, h, hl, rfl⟩ | ⟨rfl, rfl, h, hl, rfl⟩ | ⟨rfl, rfl, h, rfl⟩ | ⟨p, rest, rfl, rfl, h, hp, rfl⟩ | ⟨p, rest, rfl, rfl, h, hp, rfl⟩ |
        ⟨rfl, rfl, h, rfl⟩ | ⟨rfl, rfl, h, rfl⟩ | ⟨rfl, rfl, rfl⟩ | ⟨res, rfl, rfl, h, rfl⟩ | ⟨res, rfl, rfl, h, rfl⟩
      · refine ⟨same (by rw [← hfs, h]), ?_⟩
        rw [← hfs, h]
        exact known_next hc hpre (.inl hl)
      · refine ⟨same (by rw [← hfs, h]), ?_⟩
        rw [← hfs, h]
        refine ⟨hpre, fun c' hc' => ?_⟩
        rw [hc] at hc'; injection hc' with hc'; subst hc'
        exact fun p hp => .inl hp
      · refine ⟨same (by rw [← hfs, h]), ?_⟩
        rw [← hfs, h]
        refine known_next hc hpre (.inr fun p hp => ?_)
        rcases hin p hp with h3 | h3
        · cases h3
        · exact h3
      · refine ⟨same (by rw [← hfs, h]), ?_⟩
        rw [← hfs, h]
        refine ⟨hpre, fun c' hc' => ?_⟩
        rw [hc] at hc'; injection hc' with hc'; subst hc'
        intro q hq
        rcases hin q hq with h3 | h3
        · rcases List.mem_cons.mp h3 with rfl | h3
          · exact .inr hp
          · exact .inl h3
        · exact .inr h3
      · refine ⟨same (by rw [← hfs, h]), ?_⟩
        rw [← hfs, h]
        exact ⟨hpre, fun c' hc' => trivial⟩
      · rw [← hfs, h]
        have hg : Grows jobs w.fs (openFile w.fs (lockPath c.file)) := by
          refine ⟨fun _ _ _ _ _ h => openFile_mono h, fun _ _ _ h => ?_⟩
          rcases h with h | h
          · exact .inl (openFile_mono h)
          · exact .inr (made_open h)
        exact ⟨hg, fun k' hk' c' hc' => hg.2 i c' (List.mem_of_getElem? hc') (hpre k' hk' c' hc'), fun c' hc' => trivial⟩
      · exact absurd rfl h2
      · have hg : Grows jobs w.fs w'.fs := by
          rw [← hfs]
          refine ⟨hf.2, fun j c' hc' h => ?_⟩
          rcases h with h | h
          · exact .inl (by rw [hf.1 _ (isLock_lockPath _)]; exact h)
          · exact .inr fun p hp => hf.2 j c' hc' p hp (h p hp)
        exact ⟨hg, fun k' hk' c' hc' => hg.2 i c' (List.mem_of_getElem? hc') (hpre k' hk' c' hc'), fun c' hc' => trivial⟩
      · cases res with
        | raised => exact absurd rfl h1
        | returned =>
          refine ⟨same (by rw [← hfs, h]), ?_⟩
          rw [← hfs, h]
          refine ⟨hpre, fun c' hc' => ?_⟩
          exact fun p hp => hf k _ c' hst' hc' p hp
      · cases res with
        | raised => exact absurd hin id
        | returned =>
          have hg : Grows jobs w.fs w'.fs := by
            rw [← hfs, h]
            refine ⟨fun j c' hc' p hp hx => ?_, fun j c' hc' hx => ?_⟩
            · have hne : p ≠ lockPath c.file := fun he => hout j c' hc' p hp (by rw [he]; exact isLock_lockPath _)
              rw [removeFile_ne hne]; exact hx
            · by_cases he : c'.file = c.file
              · refine .inr (made_remove (hout j c' hc') fun p hp => hin p ?_)
                rw [← hagree j i c' hc' c hm he]; exact hp
              · rcases hx with hx | hx
                · refine .inl ?_
                  rw [removeFile_ne (fun h => he (lock_injective h))]; exact hx
                · exact .inr (made_remove (hout j c' hc') hx)
          refine ⟨hg, known_next hc (fun k' hk' c' hc' => hg.2 i c' (List.mem_of_getElem? hc') (hpre k' hk' c' hc')) (hg.2 i c hm (.inr hin))⟩
    · cases hj
  · rename_i names
    injection hj with hj
    rw [Prod.mk.injEq] at hj
    obtain ⟨hfs, hs2⟩ := hj
    refine ⟨same hfs.symm, ?_⟩
    rw [← hfs, ← hs2]
    split
    · exact hki
    · rename_i hlen
      intro c hc hd
      rcases hki c hc with h3 | h3
      · exfalso
        apply hlen
        refine List.length_pos_of_mem (a := (lockPath c.file).2) (List.mem_filter.mpr ⟨(hf _).mpr ?_, ?_⟩)
        · rw [← hd]; exact h3
        · rw [List.isPrefixOf_iff_prefix]; exact ⟨_, rfl⟩
      · exact h3
  · cases hj

theorem run_known (hagree : ∀ i j, ∀ c ∈ (jobs i).calls, ∀ c' ∈ (jobs j).calls, c.file = c'.file → c.outputs = c'.outputs)
    (hout : ∀ i, ∀ c ∈ (jobs i).calls, ∀ p ∈ c.outputs, ¬ IsLock p) : ∀ (evs : List (Nat × JobEvent)) (w : Workers), (∀ j, Known w.fs (jobs j) (w.stage j)) → FairRun jobs w evs →
    NoRaise evs → ∀ w', runWorkers jobs w evs = some w' → ∀ j, Known w'.fs (jobs j) (w'.stage j) := by
  intro evs
  induction evs with
  | nil => intro w hk _ _ w' hr; injection hr with hr; rw [← hr]; exact hk
  | cons x evs ih =>
    obtain ⟨i, ev⟩ := x
    intro w hk hf hn w' hr
    obtain ⟨w1, hs, hr⟩ := runWorkers_cons hr
    refine ih w1 (step_known hagree hout hk hf.head ?_ ?_ hs) (hf.tail hs) (fun i => ⟨fun h => (hn i).1 (List.mem_cons_of_mem _ h), fun h => (hn i).2 (List.mem_cons_of_mem _ h)⟩) w' hr
    · rintro rfl; exact (hn i).1 List.mem_cons_self
    · rintro rfl; exact (hn i).2 List.mem_cons_self

end Verif.FileLock
