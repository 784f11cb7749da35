import Verif.Model.GenerateQueues
import Verif.Props.Expanded

/-! Property theorems C128 (src/ml/generate_queues.py:16-40): the loop of `generate_queues`. -/

namespace Verif.Props
open Verif Spec Expanded Resume Builder

/-- What is written for a flow is `T`. -/
def Writes (edges : Nat) (past horizon step : Int) (fs : List (Nat × FlowFile)) (T : Nat → List (List ℚ)) : Prop :=
  ∀ p ∈ fs, queuesOf edges past horizon step p.2 = .ok (T p.1)

/-- Every listed flow has its table unless there was a file already; nothing else is touched. -/
def Completed (fs : List (Nat × FlowFile)) (T : Nat → List (List ℚ)) (d d' : QueueFiles) : Prop :=
  ∀ i, (i ∈ fs.map Prod.fst → d i = .absent → d' i = .whole (T i)) ∧ (i ∉ fs.map Prod.fst ∨ d i ≠ .absent → d' i = d i)

theorem completed_refl (T : Nat → List (List ℚ)) (d : QueueFiles) : Completed [] T d d := fun i => ⟨fun h => by simp at h, fun _ => rfl⟩

theorem absent_of {α : Type} {f : File α} (h : ¬ f.present = true) : f = .absent := by
  cases f <;> simp_all [File.present]

theorem present_iff {α : Type} {f : File α} : f.present = true ↔ f ≠ .absent := by
  cases f <;> simp [File.present]

theorem generate_step {edges : Nat} {past horizon step : Int} {T : Nat → List (List ℚ)} : ∀ (fs : List (Nat × FlowFile)) (d : QueueFiles), Writes edges past horizon step fs T →
    (generateQueues edges past horizon step fs d).2 = none ∧ Completed fs T d (generated edges past horizon step fs d) ∧
    ∀ x ∈ (generateQueues edges past horizon step fs d).1, ∀ i, x i = d i ∨ (d i = .absent ∧ i ∈ fs.map Prod.fst ∧ (x i = .torn ∨ x i = .whole (T i))) := by
  intro fs
  induction fs with
  | nil => intro d _; exact ⟨rfl, completed_refl T d, fun x hx => by simp [generateQueues] at hx⟩
  | cons p fs ih =>
    obtain ⟨j, f⟩ := p
    intro d hw
    have hw' : Writes edges past horizon step fs T := fun p hp => hw p (List.mem_cons_of_mem _ hp)
    by_cases hp : (d j).present = true
    · obtain ⟨h1, h2, h3⟩ := ih d hw'
      have e : generateQueues edges past horizon step ((j, f) :: fs) d = generateQueues edges past horizon step fs d := by
        conv_lhs => unfold generateQueues
        rw [if_pos hp]
      unfold generated at h2 ⊢
      rw [e]
      refine ⟨h1, fun i => ?_, fun x hx i => ?_⟩
      · refine ⟨fun hm ha => ?_, fun hm => (h2 i).2 (hm.imp (fun h c => h (List.mem_cons_of_mem _ c)) id)⟩
        rcases List.mem_cons.mp hm with hm | hm
        · exact absurd ha (by rw [hm]; exact present_iff.mp hp)
        · exact (h2 i).1 hm ha
      · rcases h3 x hx i with h | ⟨a, b, c⟩
        · exact .inl h
        · exact .inr ⟨a, List.mem_cons_of_mem _ b, c⟩
    · have ha := absent_of hp
      obtain ⟨h1, h2, h3⟩ := ih (Function.update d j (.whole (T j))) hw'
      have e : generateQueues edges past horizon step ((j, f) :: fs) d =
          (Function.update d j .torn :: Function.update d j (.whole (T j)) :: (generateQueues edges past horizon step fs (Function.update d j (.whole (T j)))).1,
            (generateQueues edges past horizon step fs (Function.update d j (.whole (T j)))).2) := by
        conv_lhs => unfold generateQueues
        rw [if_neg hp, hw (j, f) List.mem_cons_self]
      have e2 : generated edges past horizon step ((j, f) :: fs) d = generated edges past horizon step fs (Function.update d j (.whole (T j))) := by
        unfold generated
        rw [e]
        cases hl : (generateQueues edges past horizon step fs (Function.update d j (.whole (T j)))).1 with
        | nil => rfl
        | cons a l => simp [List.getLast?_cons]
      rw [e2, e]
      refine ⟨h1, fun i => ?_, fun x hx i => ?_⟩
      · by_cases hi : i = j
        · subst hi
          have hk := (h2 i).2 (.inr (by rw [Function.update_self]; simp))
          rw [Function.update_self] at hk
          exact ⟨fun _ _ => hk, fun hm => hm.elim (fun c => absurd List.mem_cons_self c) (fun c => absurd ha c)⟩
        · have hk := h2 i
          rw [Function.update_of_ne hi] at hk
          refine ⟨fun hm => hk.1 ((List.mem_cons.mp hm).resolve_left hi), fun hm => hk.2 (hm.imp (fun h c => h (List.mem_cons_of_mem _ c)) id)⟩
      · rcases List.mem_cons.mp hx with rfl | hx
        · by_cases hi : i = j
          · subst hi; exact .inr ⟨ha, List.mem_cons_self, .inl (by simp)⟩
          · exact .inl (Function.update_of_ne hi _ _)
        · rcases List.mem_cons.mp hx with rfl | hx
          · by_cases hi : i = j
            · subst hi; exact .inr ⟨ha, List.mem_cons_self, .inr (by simp)⟩
            · exact .inl (Function.update_of_ne hi _ _)
          · by_cases hi : i = j
            · subst hi
              rcases h3 x hx i with h | ⟨a, _⟩
              · rw [Function.update_self] at h
                exact .inr ⟨ha, List.mem_cons_self, .inr h⟩
              · rw [Function.update_self] at a; cases a
            · rcases h3 x hx i with h | ⟨a, b, c⟩
              · exact .inl (by rw [h, Function.update_of_ne hi])
              · exact .inr ⟨by rw [Function.update_of_ne hi] at a; exact a, List.mem_cons_of_mem _ b, c⟩

/-- **C128**: if the flows can be read (plain pickles of reachable flows, C98), `generate_queues` writes the queues at `-past`, `-past + step`, … up to the horizon for every flow that has no file yet, and nothing
else. -/
theorem C128_generate_queues (edges : Nat) (past horizon : Int) {step : Int} (hk : 0 < step) (fs : List (Nat × FlowFile)) (hfs : ∀ p ∈ fs, ∃ s net, p.2 = .plain s ∧ Reached net s)
    (hid : (fs.map Prod.fst).Nodup) (d : QueueFiles) : (generateQueues edges past horizon step fs d).2 = none ∧
      (∀ i, i ∉ fs.map Prod.fst ∨ d i ≠ .absent → generated edges past horizon step fs d i = d i) ∧
      ∀ i s, (i, .plain s) ∈ fs → d i = .absent → ∃ times : List Int, Multiples step (horizon + 1 + past) (times.map (fun t => t + past)) ∧
        generated edges past horizon step fs d i = .whole ((List.range edges).map (fun e => times.map (fun (t : Int) => queueAt s e t))) := by
  classical
  let T : Nat → List (List ℚ) := fun i => match fs.find? (fun p => p.1 == i) with
    | none => []
    | some p => match queuesOf edges past horizon step p.2 with
      | .ok t => t
      | .error _ => []
  have hfind : ∀ p ∈ fs, fs.find? (fun q => q.1 == p.1) = some p := by
    intro p hp
    cases hq : fs.find? (fun q => q.1 == p.1) with
    | none => exact absurd (List.find?_eq_none.mp hq p hp) (by simp)
    | some q =>
      have h1 := List.mem_of_find?_eq_some hq
      have h2 : q.1 = p.1 := by simpa using List.find?_some hq
      rw [List.inj_on_of_nodup_map hid h1 hp h2]
  have hT : ∀ p ∈ fs, ∀ t, queuesOf edges past horizon step p.2 = .ok t → T p.1 = t := by
    intro p hp t ht
    show (match fs.find? (fun q => q.1 == p.1) with
      | none => []
      | some p => match queuesOf edges past horizon step p.2 with
        | .ok t => t
        | .error _ => []) = t
    rw [hfind p hp]
    simp only [ht]
  have hw : Writes edges past horizon step fs T := by
    intro p hp
    obtain ⟨s, net, e, hs⟩ := hfs p hp
    obtain ⟨_, _, times, _, h⟩ := C98_queues edges 0 0 past horizon hk s ⟨net, hs⟩ 0 0 0 (fun _ => [])
    rw [← e] at h
    rw [hT p hp _ h]; exact h
  obtain ⟨h1, h2, _⟩ := generate_step fs d hw
  refine ⟨h1, fun i hi => (h2 i).2 hi, fun i s hi ha => ?_⟩
  · obtain ⟨s', net, e, hs⟩ := hfs _ hi
    have e' : s = s' := by simpa using e
    subst e'
    obtain ⟨_, _, times, h3, h⟩ := C98_queues edges 0 0 past horizon hk s ⟨net, hs⟩ 0 0 0 (fun _ => [])
    refine ⟨times, h3, ?_⟩
    rw [(h2 i).1 (List.mem_map.mpr ⟨_, hi, rfl⟩) ha]
    exact congrArg File.whole (hT (i, .plain s) hi _ h)

theorem skip_all {edges : Nat} {past horizon step : Int} : ∀ (fs : List (Nat × FlowFile)) (d : QueueFiles), (∀ p ∈ fs, (d p.1).present = true) →
    (generateQueues edges past horizon step fs d).1 = [] := by
  intro fs
  induction fs with
  | nil => intro d _; rfl
  | cons p fs ih =>
    intro d h
    unfold generateQueues
    rw [if_pos (h p List.mem_cons_self)]
    exact ih d fun q hq => h q (List.mem_cons_of_mem _ hq)

/-- **C128**: a second call writes nothing. -/
theorem C128_again {edges : Nat} {past horizon step : Int} {fs : List (Nat × FlowFile)} {T : Nat → List (List ℚ)} (hw : Writes edges past horizon step fs T) (d : QueueFiles) :
    (generateQueues edges past horizon step fs (generated edges past horizon step fs d)).1 = [] := by
  obtain ⟨_, h2, _⟩ := generate_step fs d hw
  refine skip_all fs _ fun p hp => ?_
  rw [present_iff]
  by_cases ha : d p.1 = .absent
  · rw [(h2 p.1).1 (List.mem_map.mpr ⟨p, hp, rfl⟩) ha]; simp
  · rw [(h2 p.1).2 (.inr ha)]; exact ha

/-- **C128, crashes**, for those that happen between two files: called again after being stopped, `generate_queues` ends with the same files as without the crash. What is missing: crashes while a file is written. -/
theorem C128_resume_partial {edges : Nat} {past horizon step : Int} {fs : List (Nat × FlowFile)} {T : Nat → List (List ℚ)} (hw : Writes edges past horizon step fs T) (d : QueueFiles)
    {x : QueueFiles} (hx : x ∈ (generateQueues edges past horizon step fs d).1) (ht : ∀ i, d i = .absent → x i ≠ .torn) :
    generated edges past horizon step fs x = generated edges past horizon step fs d := by
  obtain ⟨_, h2, h3⟩ := generate_step fs d hw
  obtain ⟨_, h4, _⟩ := generate_step fs x hw
  funext i
  rcases h3 x hx i with h | ⟨a, b, c⟩
  · by_cases hc : i ∈ fs.map Prod.fst ∧ d i = .absent
    · rw [(h2 i).1 hc.1 hc.2, (h4 i).1 hc.1 (by rw [h]; exact hc.2)]
    · have hc' : i ∉ fs.map Prod.fst ∨ d i ≠ .absent := by rw [← not_and_or]; exact hc
      rw [(h2 i).2 hc', (h4 i).2 (by rw [h]; exact hc'), h]
  · rcases c with c | c
    · exact absurd c (ht i a)
    · rw [(h2 i).1 b a, (h4 i).2 (.inr (by rw [c]; simp)), c]

/-- **C128, the negation for other crashes.** Whenever the process is stopped while a file is written, that file stays incomplete however often `generate_queues` is called again. -/
theorem C128_torn_stays (edges : Nat) (past horizon step : Int) : ∀ (fs : List (Nat × FlowFile)) (x : QueueFiles) (i : Nat), x i = .torn → generated edges past horizon step fs x i = .torn ∧
    ∀ y ∈ (generateQueues edges past horizon step fs x).1, y i = .torn := by
  have key : ∀ (fs : List (Nat × FlowFile)) (x : QueueFiles) (i : Nat), x i = .torn → ∀ y ∈ (generateQueues edges past horizon step fs x).1, y i = .torn := by
    intro fs
    induction fs with
    | nil => intro x i _ y hy; simp [generateQueues] at hy
    | cons p fs ih =>
      obtain ⟨j, f⟩ := p
      intro x i hx y hy
      unfold generateQueues at hy
      split at hy
      · exact ih x i hx y hy
      · next hp =>
        have hij : i ≠ j := by rintro rfl; rw [hx] at hp; exact hp rfl
        split at hy
        · simp at hy
        · rcases List.mem_cons.mp hy with rfl | hy
          · rw [Function.update_of_ne hij]; exact hx
          · rcases List.mem_cons.mp hy with rfl | hy
            · rw [Function.update_of_ne hij]; exact hx
            · exact ih _ i (by rw [Function.update_of_ne hij]; exact hx) y hy
  intro fs x i hx
  refine ⟨?_, key fs x i hx⟩
  unfold generated
  cases hl : (generateQueues edges past horizon step fs x).1.getLast? with
  | none => exact hx
  | some y => exact key fs x i hx y (List.mem_of_getLast? hl)

/-- **C128**: at the first flow without a file that cannot be read, `generate_queues` ends with the exception, after the files of the flows before. -/
theorem C128_unreadable {edges : Nat} {past horizon step : Int} {T : Nat → List (List ℚ)} {i : Nat} {f : FlowFile} {e : Err} (hf : queuesOf edges past horizon step f = .error e)
    (post : List (Nat × FlowFile)) : ∀ (pre : List (Nat × FlowFile)) (d : QueueFiles), Writes edges past horizon step pre T → i ∉ pre.map Prod.fst → d i = .absent →
      generateQueues edges past horizon step (pre ++ (i, f) :: post) d = ((generateQueues edges past horizon step pre d).1, some e) := by
  intro pre
  induction pre with
  | nil =>
    intro d _ _ hd
    rw [List.nil_append]
    unfold generateQueues
    rw [if_neg (by rw [hd]; simp [File.present]), hf]
  | cons p pre ih =>
    obtain ⟨j, g⟩ := p
    intro d hw hi hd
    have hw' : Writes edges past horizon step pre T := fun p hp => hw p (List.mem_cons_of_mem _ hp)
    rw [List.map_cons, List.mem_cons, not_or] at hi
    rw [List.cons_append]
    unfold generateQueues
    by_cases hp : (d j).present = true
    · rw [if_pos hp, if_pos hp]
      exact ih d hw' hi.2 hd
    · rw [if_neg hp, if_neg hp, hw (j, g) List.mem_cons_self]
      simp only
      rw [ih (Function.update d j (.whole (T j))) hw' hi.2 (by rw [Function.update_of_ne hi.1]; exact hd)]

/-- The flows that `build_flows` writes cannot be read (C98). -/
example : ∃ s, Reached sampleNet s ∧ queuesOf 2 1 2 1 (.gzip s) = .error .runtime ∧ ∃ T, Writes 2 1 2 1 [] T := by
  obtain ⟨s, h, _⟩ := reached_of (calls := sampleCalls) (post := fun _ => true) (by decide +kernel)
  exact ⟨s, h, rfl, fun _ => [], fun p hp => by simp at hp⟩

/-- What is in a file that is complete. -/
def tableIn {α : Type} : File α → Option α
  | .whole a => some a
  | _ => none

theorem tableIn_some {α : Type} {f : File α} {a : α} (h : tableIn f = some a) : f = .whole a := by
  cases f <;> simp_all [tableIn]

/-- Two flows, of which the second one has a file: the first one is written, with the queue of 3 at time 1. -/
example : ∃ s, Reached sampleNet s ∧ ([(0, FlowFile.plain s), (1, .plain s)].map Prod.fst).Nodup ∧
    generated 2 1 2 1 [(0, .plain s), (1, .plain s)] (Function.update (fun _ => .absent) 1 .torn) 0 = .whole [[0, 0, 3, 5 / 2], [0, 0, 0, 0]] := by
  obtain ⟨s, h, hp⟩ := reached_of (calls := sampleCalls) (post := fun s =>
    decide (tableIn (generated 2 1 2 1 [(0, .plain s), (1, .plain s)] (Function.update (fun _ => .absent) 1 .torn) 0) = some [[0, 0, 3, 5 / 2], [0, 0, 0, 0]])) (by decide +kernel)
  simp only [decide_eq_true_eq] at hp
  exact ⟨s, h, by simp, tableIn_some hp⟩

/-- **C128** is false: a process that is stopped while it writes the first file leaves it incomplete, and a second call does not repair it. -/
theorem C128_resume_fails : ∃ s, Reached sampleNet s ∧ (∃ T, Writes 2 1 2 1 [(0, .plain s)] T) ∧ ∃ x ∈ (generateQueues 2 1 2 1 [(0, .plain s)] (fun _ => .absent)).1,
    generated 2 1 2 1 [(0, .plain s)] x 0 = .torn ∧ generated 2 1 2 1 [(0, .plain s)] (fun _ => .absent) 0 = .whole [[0, 0, 3, 5 / 2], [0, 0, 0, 0]] := by
  obtain ⟨s, h, hp⟩ := reached_of (calls := sampleCalls) (post := fun s => decide ((queuesOf 2 1 2 1 (.plain s)).toOption = some [[0, 0, 3, 5 / 2], [0, 0, 0, 0]])) (by decide +kernel)
  simp only [decide_eq_true_eq] at hp
  have hq : queuesOf 2 1 2 1 (.plain s) = .ok [[0, 0, 3, 5 / 2], [0, 0, 0, 0]] := by
    cases he : queuesOf 2 1 2 1 (.plain s) with
    | error e => rw [he] at hp; simp [Except.toOption] at hp
    | ok t => rw [he] at hp; simp only [Except.toOption, Option.some.injEq] at hp; rw [hp]
  have hw : Writes 2 1 2 1 [(0, .plain s)] (fun _ => [[0, 0, 3, 5 / 2], [0, 0, 0, 0]]) := fun p hp => by rw [List.mem_singleton.mp hp]; exact hq
  refine ⟨s, h, ⟨_, hw⟩, Function.update (fun _ => .absent) 0 .torn, ?_, (C128_torn_stays 2 1 2 1 _ _ 0 (by simp)).1, ?_⟩
  · unfold generateQueues
    rw [if_neg (by simp [File.present]), hq]
    exact List.mem_cons_self
  · exact ((generate_step _ _ hw).2.1 0).1 (by simp) rfl

end Verif.Props
