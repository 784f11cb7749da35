import Verif.Model.EvalCommodities
import Verif.Props.FileLock
import Verif.Props.Graph

/-! Property theorems C91: the evaluation of every commodity. -/

namespace Verif.Props
open Verif Verif.Spec Verif.EvalCommodities

variable {P : Type} {constant : P} {random : Nat → Option (Nat × RC × Nat)} {evaluate : Network P → Nat → Py Unit}

theorem evaluateOne_fails {n : Network P} {k : Nat} (hk : k < n.commodities.length) : evaluateOne constant random evaluate n k = .error .attribute := by
  unfold evaluateOne
  split
  · rename_i source f sink _
    show (do
      Network.removeUnnecessaryCommodities { n with commodities := n.commodities ++ [(⟨[(source, f)], sink, constant⟩ : Commodity P)] } ((n.commodities ++ [(⟨[(source, f)], sink, constant⟩ : Commodity P)]).length - 1)
      evaluate { n with commodities := n.commodities ++ [(⟨[(source, f)], sink, constant⟩ : Commodity P)] } k) = _
    rw [C50_remove_commodities_fails _ (by simp)]; rfl
  · rw [C50_remove_commodities_fails n hk]; rfl

theorem loop_spec {n : Network P} : ∀ (m s : Nat) (d : Dir), s + m = n.commodities.length →
    ((∃ k, s ≤ k ∧ k < n.commodities.length ∧ d.evaluated k = false ∧ d.locked k = false ∧ (∀ j, s ≤ j → j < k → d.evaluated j = true ∨ d.locked j = true) ∧
        loop constant random evaluate n (List.range' s m) d = ({ d with locked := fun j => if j = k then true else d.locked j }, .error .attribute)) ∨
      ((∀ k, s ≤ k → k < n.commodities.length → d.evaluated k = true ∨ d.locked k = true) ∧ loop constant random evaluate n (List.range' s m) d = (d, .ok ()))) := by
  intro m
  induction m with
  | zero => intro s d h; exact Or.inr ⟨fun k h1 h2 => by omega, rfl⟩
  | succ m ih =>
    intro s d h
    rw [List.range'_succ]
    unfold loop
    by_cases hskip : d.evaluated s = true ∨ d.locked s = true
    · have hr : (if d.evaluated s = true then loop constant random evaluate n (List.range' (s + 1) m) d else if d.locked s = true then loop constant random evaluate n (List.range' (s + 1) m) d else
          match evaluateOne constant random evaluate n s with
          | .error e => ({ d with locked := fun j => if j = s then true else d.locked j }, .error e)
          | .ok _ => loop constant random evaluate n (List.range' (s + 1) m) { evaluated := fun j => if j = s then true else d.evaluated j, locked := fun j => if j = s then false else if j = s then true else d.locked j }) =
          loop constant random evaluate n (List.range' (s + 1) m) d := by
        rcases hskip with e | e
        · rw [if_pos e]
        · by_cases e' : d.evaluated s = true
          · rw [if_pos e']
          · rw [if_neg e', if_pos e]
      have hstep : ∀ j, s ≤ j → j < s + 1 → d.evaluated j = true ∨ d.locked j = true := fun j h1 h2 => by
        have : j = s := by omega
        rw [this]; exact hskip
      rcases ih (s + 1) d (by omega) with ⟨k, k1, k2, k3, k4, k5, k6⟩ | ⟨k1, k2⟩
      · refine Or.inl ⟨k, by omega, k2, k3, k4, fun j h1 h2 => ?_, ?_⟩
        · by_cases hj : j < s + 1
          · exact hstep j h1 hj
          · exact k5 j (by omega) h2
        · exact hr.trans k6
      · refine Or.inr ⟨fun j h1 h2 => ?_, hr.trans k2⟩
        by_cases hj : j < s + 1
        · exact hstep j h1 hj
        · exact k1 j (by omega) h2
    · have he : d.evaluated s = false := by
        cases hd : d.evaluated s with
        | false => rfl
        | true => exact absurd (Or.inl hd) hskip
      have hl : d.locked s = false := by
        cases hd : d.locked s with
        | false => rfl
        | true => exact absurd (Or.inr hd) hskip
      refine Or.inl ⟨s, le_refl s, by omega, he, hl, fun j h1 h2 => by omega, ?_⟩
      rw [if_neg (by rw [he]; decide), if_neg (by rw [hl]; decide), evaluateOne_fails (by omega)]

/-- **C91** is false: a process never evaluates anything. It raises `AttributeError` at the first commodity that is neither evaluated nor locked, and leaves the lock of this commodity behind; if there is none it leaves the directory as it is. -/
theorem C91_never_evaluates (n : Network P) (d : Dir) :
    (∃ k < n.commodities.length, d.evaluated k = false ∧ d.locked k = false ∧ (∀ j < k, d.evaluated j = true ∨ d.locked j = true) ∧ ∃ d', process constant random evaluate n d = (d', .error .attribute) ∧
      d'.evaluated = d.evaluated ∧ ∀ j, d'.locked j = true ↔ d.locked j = true ∨ j = k) ∨
    ((∀ k < n.commodities.length, d.evaluated k = true ∨ d.locked k = true) ∧ process constant random evaluate n d = (d, .ok ())) := by
  unfold process
  rw [List.range_eq_range']
  rcases loop_spec (constant := constant) (random := random) (evaluate := evaluate) (n := n) n.commodities.length 0 d (by omega) with ⟨k, _, k2, k3, k4, k5, k6⟩ | ⟨k1, k2⟩
  · refine Or.inl ⟨k, k2, k3, k4, fun j hj => k5 j (by omega) hj, _, k6, rfl, fun j => ?_⟩
    by_cases hj : j = k
    · simp [hj]
    · simp [hj]
  · exact Or.inr ⟨fun k hk => k1 k (by omega) hk, k2⟩

/-- The directory after some processes, one after the other. -/
def processes (constant : P) (random : Nat → Option (Nat × RC × Nat)) (evaluate : Network P → Nat → Py Unit) (n : Network P) : Nat → Dir → Dir
  | 0, d => d
  | k + 1, d => (process constant random evaluate n (processes constant random evaluate n k d)).1

/-- **C91**: from an empty directory on, the first processes all raise, one for each commodity, and leave a lock each. -/
theorem C91_locks_left (n : Network P) {k : Nat} (hk : k ≤ n.commodities.length) :
    (∀ j, (processes constant random evaluate n k ⟨fun _ => false, fun _ => false⟩).evaluated j = false) ∧
    (∀ j, (processes constant random evaluate n k ⟨fun _ => false, fun _ => false⟩).locked j = true ↔ j < k) ∧
    (k < n.commodities.length → (process constant random evaluate n (processes constant random evaluate n k ⟨fun _ => false, fun _ => false⟩)).2 = .error .attribute) := by
  induction k with
  | zero =>
    refine ⟨fun _ => rfl, fun j => by simp [processes], fun h => ?_⟩
    rcases C91_never_evaluates (constant := constant) (random := random) (evaluate := evaluate) n ⟨fun _ => false, fun _ => false⟩ with ⟨k, _, _, _, _, d', e, _⟩ | ⟨h1, _⟩
    · show (process constant random evaluate n ⟨fun _ => false, fun _ => false⟩).2 = _
      rw [e]
    · rcases h1 0 h with e | e <;> cases e
  | succ k ih =>
    obtain ⟨i1, i2, i3⟩ := ih (by omega)
    set d := processes constant random evaluate n k ⟨fun _ => false, fun _ => false⟩ with hd
    have hfree : d.locked k = false := by
      cases h : d.locked k with
      | false => rfl
      | true => exact absurd ((i2 k).mp h) (lt_irrefl k)
    rcases C91_never_evaluates (constant := constant) (random := random) (evaluate := evaluate) n d with ⟨k', h1, h2, h3, h4, d', e, e1, e2⟩ | ⟨h1, _⟩
    · have hk' : k' = k := by
        rcases Nat.lt_trichotomy k' k with h | h | h
        · have := (i2 k').mpr h; rw [h3] at this; cases this
        · exact h
        · rcases h4 k h with e | e
          · rw [i1] at e; cases e
          · rw [hfree] at e; cases e
      subst hk'
      have hp : processes constant random evaluate n (k' + 1) ⟨fun _ => false, fun _ => false⟩ = d' := by
        unfold processes
        rw [← hd, e]
      rw [hp]
      refine ⟨fun j => by rw [e1]; exact i1 j, fun j => ?_, fun hlt => ?_⟩
      · rw [e2, i2]; omega
      · rcases C91_never_evaluates (constant := constant) (random := random) (evaluate := evaluate) n d' with ⟨_, _, _, _, _, d'', f, _⟩ | ⟨f1, _⟩
        · rw [f]
        · rcases f1 (k' + 1) hlt with f | f
          · rw [e1, i1] at f; cases f
          · rw [e2, i2] at f; omega
    · rcases h1 k (by omega) with e | e
      · rw [i1] at e; cases e
      · rw [hfree] at e; cases e

/-- **C91**: every later process evaluates nothing and waits for ever for the locks to go away. -/
theorem C91_waits_forever (n : Network P) (hn : n.commodities ≠ []) (fuel : Nat) :
    process constant random evaluate n (processes constant random evaluate n n.commodities.length ⟨fun _ => false, fun _ => false⟩) =
      (processes constant random evaluate n n.commodities.length ⟨fun _ => false, fun _ => false⟩, .ok ()) ∧
    FileLock.waitForLocks (fun _ => lockNames n (processes constant random evaluate n n.commodities.length ⟨fun _ => false, fun _ => false⟩)) fuel 0 1 = none := by
  obtain ⟨i1, i2, _⟩ := C91_locks_left (constant := constant) (random := random) (evaluate := evaluate) n (le_refl _)
  constructor
  · rcases C91_never_evaluates (constant := constant) (random := random) (evaluate := evaluate) n
      (processes constant random evaluate n n.commodities.length ⟨fun _ => false, fun _ => false⟩) with ⟨k, h1, _, h3, _⟩ | ⟨_, h⟩
    · rw [(i2 k).mpr h1] at h3; cases h3
    · exact h
  · refine C76_never _ (fun _ => ⟨lockName 0, ?_, ⟨_, rfl⟩⟩) fuel 0 1
    have h0 : 0 < n.commodities.length := List.length_pos_of_ne_nil hn
    exact List.mem_map.mpr ⟨0, List.mem_filter.mpr ⟨List.mem_range.mpr h0, (i2 0).mpr h0⟩, rfl⟩

/-- **C91**, what does hold: a process whose directory has an evaluation for every commodity and no locks gets through, and changes nothing. -/
theorem C91_done_partial (n : Network P) (d : Dir) (h : ∀ k < n.commodities.length, d.evaluated k = true) (hl : ∀ k, d.locked k = false) :
    process constant random evaluate n d = (d, .ok ()) ∧ FileLock.waitForLocks (fun _ => lockNames n d) 1 0 1 = some 0 := by
  constructor
  · rcases C91_never_evaluates (constant := constant) (random := random) (evaluate := evaluate) n d with ⟨k, h1, h2, _⟩ | ⟨_, h⟩
    · rw [h k h1] at h2; cases h2
    · exact h
  · have : lockNames n d = [] := by
      unfold lockNames
      rw [List.map_eq_nil_iff, List.filter_eq_nil_iff]
      intro k _ hk
      rw [hl] at hk; cases hk
    rw [this]; rfl

/-- Two commodities: the first process raises at 0, the second at 1, the third waits. -/
example : (process () (fun _ => none) (fun _ _ => .ok ()) ⟨Graph.empty, [], [], [⟨[], 0, ()⟩, ⟨[], 1, ()⟩]⟩ ⟨fun _ => false, fun k => decide (k < 1)⟩).2 = .error .attribute := by rfl

end Verif.Props
