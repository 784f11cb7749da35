import Mathlib.Order.Defs.LinearOrder
import Mathlib.Tactic.Linarith

/-! Order-theoretic core of the heap proof: position-indexed ranks. -/

namespace Verif.HeapOrder
variable {R : Type _} [LinearOrder R]

/-- Parent position. -/
abbrev par (i : Nat) : Nat := (i - 1) / 2

/-- Heap order on the edges whose upper end is at position ≥ lo. -/
def HeapFrom (lo n : Nat) (r : Nat → R) : Prop :=
  ∀ i, 0 < i → i < n → lo ≤ par i → r (par i) ≤ r i

/-- Heap order except that the entry at `pos` may be too small. -/
def PUp (lo n : Nat) (r : Nat → R) (pos : Nat) : Prop :=
  (∀ i, 0 < i → i < n → lo ≤ par i → i ≠ pos → r (par i) ≤ r i) ∧
  (∀ i, 0 < i → i < n → par i = pos → 0 < pos → lo ≤ par pos → r (par pos) ≤ r i)

/-- Heap order except around the entry at `pos`. -/
def QDn (lo n : Nat) (r : Nat → R) (pos : Nat) : Prop :=
  (∀ i, 0 < i → i < n → lo ≤ par i → i ≠ pos → par i ≠ pos → r (par i) ≤ r i) ∧
  (∀ i, 0 < i → i < n → par i = pos → 0 < pos → lo ≤ par pos → r (par pos) ≤ r i)

/-- Exchange two positions. -/
def swp (r : Nat → R) (i j : Nat) : Nat → R := fun k => if k = i then r j else if k = j then r i else r k

/-- `s` is an ancestor of (or equal to) a position. -/
inductive Anc (s : Nat) : Nat → Prop
  | refl : Anc s s
  | child {i : Nat} : 0 < i → Anc s (par i) → Anc s i

theorem Anc.le {s i : Nat} (h : Anc s i) : s ≤ i := by
  induction h with
  | refl => exact le_rfl
  | child h0 _ ih => simp only [par] at ih; omega

theorem Anc.par {s i : Nat} (h : Anc s i) (hlt : s < i) : Anc s (par i) := by
  cases h with
  | refl => omega
  | child _ h => exact h

theorem Anc.zero (i : Nat) : Anc 0 i := by
  induction i using Nat.strong_induction_on with
  | _ i ih =>
    cases i with
    | zero => exact .refl
    | succ i => exact .child (by omega) (ih _ (by simp only [HeapOrder.par]; omega))

theorem PUp.step {lo n pos : Nat} {r : Nat → R} (h : PUp lo n r pos) (h0 : 0 < pos) (hn : pos < n)
    (hlo : lo ≤ par pos) (hlt : r pos < r (par pos)) :
    PUp lo n (swp r pos (par pos)) (par pos) := by
  obtain ⟨h1, h2⟩ := h
  have hp : par pos < pos := by simp only [par]; omega
  constructor
  · intro i hi0 hin hil hip
    have hpi : par i < i := by simp only [par]; omega
    by_cases e1 : i = pos
    · subst e1
      simp only [swp, if_true]
      rw [if_neg (by omega)]
      exact le_of_lt hlt
    · by_cases e2 : par i = pos
      · simp only [swp, e2, if_true, if_neg e1, if_neg hip]
        exact h2 i hi0 hin e2 h0 hlo
      · by_cases e3 : par i = par pos
        · simp only [swp, e3, if_neg e1, if_neg hip]
          rw [if_neg (by omega)]
          simp only [if_true]
          have := h1 i hi0 hin hil e1
          rw [e3] at this
          exact le_trans (le_of_lt hlt) this
        · simp only [swp, if_neg e1, if_neg hip, if_neg e2, if_neg e3]
          exact h1 i hi0 hin hil e1
  · intro i hi0 hin hpi hp0 hl
    have hpp : par (par pos) < par pos := by
      have : 0 < par pos := hp0
      simp only [par] at this ⊢; omega
    have hb := h1 (par pos) hp0 (by omega) hl (by omega)
    by_cases e1 : i = pos
    · subst e1
      simp only [swp, if_true]
      rw [if_neg (by omega), if_neg (by omega)]
      exact hb
    · have hii : par i < i := by simp only [par]; omega
      have := h1 i hi0 hin (by omega) e1
      rw [hpi] at this
      simp only [swp, if_neg e1]
      rw [if_neg (by omega), if_neg (by omega), if_neg (by omega)]
      exact le_trans hb this

theorem PUp.finish {lo n pos : Nat} {r : Nat → R} (h : PUp lo n r pos)
    (hc : 0 < pos → lo ≤ par pos → r (par pos) ≤ r pos) : HeapFrom lo n r := by
  intro i h0 hn hl
  by_cases e : i = pos
  · subst e; exact hc h0 hl
  · exact h.1 i h0 hn hl e

theorem QDn.step {lo n pos c : Nat} {r : Nat → R} (h : QDn lo n r pos) (hc0 : 0 < c) (hcn : c < n)
    (hc : par c = pos) (hlo : lo ≤ pos)
    (hmin : ∀ i, 0 < i → i < n → par i = pos → r c ≤ r i) :
    QDn lo n (swp r pos c) c := by
  obtain ⟨ha, hb⟩ := h
  have hpc : pos < c := by simp only [par] at hc; omega
  constructor
  · intro i hi0 hin hil hic hpic
    have hii : par i < i := by simp only [par]; omega
    by_cases e1 : i = pos
    · subst e1
      simp only [swp, if_true]
      rw [if_neg (by omega), if_neg hpic]
      exact hb c hc0 hcn hc hi0 hil
    · by_cases e2 : par i = pos
      · simp only [swp, e2, if_true, if_neg e1, if_neg hic]
        exact hmin i hi0 hin e2
      · simp only [swp, if_neg e1, if_neg hic, if_neg e2, if_neg hpic]
        exact ha i hi0 hin hil e1 e2
  · intro i hi0 hin hpi _ _
    have hii : par i < i := by simp only [par]; omega
    rw [hc]
    simp only [swp, if_true]
    rw [if_neg (by omega), if_neg (by omega)]
    have := ha i hi0 hin (by omega) (by omega) (by omega)
    rwa [hpi] at this

theorem QDn.leaf {lo n pos : Nat} {r : Nat → R} (h : QDn lo n r pos) (hl : n ≤ 2 * pos + 1) :
    PUp lo n r pos := by
  refine ⟨?_, h.2⟩
  intro i h0 hn hlo hne
  apply h.1 i h0 hn hlo hne
  simp only [par]; omega

theorem HeapFrom.root_le {n : Nat} {r : Nat → R} (h : HeapFrom 0 n r) (i : Nat) (hi : i < n) :
    r 0 ≤ r i := by
  induction i using Nat.strong_induction_on with
  | _ i ih =>
    cases i with
    | zero => exact le_rfl
    | succ i =>
      refine le_trans (ih (par (i + 1)) ?_ ?_) (h (i + 1) (by omega) hi (by omega))
      · simp only [par]; omega
      · simp only [par]; omega

/-- Lowering one entry of a heap leaves only that entry possibly too small. -/
theorem HeapFrom.lower {lo n pos : Nat} {r r' : Nat → R} (h : HeapFrom lo n r)
    (hpn : pos < n) (hsame : ∀ i, i < n → i ≠ pos → r' i = r i) (hle : r' pos ≤ r pos) : PUp lo n r' pos := by
  constructor
  · intro i h0 hn hl hne
    have hii : par i < i := by simp only [par]; omega
    rw [hsame i hn hne]
    by_cases e : par i = pos
    · rw [e]
      have := h i h0 hn hl
      rw [e] at this
      exact le_trans hle this
    · rw [hsame _ (by omega) e]; exact h i h0 hn hl
  · intro i h0 hn hpi hp hl
    have : par pos < pos := by simp only [par]; omega
    have hii : par i < i := by simp only [par]; omega
    rw [hsame _ (by omega) (by omega), hsame i hn (by omega)]
    have a := h i h0 hn (by omega)
    rw [hpi] at a
    exact le_trans (h pos hp (by omega) hl) a

/-- Raising one entry of a heap. -/
theorem HeapFrom.raise {lo n pos : Nat} {r r' : Nat → R} (h : HeapFrom lo n r)
    (hpn : pos < n) (hsame : ∀ i, i < n → i ≠ pos → r' i = r i) :
    QDn lo n r' pos := by
  constructor
  · intro i h0 hn hl hne hne'
    have hii : par i < i := by simp only [par]; omega
    rw [hsame i hn hne, hsame _ (by omega) hne']
    exact h i h0 hn hl
  · intro i h0 hn hpi hp hl
    have : par pos < pos := by simp only [par]; omega
    have hii : par i < i := by simp only [par]; omega
    rw [hsame _ (by omega) (by omega), hsame i hn (by omega)]
    have a := h i h0 hn (by omega)
    rw [hpi] at a
    exact le_trans (h pos hp (by omega) hl) a

/-- One more position to the left, for heapify. -/
theorem HeapFrom.extend {n k : Nat} {r : Nat → R} (h : HeapFrom (k + 1) n r) : QDn k n r k := by
  constructor
  · intro i h0 hn hl _ hne
    exact h i h0 hn (by omega)
  · intro i h0 hn hpi hp hl
    simp only [par] at hl hp; omega

/-- Appending an entry. -/
theorem HeapFrom.push {lo n : Nat} {r r' : Nat → R} (h : HeapFrom lo n r)
    (hsame : ∀ i, i < n → r' i = r i) : PUp lo (n + 1) r' n := by
  constructor
  · intro i h0 hn hl hne
    have hii : par i < i := by simp only [par]; omega
    rw [hsame i (by omega), hsame _ (by omega)]
    exact h i h0 (by omega) hl
  · intro i h0 hn hpi hp hl
    simp only [par] at hpi; omega

theorem HeapFrom.mono {lo n n' : Nat} {r : Nat → R} (h : HeapFrom lo n r) (hn : n' ≤ n) :
    HeapFrom lo n' r := fun i h0 hi hl => h i h0 (by omega) hl

end Verif.HeapOrder
