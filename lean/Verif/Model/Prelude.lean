import Mathlib.Algebra.Order.Ring.Rat
import Mathlib.Algebra.Order.Field.Basic
import Mathlib.Data.Rat.Defs

/-! Shared vocabulary of the model: Python exceptions, list reads, tolerance, extended numbers. -/

namespace Verif

/-- Kinds of Python exceptions a modelled call can raise. `fuel` is not a Python exception: it marks
a modelled loop that was cut off, and every theorem that returns `.ok` shows it does not happen. -/
inductive Err
  | assertion | index | key | value | typeErr | attribute | zeroDiv | runtime | recursion | name | stopIteration | fuel
  deriving DecidableEq, Repr

/-- Result of a Python call that may raise. -/
abbrev Py (α : Type _) := Except Err α

/-- `assert c` (models every `assert` statement in /repo/src). -/
def pyAssert (c : Prop) [Decidable c] : Py Unit := if c then .ok () else .error .assertion

/-- `l[i]` for a non-negative index `i`: `IndexError` when out of range. -/
def rd {α : Type _} (l : List α) (i : Nat) : Py α :=
  match l[i]? with
  | some a => .ok a
  | none => .error .index

/-- `l[-1]`: `IndexError` on the empty list. -/
def rdLast {α : Type _} (l : List α) : Py α :=
  match l.getLast? with
  | some a => .ok a
  | none => .error .index

/-- `eps = 1e-10` (src/core/machine_precision.py:1), as an exact rational. -/
def eps : ℚ := 1 / 10000000000

theorem eps_pos : 0 < eps := by unfold eps; decide +kernel

@[simp] theorem rd_lt {α : Type _} (l : List α) (i : Nat) (h : i < l.length) : rd l i = .ok l[i] := by
  simp [rd, h]

theorem rd_ge {α : Type _} (l : List α) (i : Nat) (h : l.length ≤ i) : rd l i = .error .index := by
  simp [rd, h]

theorem rd_eq_ok {α : Type _} {l : List α} {i : Nat} {a : α} : rd l i = .ok a ↔ l[i]? = some a := by
  unfold rd; split <;> simp_all

@[simp] theorem rdLast_concat {α : Type _} (l : List α) (a : α) : rdLast (l ++ [a]) = .ok a := by
  simp [rdLast]

@[simp] theorem pyAssert_true {c : Prop} [Decidable c] (h : c) : pyAssert c = .ok () := by
  simp [pyAssert, h]

@[simp] theorem pyAssert_false {c : Prop} [Decidable c] (h : ¬ c) : pyAssert c = .error .assertion := by
  simp [pyAssert, h]

theorem pyAssert_eq_ok {c : Prop} [Decidable c] {u : Unit} : pyAssert c = .ok u ↔ c := by
  unfold pyAssert; split <;> simp_all

@[simp] theorem ok_bind {α β : Type _} (a : α) (f : α → Py β) : (Except.ok a : Py α) >>= f = f a := rfl
@[simp] theorem error_bind {α β : Type _} (e : Err) (f : α → Py β) :
    (Except.error e : Py α) >>= f = .error e := rfl
@[simp] theorem py_pure {α : Type _} (a : α) : (pure a : Py α) = .ok a := rfl

end Verif
