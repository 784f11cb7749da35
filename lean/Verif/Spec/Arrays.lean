import Mathlib.Algebra.Order.Ring.Rat
import Mathlib.Data.List.Sort

/-! Specifications for src/utilities/arrays.py, independent of the model. -/

namespace Verif.Spec

/-- `r` is the strict rank of `x` in `arr`: `arr[r] < x <= arr[r+1]`, reading `arr[-1]` as minus
infinity and `arr[len]` as plus infinity. -/
def IsRank {α : Type _} [LT α] [LE α] (arr : List α) (x : α) (r : Int) : Prop :=
  -1 ≤ r ∧ r ≤ (arr.length : Int) - 1 ∧
  (∀ (i : Nat) (h : i < arr.length), (i : Int) = r → arr[i] < x) ∧
  (∀ (i : Nat) (h : i < arr.length), (i : Int) = r + 1 → x ≤ arr[i])

/-- `r` is the lower rank of `x` in `arr`: `arr[r] <= x < arr[r+1]`. -/
def IsLrank {α : Type _} [LT α] [LE α] (arr : List α) (x : α) (r : Int) : Prop :=
  -1 ≤ r ∧ r ≤ (arr.length : Int) - 1 ∧
  (∀ (i : Nat) (h : i < arr.length), (i : Int) = r → arr[i] ≤ x) ∧
  (∀ (i : Nat) (h : i < arr.length), (i : Int) = r + 1 → x < arr[i])

/-- `Near step S a b`: `b` is reached from `a` by going up through elements of `S` in steps of at
most `step`. -/
inductive Climb (step : ℚ) (S : List ℚ) : ℚ → ℚ → Prop
  | refl (a : ℚ) : Climb step S a a
  | up {a b c : ℚ} : Climb step S a b → c ∈ S → b ≤ c → c - b ≤ step → Climb step S a c

/-- What it means to merge the elements of `inp` up to tolerance `e`: strictly increasing with gaps
larger than `e`, only input elements, every input element absorbed by an output element reached from
it upwards in small steps, and the maximum kept. -/
structure IsMerge (e : ℚ) (inp out : List ℚ) : Prop where
  gaps : out.Pairwise (fun a b => a + e < b)
  sub : ∀ x ∈ out, x ∈ inp
  absorbed : ∀ x ∈ inp, ∃ y ∈ out, Climb e inp x y
  maximum : ∀ l, out.getLast? = some l → ∀ x ∈ inp, x ≤ l
  empty : out = [] → inp = []

end Verif.Spec
