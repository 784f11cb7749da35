import Verif.Model.Merge
import Verif.Spec.Combine
import Verif.Spec.Predictors
import Mathlib.Data.List.Dedup

/-! Merging commodities. -/

namespace Verif.Spec
open Verif

/-- `l` are the items of the dict of functions of the collection, in some order. -/
def Items (c : FRC) (l : List (Nat × RC)) : Prop := (l.map Prod.fst).Nodup ∧ ∀ i, l.lookup i = c.funs i

/-- The number of break points recorded in a collection. -/
def breakPoints (l : List (Nat × RC)) : Nat := (l.map (fun p => p.2.times.length)).sum

/-- `R'` is `R` with the commodities `cs` merged into `k`: the others keep their rates, and the merged one has the sum of the rates, up to `δ`. -/
structure MergedRates (cs : List Nat) (k : Nat) (δ : ℚ) (R R' : Nat → ℚ → ℚ) : Prop where
  kept : ∀ i, i ∉ cs → ∀ x, 0 ≤ x → R' i x = R i x
  gone : ∀ i, i ∈ cs → i ≠ k → ∀ x, 0 ≤ x → R' i x = 0
  sum : ∀ x, 0 ≤ x → |R' k x - (cs.dedup.map (fun i => R i x)).sum| ≤ δ

/-- The values that the sum of the rates takes are equal or at least `1000 * eps` apart, the tolerance of `simplify`. -/
def SumApart (cs : List Nat) (R : Nat → ℚ → ℚ) : Prop := ∀ x y, 0 ≤ x → 0 ≤ y →
  (cs.dedup.map (fun i => R i x)).sum = (cs.dedup.map (fun i => R i y)).sum ∨
    1000 * eps ≤ |(cs.dedup.map (fun i => R i x)).sum - (cs.dedup.map (fun i => R i y)).sum|

end Verif.Spec
