import Verif.Model.MeanError
import Verif.Spec.Predictors
import Mathlib.Algebra.BigOperators.Group.Finset.Basic

/-! The error of predictions. -/

namespace Verif.Spec
open Verif

/-- The mean absolute error of predictions `P i e` made at the times `i * r`, for `i < N` and edges `e < m`, against the queues `Q e`: both are looked at `F` times, at distances `p`, `2 * p`, … from the
time of the prediction. -/
def meanError (r p : ℚ) (N F m : Nat) (P : Nat → Nat → ℚ → ℚ) (Q : Nat → ℚ → ℚ) : ℚ :=
  (∑ i ∈ Finset.range N, ∑ k ∈ Finset.range F, ∑ e ∈ Finset.range m, |P i e (i * r + (k + 1) * p) - Q e (i * r + (k + 1) * p)|) / ((N : ℚ) * F * m)

/-- The predictions `pss`, made at the times `i * r` for `i < N`, have the values of `P` where the error is measured. -/
def PredictsValues (r p : ℚ) (N F m : Nat) (pss : List (List PL)) (P : Nat → Nat → ℚ → ℚ) : Prop :=
  pss.length = N ∧ ∀ (i : Nat) (ps : List PL), pss[i]? = some ps → ps.length = m ∧
    ∀ (e : Nat) (f : PL), ps[e]? = some f → ∀ k < F, f.eval (i * r + ((k : ℚ) + 1) * p) = .ok (P i e (i * r + ((k : ℚ) + 1) * p))

end Verif.Spec
