import Verif.Model.SampleStudy

/-! What the study of the sample network should show. -/

namespace Verif.Spec
open Verif Verif.SampleStudy

/-- The demand of the `k`-th run: 0.25, 0.5, …, 30. -/
def demandOf (k : Nat) : ℚ := (k + 1) / 4

/-- `ts k` are the six travel times of the `k`-th of the 120 runs. -/
def StudyOf (run : ℚ → Py (List ℚ)) (ts : Nat → List ℚ) : Prop := ∀ k < 120, run (demandOf k) = .ok (ts k) ∧ (ts k).length = 6

/-- The curve of the `c`-th travel times over the demand. -/
def timeCurve (ts : Nat → List ℚ) (c : Nat) : List (ℚ × ℚ) := (List.range 120).map (fun k => (demandOf k, (ts k).getD c 0))

/-- The curve of the `c`-th travel times divided by the last one (the optimum) of the same run. -/
def regretCurve (ts : Nat → List ℚ) (c : Nat) : List (ℚ × ℚ) := (List.range 120).map (fun k => (demandOf k, (ts k).getD c 0 / (ts k).getD 5 0))

end Verif.Spec
