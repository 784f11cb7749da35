import Verif.Model.FlowBuilder

/-! Specification of the slowdown statistics. A run is the list of the average travel times of `k` predictors, followed by the optimal one. -/

namespace Verif.Spec
open Verif

/-- The runs in which two of the `k` predictors have different average travel times. -/
def Differs (k : Nat) (run : List ℚ) : Prop := ∃ i < k, ∃ j < k, run.getD i 0 ≠ run.getD j 0

instance (k : Nat) (run : List ℚ) : Decidable (Differs k run) := by unfold Differs; infer_instance

/-- The average of `f` over a list of runs. -/
def meanOver (f : List ℚ → ℚ) (runs : List (List ℚ)) : ℚ := (runs.map f).sum / runs.length

/-- The slowdown of the predictor `i` of `k`: how much longer its particles travelled than with the optimal route choice. -/
def Slowdown (k i : Nat) (run : List ℚ) : ℚ := run.getD i 0 / run.getD k 0 - 1

/-- What an evaluation run measured: the average travel time and the error of each predictor, and the optimal average travel time. -/
structure Measured (P E : Type) where
  time : P → ℚ
  best : ℚ
  error : P → E

/-- The predictors `keys` do not all have the same average travel time. -/
def Measured.differs {P E : Type} (m : Measured P E) (keys : List P) : Prop := ∃ p ∈ keys, ∃ q ∈ keys, m.time p ≠ m.time q

instance {P E : Type} (m : Measured P E) (keys : List P) : Decidable (m.differs keys) := by unfold Measured.differs; infer_instance

end Verif.Spec
