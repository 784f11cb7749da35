import Verif.Model.Combine
import Verif.Spec.FlowBuilder

/-! Demand. -/

namespace Verif.Spec
open Verif

/-- The inflow rate of a commodity into node `v` at time `t`. -/
def sourceRate {P : Type} (c : Commodity P) (v : Nat) (t : ℚ) : ℚ :=
  match c.sources.lookup v with
  | none => 0
  | some f => stepValue f t

/-- The total inflow rate into node `v` at time `t` of all commodities with predictor `p` and sink `k`. -/
def demand {P : Type} [DecidableEq P] (l : List (Commodity P)) (p : P) (k v : Nat) (t : ℚ) : ℚ :=
  ((l.filter (fun c => c.predictor = p ∧ c.sink = k)).map (fun c => sourceRate c v t)).sum

end Verif.Spec
