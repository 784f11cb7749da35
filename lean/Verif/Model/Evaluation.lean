import Verif.Model.SingleRun
import Verif.Model.BuildWithTimes
import Verif.Model.Evaluate
import Verif.Model.MeanError
import Verif.Model.PredictedDelay

/-! Model of the whole of `evaluate_single_run` (src/eval/evaluate.py:98-225). The `inflow_horizon` is finite. `predictors` is the dict with the keys `keys`: `preds p` has the method `predict`, `batch p` is its
`batch_predict`. The measured computation time, status messages and the files other than the one with the flow are left out. -/

namespace Verif
namespace Evaluation
open Builder (mapPy)

variable {P : Type} [DecidableEq P]

/-- What is returned and saved (src/eval/evaluate.py:206-225). -/
structure Report (P : Type) where
  travelTimes : List ℚ
  flow : DFlow
  errors : List (Option ℚ)
  delays : List (Delay.Found × P × Bool)

/-- The flow (src/eval/evaluate.py:152-184): `stored` is the flow in the file at `flow_path`, if this file exists. A commodity whose predictor is not in the dict raises `KeyError` when it is routed, or
at the latest in `approximate_max_predicted_delay`; here it is raised at once. -/
def buildOrLoad (ord : List Nat → List Nat) (keys : List P) (preds : P → Predictor) (reroute horizon : ℚ) (new : List Nat) (suppress : Bool) (tick : Nat → Bool) (fuel : Nat) (n : Network P) :
    Option DFlow → Py DFlow
  | some flow => .ok flow
  | none => do
    let b ← Builder.init n (some reroute)
    if n.commodities.all (fun c => c.predictor ∈ keys) then do
      let (flow, _) ← Builder.buildWithTimes ord preds reroute horizon (some new) suppress tick fuel b
      pure flow
    else .error .key

/-- What is computed for the flow (src/eval/evaluate.py:186-225). `commodity` is the focused commodity as it was. `search` bounds the rounds of `bellman_ford`. -/
def assess (n : Network P) (keys : List P) (batch : P → List ℚ → DFlow → Py (List (List PL))) (new : List Nat) (commodity : Commodity P) (inflowHorizon horizon reroute interval : ℚ) (future search : Nat)
    (flow : DFlow) : Py (Report P) := do
  let times ← mapPy (fun i => AvgTravelTime.avgTravelTime n flow i horizon) new
  let best ← Evaluate.optimalAverage search n flow (inflowHorizon : WithTop ℚ) horizon commodity
  let delays ← Delay.approximateMax flow n batch new future reroute interval horizon
  let errors ← MAE.meanAbsoluteErrors n.graph.edges.length flow (keys.map (fun p => (p, batch p))) future reroute interval horizon
  pure ⟨times ++ [best], flow, errors.map Prod.snd, delays⟩

/-- `evaluate_single_run` (src/eval/evaluate.py:98-225). -/
def evaluateSingleRun (ord : List Nat → List Nat) (n : Network P) (obj : Nat → Commodity P) (refs : List Nat) (keys : List P) (preds : P → Predictor)
    (batch : P → List ℚ → DFlow → Py (List (List PL))) (focused : Nat) (split : Bool) (horizon reroute inflowHorizon : ℚ) (future : Nat) (interval : ℚ) (stored : Option DFlow) (suppress : Bool)
    (tick : Nat → Bool) (fuel search : Nat) : Py (Report P) := do
  let r ← rd refs focused
  let (n', new) ← SingleRun.setup ord n obj refs keys focused split inflowHorizon
  let flow ← buildOrLoad ord keys preds reroute horizon new suppress tick fuel n' stored
  assess n' keys batch new (obj r) inflowHorizon horizon reroute interval future search flow

end Evaluation
end Verif
