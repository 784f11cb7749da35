import Verif.Spec.Predictors

/-! What a model that is trained on the whole network should be fed with. -/

namespace Verif.Spec
open Verif

/-- The value at time `x` of the `j`-th row of a table with the queues of `m` edges above their loads. -/
def Observed (m : Nat) (s : DFlow) (j : Nat) (x v : ℚ) : Prop :=
  (j < m ∧ (s.queues j).eval x = .ok v) ∨ (m ≤ j ∧ j < 2 * m ∧ ∃ p, s.edgeLoad (j - m) = .ok p ∧ p.eval x = .ok v)

/-- A row of inputs: the time, then for each edge of the mask two blocks of `past` values; the blocks of edge `e` hold the rows
`source e 0` and `source e 1` of the table at the times `time 0`, `time 1`, ... -/
structure Fed (m past : Nat) (s : DFlow) (mask : Nat → Bool) (source : Nat → Nat → Nat) (time : Nat → ℚ) (row : List ℚ) : Prop where
  clock : row[0]? = some s.phi
  length : row.length = 1 + ((List.range m).filter mask).length * (2 * past)
  entry : ∀ k e, ((List.range m).filter mask)[k]? = some e → ∀ h < 2, ∀ i < past, ∃ v,
    row[1 + k * (2 * past) + h * past + i]? = some v ∧ Observed m s (source e h) (time i) v

/-- What the model should be fed with: the queue and the load of each edge of the mask at the last `past` time steps. -/
def FedPast (m past : Nat) (step : ℚ) (s : DFlow) (mask : Nat → Bool) : List ℚ → Prop :=
  Fed m past s mask (fun e h => e + h * m) (fun i => s.phi - ((past : ℚ) - 1 - i) * step)

/-- Calling the model with `row` is all the predictor `p` does with it at time `t`: errors of the model are passed on, and models with the same
answer to `row` give the same prediction. -/
def Asks (p : (List (List ℚ) → Py (List (List ℚ))) → Predictor) (t : ℚ) (s : DFlow) (row : List ℚ) : Prop :=
  (∀ model err, model [row] = .error err → (p model).predict t s = .error err) ∧
  ∀ model model', model [row] = model' [row] → (p model).predict t s = (p model').predict t s

end Verif.Spec
