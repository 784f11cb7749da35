import Verif.Model.Combine
import Verif.Model.BuildWithTimes
import Verif.Model.Predictors
import Mathlib.Data.Nat.Digits.Defs
import Mathlib.Data.Nat.Log

/-! Model of src/ml/build_test_flows.py: random demands and the flows of the training data. `random.gauss` is an arbitrary function of the number of
the call since `random.seed`, the mean and the standard deviation. -/

namespace Verif
namespace Demands

variable {P : Type}

/-- The new inflow of one source (src/ml/build_test_flows.py:35-42). `inflow_horizon` may be infinite. -/
def inflowOf (horizon : WithTop ℚ) (x : ℚ) : Py RC :=
  match horizon with
  | some h => RC.new [0, h] [x, 0] ((0 : ℚ) : WithBot ℚ) ⊤
  | none => RC.new [0] [x] ((0 : ℚ) : WithBot ℚ) ⊤

/-- `for s in commodity.sources` (src/ml/build_test_flows.py:31-42), from the `k`-th call of `random.gauss` on. Assigning to an existing key keeps the order of a dict. -/
def drawSources (gauss : Nat → ℚ → ℚ → ℚ) (sigma : ℚ) (horizon : WithTop ℚ) : Nat → List (Nat × RC) → Py (List (Nat × RC))
  | _, [] => .ok []
  | k, (v, f) :: l => do
    let mean ← rd f.values 0
    let g ← inflowOf horizon (max 0 (gauss k mean sigma))
    let rest ← drawSources gauss sigma horizon (k + 1) l
    pure ((v, g) :: rest)

/-- `for index, commodity in enumerate(network.commodities)` (src/ml/build_test_flows.py:30-42). Commodities are changed in place; they are assumed to be distinct objects, as
they are when the network comes from a file (src/core/network.py:56-62). -/
def drawAll (gauss : Nat → ℚ → ℚ → ℚ) (sigma : ℚ) (horizon : WithTop ℚ) : Nat → List (Commodity P) → Py (List (Commodity P))
  | _, [] => .ok []
  | k, c :: l => do
    let s ← drawSources gauss sigma horizon k c.sources
    let rest ← drawAll gauss sigma horizon (k + c.sources.length) l
    pure ({ c with sources := s } :: rest)

/-- `if sigma is None: sigma = min(network.capacity) / 2.0` (src/ml/build_test_flows.py:27-28). -/
def sigmaOf (capacity : List ℚ) : Option ℚ → Py ℚ
  | some s => .ok s
  | none => match capacity.min? with
    | none => .error .value
    | some m => .ok (m / 2)

/-- `generate_network_demands` (src/ml/build_test_flows.py:21-46), after `random.seed`; the warning on zero demands has no effect. -/
def generate (gauss : Nat → ℚ → ℚ → ℚ) (n : Network P) (horizon : WithTop ℚ) (sigma : Option ℚ) : Py (Network P) := do
  let s ← sigmaOf n.capacity sigma
  let cs ← drawAll gauss s horizon 0 n.commodities
  pure { n with commodities := cs }

/-- `random.seed(seed)` for a whole number: CPython seeds its generator with the absolute value (Modules/_randommodule.c, `random_seed`). `rand a` is the
stream of the generator seeded with `a`. -/
def seeded (rand : Nat → Nat → ℚ → ℚ → ℚ) (seed : Int) : Nat → ℚ → ℚ → ℚ := rand seed.natAbs

/-- The demands of the flow `index` of the training data (src/ml/build_test_flows.py:76-79). -/
def training (rand : Nat → Nat → ℚ → ℚ → ℚ) (n : Network P) (horizon : WithTop ℚ) (sigma : Option ℚ) (index : Nat) : Py (Network P) :=
  generate (seeded rand index) n horizon sigma

/-- The demands of the evaluation flow `index` (src/eval/evaluate_network.py:60-64): `seed = -flow_id - 1`. -/
def evaluation (rand : Nat → Nat → ℚ → ℚ → ℚ) (n : Network P) (horizon : WithTop ℚ) (sigma : Option ℚ) (index : Nat) : Py (Network P) :=
  generate (seeded rand (-(index : Int) - 1)) n horizon sigma

variable [DecidableEq P]

/-- The commodities of the network as objects, in the order of the list. -/
def objectOf (l : List (Commodity P)) (default : P) (i : Nat) : Commodity P := l.getD i ⟨[], 0, default⟩

/-- A flow of the training data (src/ml/build_test_flows.py:75-99): demands, commodities with the same sink combined, `ConstantPredictor` for all, `build_with_times` up to the horizon. `constant` is
`PredictorType.CONSTANT`, the only key of the dict of predictors; the flow builder raises `KeyError` for commodities with another one. -/
def buildFlow (ord : List Nat → List Nat) (rand : Nat → Nat → ℚ → ℚ → ℚ) (n : Network P) (constant : P) (inflowHorizon : WithTop ℚ) (sigma : Option ℚ) (reroute horizon : ℚ)
    (tick : Nat → Bool) (fuel : Nat) (index : Nat) : Py (Network P × DFlow) := do
  let n ← training rand n inflowHorizon sigma index
  let n ← Combine.combine ord n (objectOf n.commodities constant) (List.range n.commodities.length) []
  let b ← Builder.init n (some reroute)
  if n.commodities.all (fun c => c.predictor = constant) then do
    let (flow, _) ← Builder.buildWithTimes ord (fun _ => Predictors.const n.graph.edges.length) reroute horizon none false tick fuel b
    pure (n, flow)
  else .error .key

/-- `str(i)` for a non-negative number, as digits. -/
def strOf (i : Nat) : List Nat := if i = 0 then [0] else (Nat.digits 10 i).reverse

/-- `str(flow_index).zfill(ceil(log10(number_flows)))` (src/ml/build_test_flows.py:71, src/eval/evaluate_network.py:43-54), as digits; `log10` is exact. -/
def flowName (number i : Nat) : List Nat := List.replicate (Nat.clog 10 number - (strOf i).length) 0 ++ strOf i

end Demands
end Verif
