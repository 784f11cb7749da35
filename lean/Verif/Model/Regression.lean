import Verif.Model.Predictors

/-! Model of the two regression predictors of src/core/predictors that train on the whole network:
`FullNetLinearRegressionPredictor` and `ExpandedLinearRegressionPredictor`. Trained models are arbitrary functions, NumPy arrays
are lists. -/

namespace Verif
namespace Predictors
open Builder (mapPy)

/-- `[prediction_time - t for t in range(-past + 1, 1)]`
(src/core/predictors/full_net_linear_regression_predictor.py:46). -/
def reversedTimes (t : ℚ) (past : Nat) : List ℚ := (List.range past).map (fun (k : Nat) => t - ((k : ℚ) - past + 1))

/-- `data.reshape((edges, width))[mask].flatten()` of an array with `edges * width` entries in row-major order: the rows with a
number in the mask, one after the other (src/core/predictors/full_net_linear_regression_predictor.py:60-65). -/
def maskedRows (edges width : Nat) (mask : Nat → Bool) (data : List ℚ) : List ℚ :=
  (((List.range edges).filter mask).map (fun e => slice e width data)).flatten

/-- `predict` of `FullNetLinearRegressionPredictor` (src/core/predictors/full_net_linear_regression_predictor.py:39-93). The one mask of the
code is `c.output`; `c.interval` is its `step_length`. `np.asarray([queues, loads])`, flattened, is the list of all values of queues
followed by all values of loads. -/
def fullNetReg (c : Setup) (model : List (List ℚ) → Py (List (List ℚ))) : Predictor where
  predict t flow := do
    let zeroFct ← PL.new [t] [0] 0 0 ⊥ ⊤
    let loads ← mapPy flow.edgeLoad (List.range c.edges)
    if flow.phi ≠ t then .error .value
    else do
      let qs ← mapPy (fun e => mapPy (flow.queues e).eval (reversedTimes t c.past)) (List.range c.edges)
      let ls ← mapPy (fun e => do
        let p ← rd loads e
        mapPy p.eval (reversedTimes t c.past)) (List.range c.edges)
      let out ← model [flow.phi :: maskedRows c.edges (2 * c.past) c.output (qs.flatten ++ ls.flatten)]
      let raw ← rd out 0
      mapPy (fun e =>
        if c.output e then do
          let cur ← (flow.queues e).eval flow.phi
          edgeFn c 1 t cur (slice (countMask c.output e) c.future (clip raw)) e
        else pure zeroFct) (List.range c.edges)
  constant := false

/-- `predict` of `ExpandedLinearRegressionPredictor.from_weka_models` (src/core/predictors/expanded_linear_regression_predictor.py:66-95). `out e`
are the ids of the edges out of the tail of `e`. `coef i` is the regression formula for the `i`-th future value, from the queue
of the edge and the queues of `out e` at the last eleven whole time steps; it was read from a text file. -/
def expandedWeka (edges : Nat) (out : Nat → List Nat) (coef : Nat → List ℚ → List (List ℚ) → ℚ) : Predictor where
  predict t flow := mapPy (fun e => do
    let past : List ℚ := (List.range 11).map (fun (i : Nat) => t - i)
    let own ← mapPy (flow.queues e).eval past
    let near ← mapPy (fun j => mapPy (flow.queues j).eval past) (out e)
    let cur ← rd (clip own) 0
    let values := cur :: (List.range 10).map (fun (i : Nat) => coef (i + 1) (clip own) (near.map clip))
    PL.new ((List.range 10).map (fun (i : Nat) => t + i)) values 0 0 ⊥ ⊤) (List.range edges)
  constant := false

/-- What the closure of `from_scikit_model` can be called with. -/
inductive Arg
  | number (t : ℚ)
  | flow (f : DFlow)
  | queues (l : List PL)

/-- `phi + t` for a number `phi`. -/
def Arg.num : Arg → Py ℚ
  | .number t => .ok t
  | _ => .error .typeErr

/-- `len(x)`: neither a number nor a `DynamicFlow` has a length. -/
def Arg.len : Arg → Py Nat
  | .queues l => .ok l.length
  | _ => .error .typeErr

/-- `x[i]`: neither a number nor a `DynamicFlow` can be indexed. -/
def Arg.at (i : Nat) : Arg → Py PL
  | .queues l => rd l i
  | _ => .error .typeErr

/-- `[old_queues[i](phi + t) for t in range(-past + 1, 1)]` (src/core/predictors/expanded_linear_regression_predictor.py:110-112). -/
def pastOf (queues phi : Arg) (past i : Nat) : Py (List ℚ) :=
  mapPy (fun (k : Nat) => do
    let q ← queues.at i
    let t ← phi.num
    q.eval (t + ((k : ℚ) - past + 1))) (List.range past)

/-- The inputs of one edge: a block of `past` values for each edge into its tail, padded to five blocks, and its own block
(src/core/predictors/expanded_linear_regression_predictor.py:108-117). With at most five edges into each node. -/
def skInputs (inc : Nat → List Nat) (past : Nat) (queues phi : Arg) (e : Nat) : Py (List ℚ) := do
  let blocks ← mapPy (pastOf queues phi past) (inc e)
  let own ← pastOf queues phi past e
  pure (blocks.flatten ++ List.replicate (5 * past - blocks.flatten.length) 0 ++ own)

/-- The closure `predict(old_queues, phi)` of `from_scikit_model` (src/core/predictors/expanded_linear_regression_predictor.py:104-129). -/
def skClosure (edges : Nat) (inc : Nat → List Nat) (past future : Nat) (model : List (List ℚ) → Py (List (List ℚ))) (queues phi : Arg) :
    Py (List PL) := do
  let _ ← queues.len
  mapPy (fun e => do
    let inputs ← skInputs inc past queues phi e
    if inputs.any (fun v => v != 0) then do
      let res ← model [inputs]
      let raw ← rd res 0
      let q ← queues.at e
      let t ← phi.num
      let cur ← q.eval t
      PL.new (futureTimes t 1 future) (cur :: raw) 0 0 ⊥ ⊤
    else do
      let t ← phi.num
      PL.new [t] [0] 0 0 ⊥ ⊤) (List.range edges)

/-- `predict` of `ExpandedLinearRegressionPredictor.from_scikit_model`: `self._predict(prediction_time, flow)`
(src/core/predictors/expanded_linear_regression_predictor.py:36-39). -/
def expandedSk (edges : Nat) (inc : Nat → List Nat) (past future : Nat) (model : List (List ℚ) → Py (List (List ℚ))) : Predictor where
  predict t flow := skClosure edges inc past future model (.number t) (.flow flow)
  constant := false

end Predictors
end Verif
