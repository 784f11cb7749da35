import Verif.Model.Combine
import Verif.Model.FlowBuilder

/-! Model of the first part of `evaluate_single_run` (src/eval/evaluate.py:98-153): the commodities that are evaluated. Commodities are objects compared by identity, as in `Model/Combine`. -/

namespace Verif
namespace SingleRun
open Builder (mapPy)

variable {P : Type} [DecidableEq P]

/-- `demand_per_comm` with `split` (src/eval/evaluate.py:126-131); `k` is the number of predictors. -/
def splitDemand (f : RC) (k : Nat) : Py RC := do
  let vs ← mapPy (fun v => pyDiv v (k : ℚ)) f.values
  RC.new f.times vs f.lo f.hi

/-- `demand_per_comm` without `split` (src/eval/evaluate.py:132-138). -/
def testDemand (capacity : List ℚ) (f : RC) (k : Nat) (inflowHorizon : ℚ) : Py RC :=
  match capacity.min? with
  | none => .error .value
  | some m => do
    let v ← rd f.values 0
    let x ← pyDiv (v / 16) (k : ℚ)
    RC.new [0, inflowHorizon] [max (m / 256) x, 0] ((0 : ℚ) : WithBot ℚ) ⊤

/-- `if split: … else: …` (src/eval/evaluate.py:125-138): the remaining commodities and the demand of the new ones. -/
def prepare (n : Network P) (refs : List Nat) (r : Nat) (f : RC) (k : Nat) (split : Bool) (inflowHorizon : ℚ) : Py (List Nat × RC) :=
  if split then do
    let d ← splitDemand f k
    pure (refs.erase r, d)
  else do
    let d ← testDemand n.capacity f k inflowHorizon
    pure (refs, d)

/-- The changes to the network (src/eval/evaluate.py:119-150): `network.commodities` are the objects `refs`, `predictors` the keys of the dict. Returns the network and `new_commodities_indices`. -/
def setup (ord : List Nat → List Nat) (n : Network P) (obj : Nat → Commodity P) (refs : List Nat) (predictors : List P) (focused : Nat) (split : Bool) (inflowHorizon : ℚ) :
    Py (Network P × List Nat) := do
  let r ← rd refs focused
  match (obj r).sources with
  | [(source, f)] => do
    let (rest, d) ← prepare n refs r f predictors.length split inflowHorizon
    let n' ← Combine.combine ord { n with commodities := rest.map obj } obj rest []
    pure ({ n' with commodities := n'.commodities ++ predictors.map (fun p => ⟨[(source, d)], (obj r).sink, p⟩) },
      (List.range predictors.length).map (fun i => n'.commodities.length + i))
  | _ => .error .value

end SingleRun
end Verif
