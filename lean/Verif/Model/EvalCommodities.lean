import Verif.Model.Network
import Verif.Model.FileLock

/-! Model of the loop of `eval_network_for_commodities` (src/eval/evaluate_network.py:110-213). The files of the output directory are known by the number of their commodity. -/

namespace Verif
namespace EvalCommodities

variable {P : Type}

/-- The output directory: for which commodities there is an evaluation and for which there is a lock file. -/
structure Dir where
  evaluated : Nat → Bool
  locked : Nat → Bool

/-- What is done to the network before a commodity is evaluated (src/eval/evaluate_network.py:164-182). `random k` is `none` without `random_commodities`; otherwise the source, the sink and the inflow of the drawn commodity. The
evaluation itself (lines 184-207) is `evaluate`, an arbitrary program. -/
def evaluateOne (constant : P) (random : Nat → Option (Nat × RC × Nat)) (evaluate : Network P → Nat → Py Unit) (n : Network P) (k : Nat) : Py Unit :=
  match random k with
  | some (source, f, sink) => do
    let n := { n with commodities := n.commodities ++ [⟨[(source, f)], sink, constant⟩] }
    n.removeUnnecessaryCommodities (n.commodities.length - 1)
    evaluate n k
  | none => do
    n.removeUnnecessaryCommodities k
    evaluate n k

/-- The loop (src/eval/evaluate_network.py:147-208): the directory afterwards, and the exception if there was one. `network` is the network in the file. Every commodity is evaluated with the network read afresh. -/
def loop (constant : P) (random : Nat → Option (Nat × RC × Nat)) (evaluate : Network P → Nat → Py Unit) (network : Network P) : List Nat → Dir → Dir × Py Unit
  | [], d => (d, .ok ())
  | k :: ks, d =>
    if d.evaluated k then loop constant random evaluate network ks d
    else if d.locked k then loop constant random evaluate network ks d
    else
      let d := { d with locked := fun j => if j = k then true else d.locked j }
      match evaluateOne constant random evaluate network k with
      | .error e => (d, .error e)
      | .ok _ => loop constant random evaluate network ks { evaluated := fun j => if j = k then true else d.evaluated j, locked := fun j => if j = k then false else d.locked j }

/-- One process: the loop over all commodities. -/
def process (constant : P) (random : Nat → Option (Nat × RC × Nat)) (evaluate : Network P → Nat → Py Unit) (network : Network P) (d : Dir) : Dir × Py Unit :=
  loop constant random evaluate network (List.range network.commodities.length) d

/-- `f".lock.{k}.json"` (src/eval/evaluate_network.py:149). -/
def lockName (k : Nat) : List Char := FileLock.lockPrefix ++ ((toString k).toList ++ ".json".toList)

/-- The lock files in `os.listdir(out_dir)`. -/
def lockNames (network : Network P) (d : Dir) : List (List Char) := ((List.range network.commodities.length).filter (fun k => d.locked k)).map lockName

end EvalCommodities
end Verif
