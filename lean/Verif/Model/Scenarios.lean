import Verif.Model.Importer

/-! Model of the networks of src/scenarios/nguyen_scenario.py and src/slide_examples/example1.py. -/

namespace Verif
namespace Scenarios
open Importer

variable {P : Type}

/-- The rows of src/scenarios/nguyen_network.csv (lines 2-20): from, to, capacity per second, free flow travel time in seconds. -/
def nguyenFile : List (Nat × Nat × ℚ × ℚ) :=
  let k : ℚ := 83333333333 / 100000000000
  [(1, 12, k, 150), (1, 5, k, 75), (12, 6, k, 75), (12, 8, k, 150), (4, 5, k, 150), (5, 6, k, 150), (6, 7, k, 150), (7, 8, k, 150), (4, 9, k, 225), (5, 9, k, 75), (6, 10, k, 75), (7, 11, k, 75),
    (8, 2, k, 75), (9, 10, k, 150), (10, 11, k, 150), (11, 2, k, 150), (9, 13, k, 225), (11, 3, k, 75), (13, 3, k, 150)]

/-- The loop of `build_nguyen_network` (src/scenarios/nguyen_scenario.py:30-32), for the rows of a file. -/
def addNguyen : List (Nat × Nat × ℚ × ℚ) → Network P → Network P
  | [], n => n
  | (u, v, cap, time) :: l, n => addNguyen l (n.addEdge u v (time / 60) (cap * 60))

/-- `build_nguyen_network` (src/scenarios/nguyen_scenario.py:24-53), without the positions. -/
def nguyenNetwork : Network P := addNguyen nguyenFile Network.empty

/-- The network of `run_scenario` (src/scenarios/nguyen_scenario.py:78-84); `constant` is `PredictorType.CONSTANT`; there, the demand is 100 and the inflow horizon 12. -/
def nguyen (constant : P) (demand inflowHorizon : ℚ) : Py (Network P) :=
  addPairs constant inflowHorizon [(1, 2, demand), (1, 3, demand), (4, 2, demand), (4, 3, demand)] nguyenNetwork

/-- The network of slide example 1 (src/slide_examples/example1.py:9-27); `zero` is `PredictorType.ZERO`. -/
def example1 (zero : P) : Py (Network P) := do
  let n := ((Network.empty.addEdge 0 1 200 20).addEdge 1 2 200 10).addEdge 3 1 200 10
  let f ← RC.new [0, 400, 600, 1200, 1300] [10, 20, 0, 20, 0] ((0 : ℚ) : WithBot ℚ) ⊤
  let n ← n.addCommodity [(0, f)] 2 zero
  let g ← RC.new [0, 1200, 1300] [0, 10, 0] ((0 : ℚ) : WithBot ℚ) ⊤
  n.addCommodity [(3, g)] 2 zero

end Scenarios
end Verif
