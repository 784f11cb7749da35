import Verif.Model.FlowBuilder

/-! Model of the networks of src/slide_examples/example2.py, example3.py and example4.py. -/

namespace Verif
namespace Slides

/-- The step function `RightConstant([-1, 0, stop], [0, rate, 0])` of the slide examples (src/slide_examples/example2.py:18,
example3.py:25, example4.py:18-21): the domain is the default `(-inf, inf)`. -/
def slideInflow (rate stop : ℚ) : Py RC := RC.new [-1, 0, stop] [0, rate, 0] ⊥ ⊤

/-- `build_example1` of example2.py, up to the construction of the builder (src/slide_examples/example2.py:12-25). Predictor types are numbers; the
`ZeroPredictor` is not needed by the constructor. -/
def example2 : Py (Builder Nat) := do
  let n := (((Network.empty (P := Nat)).addEdge 0 2 200 10).addEdge 0 1 200 20).addEdge 1 2 200 20
  let f ← slideInflow 20 1600
  let n ← n.addCommodity [(0, f)] 2 0
  Builder.init n (some 100)

/-- `build_example3`, up to the construction of the builder (src/slide_examples/example3.py:12-33). -/
def example3 : Py (Builder Nat) := do
  let n := (((((Network.empty (P := Nat)).addEdge 0 1 200 20).addEdge 1 2 200 10).addEdge 0 3 200 20).addEdge 3 4 400 20).addEdge 4 2 200 20
  let f ← slideInflow 20 20000
  let n ← n.addCommodity [(0, f)] 2 0
  Builder.init n (some (1 / 20))

/-- `build_example1` of example4.py, up to the construction of the builder (src/slide_examples/example4.py:12-29). -/
def example4 : Py (Builder Nat) := do
  let n := (((Network.empty (P := Nat)).addEdge 0 1 200 20).addEdge 1 2 200 10).addEdge 3 1 200 10
  let f ← slideInflow 20 800
  let n ← n.addCommodity [(0, f)] 2 0
  let g ← slideInflow 10 800
  let n ← n.addCommodity [(3, g)] 2 0
  Builder.init n (some 100)

end Slides
end Verif
