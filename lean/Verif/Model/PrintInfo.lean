import Verif.Model.Network
import Verif.Model.FlowBuilder

/-! Model of `print_info`. -/

namespace Verif
open Builder

variable {P : Type}

/-- What `print_info` prints (src/core/network.py:184-213): each of `capacity` and `travelTime` as minimum, average and maximum; `none` is `nan`. -/
structure Info where
  nodes : Nat
  edges : Nat
  commodities : Nat
  capacity : ℚ × ℚ × ℚ
  travelTime : ℚ × ℚ × ℚ
  inDegree : Nat
  outDegree : Nat
  degree : Nat
  demand : Option ℚ
  deriving DecidableEq

/-- `np.min(l)`, `np.average(l)`, `np.max(l)` (src/core/network.py:188-193): `ValueError` for nothing. -/
def minAvgMax : List ℚ → Py (ℚ × ℚ × ℚ)
  | [] => .error .value
  | x :: xs => .ok (xs.foldl min x, (x :: xs).sum / (xs.length + 1), xs.foldl max x)

/-- The loop over the nodes (src/core/network.py:194-202); the state is the maximal in degree, out degree and degree so far. -/
def degrees (g : Graph) : List Nat → Nat × Nat × Nat → Nat × Nat × Nat
  | [], d => d
  | v :: vs, d => degrees g vs (max d.1 (g.incoming v).length, max d.2.1 (g.outgoing v).length, max d.2.2 ((g.incoming v).length + (g.outgoing v).length))

/-- `np.average(l)` (src/core/network.py:206-212): `nan`, with a warning, for nothing. -/
def avgOrNan (l : List ℚ) : Option ℚ := if l = [] then none else some (l.sum / l.length)

/-- `print_info` (src/core/network.py:183-213): what is printed. Lines printed before an exception are not modelled. -/
def Network.printInfo (n : Network P) : Py Info := do
  let cap ← minAvgMax n.capacity
  let time ← minAvgMax n.travelTime
  let d := degrees n.graph n.graph.nodes (0, 0, 0)
  let firsts ← mapPy (fun f : RC => rd f.values 0) ((n.commodities.map (fun c => c.sources.map Prod.snd)).flatten)
  pure ⟨n.graph.nodes.length, n.graph.edges.length, n.commodities.length, cap, time, d.1, d.2.1, d.2.2, avgOrNan firsts⟩

end Verif
