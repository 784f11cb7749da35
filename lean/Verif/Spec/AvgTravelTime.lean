import Verif.Model.AvgTravelTime
import Verif.Spec.FlowBuilder
import Verif.Spec.Area

/-! What enters and what arrives. -/

namespace Verif.Spec
open Verif

/-- The rate at which commodity `c` enters the network. -/
def enters {P : Type} (c : Commodity P) (t : ℚ) : ℚ := (c.sources.map (fun s => stepValue s.2 t)).sum

/-- The rate at which commodity `c`, number `i`, arrives at its sink. -/
def arrivals {P : Type} (n : Network P) (flow : DFlow) (i : Nat) (c : Commodity P) (t : ℚ) : ℚ :=
  ((n.graph.incoming c.sink).map (fun e => outRate flow (n.graph.edge e).id i t)).sum

end Verif.Spec
