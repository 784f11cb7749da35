import Verif.Spec.FlowBuilder
import Verif.Spec.Trips

/-! Travelling through a network in a given flow. -/

namespace Verif.Spec
open Verif

/-- As long as the flow is built: who enters edge `e` at time `t` leaves it after its travel time and the time to get through the queue found there. -/
def Travels {P : Type} (n : Network P) (s : DFlow) (arr : Nat → ℚ → ℚ) : Prop :=
  ∀ e ∈ n.graph.edges, ∀ t, 0 ≤ t → t ≤ s.phi → ∃ tt cap q, n.travelTime[(n.graph.edge e).id]? = some tt ∧ n.capacity[(n.graph.edge e).id]? = some cap ∧
    (s.queues (n.graph.edge e).id).eval t = .ok q ∧ arr e t = t + tt + q / cap

/-- The label promises nobody who leaves up to `until_` a later arrival than possible: who can arrive before the horizon is promised to arrive by then. -/
def NotTooLate (g : Graph) (arr : Nat → ℚ → ℚ) (source sink : Nat) (label : PL) (horizon until_ : ℚ) : Prop :=
  ∀ t y, 0 ≤ t → t ≤ until_ → GetsTo g arr g.nodes sink source t y → y < horizon → ∃ v, label.eval t = .ok v ∧ v ≤ y

end Verif.Spec
