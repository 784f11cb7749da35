import Verif.Spec.Earliest
import Verif.Spec.Evaluate

/-! Specification for the optimal average travel time when the queues are worked off in time. -/

namespace Verif.Spec
open Verif

/-- At all times: who enters edge `e` at time `t` leaves it after its travel time and the time to get through the queue found there. -/
def TravelsAlways {P : Type} (n : Network P) (s : DFlow) (arr : Nat → ℚ → ℚ) : Prop :=
  ∀ e ∈ n.graph.edges, ∀ t, 0 ≤ t → ∃ tt cap q, n.travelTime[(n.graph.edge e).id]? = some tt ∧ n.capacity[(n.graph.edge e).id]? = some cap ∧
    (s.queues (n.graph.edge e).id).eval t = .ok q ∧ arr e t = t + tt + q / cap

/-- `x` is the average travel time of those who leave the source at a constant rate between times 0 and `until_` and take a fastest way to the sink; those who cannot arrive by the horizon are
counted as if they arrived at the horizon. All those who leave by time `h` can arrive in time, the others cannot; `F t` is the earliest arrival. -/
def OptimalTime (g : Graph) (arr : Nat → ℚ → ℚ) (source sink : Nat) (horizon until_ x : ℚ) : Prop :=
  ∃ (h : ℚ) (F A : ℚ → ℚ), 0 ≤ h ∧ h ≤ until_ ∧ (∀ t, 0 ≤ t → t ≤ until_ → ((∃ y, GetsTo g arr g.nodes sink source t y ∧ y ≤ horizon) ↔ t ≤ h)) ∧
    (∀ t, 0 ≤ t → t ≤ h → GetsTo g arr g.nodes sink source t (F t) ∧ ∀ y, GetsTo g arr g.nodes sink source t y → F t ≤ y) ∧
    AreaUpTo h (fun t => F t - t) A ∧ x * until_ = A h + ((horizon - h) + (horizon - until_)) / 2 * (until_ - h)

/-- The queues of the flow do not change from `H0` on, and no comparison in a search for trips to the sink is decided by the tolerances of the program: the queues bend at the given times only, their
slopes are equal or clearly different, the arrival times lie on the given lines, which do not cross after `H0`, and whoever starts at `H0` arrives clearly before the horizon if the trip has at most
as many edges as there are nodes. -/
structure Drained {P : Type} (n : Network P) (s : DFlow) (arr : Nat → ℚ → ℚ) (sink : Nat) (H0 horizon : ℚ) (lines : List (ℚ × ℚ)) (kinks : List ℚ) : Prop where
  const : ∀ e ∈ n.graph.edges, ∀ t, H0 ≤ t → arr e t - t = arr e H0 - H0
  bends : ∀ e ∈ n.graph.edges, ∀ t ∈ (s.queues (n.graph.edge e).id).times, t ∈ kinks
  start : ∀ t ∈ kinks, 0 ≤ t
  slopes : ∀ e ∈ n.graph.edges, ∀ cap, n.capacity[(n.graph.edge e).id]? = some cap → ∀ i j m m', (s.queues (n.graph.edge e).id).gradient i = .ok m →
    (s.queues (n.graph.edge e).id).gradient j = .ok m' → m = m' ∨ 1000 * eps * cap ≤ |m - m'|
  onLines : OnLines n.graph arr n.graph.nodes sink 0 n.graph.nodes.length lines
  clear : ClearCut 0 lines kinks
  turns : ∀ t, Turn 0 lines kinks t → t ≤ H0
  before : ∀ k v y, k ≤ n.graph.nodes.length → Ride n.graph arr n.graph.nodes sink k v H0 y → y + eps < horizon

end Verif.Spec
