import Verif.Spec.Predictors

/-! Comparing two edges: what is read off a flow at an edge. Reading is total here: 0 where the code raises. -/

namespace Verif.Spec
open Verif

/-- The cumulative inflow into edge `e` up to time `t`: `flow.inflow[e].accumulative(t)`. -/
def cumIn (s : DFlow) (e : Nat) (t : ℚ) : ℚ :=
  match (s.inflow e).acc.eval t with
  | .ok x => x
  | .error _ => 0

/-- The cumulative outflow out of edge `e` up to time `t`: `flow.outflow[e].accumulative(t)`. -/
def cumOut (s : DFlow) (e : Nat) (t : ℚ) : ℚ :=
  match (s.outflow e).acc.eval t with
  | .ok x => x
  | .error _ => 0

/-- The length of the queue of edge `e` at time `t`: `flow.queues[e](t)`. -/
def queueLen (s : DFlow) (e : Nat) (t : ℚ) : ℚ :=
  match (s.queues e).eval t with
  | .ok x => x
  | .error _ => 0

/-- How long the flow entering edge `e` at time `t` waits. -/
def waitAt (net : EdgeData) (s : DFlow) (e : Nat) (t : ℚ) : ℚ := queueLen s e t / net.capacity e

/-- How much has left edge `e` by the time at which flow that entered at `t` would arrive without a queue. -/
def passed (net : EdgeData) (s : DFlow) (e : Nat) (t : ℚ) : ℚ := cumOut s e (t + net.travelTime e)

end Verif.Spec
