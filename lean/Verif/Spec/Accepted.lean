import Verif.Spec.FlowBuilder

/-! Which networks the constructor of the flow builder accepts. -/

namespace Verif.Spec
open Verif

/-- A network as it may be offered to the constructor: the graph is consistent, every commodity has its sink and sources in the graph, and its inflow
functions are non-negative step functions defined at least on `[0, ∞)`, possibly with break points before 0; the break points at one node are
equal or more than `eps` apart. Nothing is said about when inflow starts and whether the sink can be reached. -/
structure Offered {P : Type} (n : Network P) : Prop where
  graph : Consistent n.graph
  sink : ∀ c ∈ n.commodities, c.sink ∈ n.graph.nodes
  keys : ∀ c ∈ n.commodities, (c.sources.map Prod.fst).Nodup
  node : ∀ c ∈ n.commodities, ∀ s ∈ c.sources, s.1 ∈ n.graph.nodes
  len : ∀ c ∈ n.commodities, ∀ s ∈ c.sources, s.2.values.length = s.2.times.length
  ne : ∀ c ∈ n.commodities, ∀ s ∈ c.sources, s.2.times ≠ []
  lt : ∀ c ∈ n.commodities, ∀ s ∈ c.sources, s.2.times.Pairwise (· < ·)
  dom : ∀ c ∈ n.commodities, ∀ s ∈ c.sources, ∀ t ∈ s.2.times, s.2.lo ≤ (t : WithBot ℚ)
  lo : ∀ c ∈ n.commodities, ∀ s ∈ c.sources, s.2.lo ≤ ((0 : ℚ) : WithBot ℚ)
  hi : ∀ c ∈ n.commodities, ∀ s ∈ c.sources, s.2.hi = ⊤
  vals : ∀ c ∈ n.commodities, ∀ s ∈ c.sources, ∀ v ∈ s.2.values, 0 ≤ v
  apart : ∀ c ∈ n.commodities, ∀ s ∈ c.sources, ∀ c' ∈ n.commodities, ∀ s' ∈ c'.sources, s'.1 = s.1 →
    ∀ a ∈ s.2.times, ∀ b ∈ s'.2.times, a < b → eps < b - a

/-- What the constructor asks for: every source can reach the sink, no inflow has a break point before 0, and at every source some inflow has one at 0. -/
def Accepted {P : Type} (n : Network P) : Prop :=
  ∀ c ∈ n.commodities, ∀ s ∈ c.sources, Path n.graph s.1 c.sink ∧ (∀ t ∈ s.2.times, 0 ≤ t) ∧
    ∃ c' ∈ n.commodities, ∃ s' ∈ c'.sources, s'.1 = s.1 ∧ (0 : ℚ) ∈ s'.2.times

end Verif.Spec
