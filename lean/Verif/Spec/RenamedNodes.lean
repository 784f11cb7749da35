import Verif.Model.Network

/-! Other names for the nodes of a network (C124). -/

namespace Verif.Spec

/-- An edge object that occurs in a graph: in its list of edges or in a list of edges of one of its nodes. -/
def Linked (g : Graph) (r : Nat) : Prop := r ∈ g.edges ∨ ∃ v, r ∈ (g.node v).inc ∨ r ∈ (g.node v).out

/-- `g'` is `g` with node `v` called `σ v`; edges keep their ids and their order. -/
structure GraphRenamed (σ : Nat → Nat) (g g' : Graph) : Prop where
  edges : g'.edges = g.edges
  fresh : g'.fresh = g.fresh
  nodes : g'.nodes = g.nodes.map σ
  ids : ∀ r, (g'.edge r).id = (g.edge r).id
  tails : ∀ r, Linked g r → (g'.edge r).tail = σ (g.edge r).tail
  heads : ∀ r, Linked g r → (g'.edge r).head = σ (g.edge r).head
  node : ∀ v, g'.node (σ v) = g.node v
  reversed : g'.reversed = g.reversed

/-- The commodity with other names for its sources and its sink. -/
def renameCommodity {P : Type} (σ : Nat → Nat) (c : Commodity P) : Commodity P :=
  ⟨c.sources.map (fun s => (σ s.1, s.2)), σ c.sink, c.predictor⟩

/-- `n'` is `n` with node `v` called `σ v`. -/
structure NodesRenamed {P : Type} (σ : Nat → Nat) (n n' : Network P) : Prop where
  graph : GraphRenamed σ n.graph n'.graph
  capacity : n'.capacity = n.capacity
  travelTime : n'.travelTime = n.travelTime
  commodities : n'.commodities = n.commodities.map (renameCommodity σ)

/-- Building a network: roads `(from, to, travel time, capacity)` are added in order, then commodities. -/
def buildUp {P : Type} (roads : List (Nat × Nat × ℚ × ℚ)) (cs : List (Commodity P)) : Py (Network P) :=
  Network.addCommodities cs (roads.foldl (fun n r => n.addEdge r.1 r.2.1 r.2.2.1 r.2.2.2) Network.empty)

end Verif.Spec
