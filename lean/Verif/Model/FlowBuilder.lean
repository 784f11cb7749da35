import Verif.Model.Dijkstra
import Verif.Model.DynamicFlow
import Verif.Model.Network

/-! Model of src/core/flow_builder.py.

A set is a list of its elements in the order in which they were added; iterating over it visits the elements in the order
`ord` gives, an arbitrary arrangement. Commodities are named by their position (they are compared by identity, so
the list is taken to hold distinct objects). Predictors are arbitrary objects that give
predictions or raise; the flow is passed to them by value, so they cannot change it. The `lru_cache` of the class is
modelled per builder, with its clearing by the builder itself; that other builders in the process clear it too is modelled in Model/ManyBuilders. -/

namespace Verif

/-- A `Predictor` (src/core/predictor.py:11-46): `predict(prediction_time, flow)` and `is_constant()`. -/
structure Predictor where
  predict : ℚ → DFlow → Py (List PL)
  constant : Bool

/-- Capacities and travel times by edge id, as `DynamicFlow` reads them (src/core/dynamic_flow.py). -/
def Network.data {P : Type} (n : Network P) : EdgeData := ⟨fun e => n.capacity.getD e 1, fun e => n.travelTime.getD e 0⟩

/-- A `FlowBuilder` (src/core/flow_builder.py:21-33). `active i v` is `_active_edges[i].get(v)`. -/
structure Builder (P : Type) where
  net : Network P
  interval : Option ℚ
  active : Nat → Nat → Option (List Nat)
  built : Bool
  handle : List Nat
  flow : DFlow
  nextReroute : ℚ
  route : ℚ
  important : List (List Nat)
  netInflow : Nat → FRC
  sinkIds : Nat → List Nat
  changes : Heap EVal (Nat × Nat × ℚ)
  cache : P → Option (List PL)

namespace Builder
variable {P : Type} [DecidableEq P]

/-- `f(x) for x in l` where `f` may raise. -/
def mapPy {α β : Type} (f : α → Py β) : List α → Py (List β)
  | [] => .ok []
  | a :: l => do
    let b ← f a
    let rest ← mapPy f l
    pure (b :: rest)

/-- One entry of `_important_nodes` (src/core/flow_builder.py:50-59). -/
def importantOf (g : Graph) (c : Commodity P) : Py (List Nat) := do
  let back ← g.nodesReaching c.sink
  let forth ← mapPy (fun s => g.reachableNodes s.1) c.sources
  pure (back.filter (fun v => v ∈ forth.flatten))

/-- `{i: c.sources[v] for i, c in enumerate(commodities) if v in c.sources}` (src/core/flow_builder.py:61-67). -/
def sourcesAt (v : Nat) : Nat → List (Commodity P) → List (Nat × RC)
  | _, [] => []
  | i, c :: cs =>
    match c.sources.lookup v with
    | some f => (i, f) :: sourcesAt v (i + 1) cs
    | none => sourcesAt v (i + 1) cs

/-- The dict of collections by node (src/core/flow_builder.py:60-69). -/
def netInflows (cs : List (Commodity P)) : List Nat → (Nat → FRC) → Py (Nat → FRC)
  | [], d => .ok d
  | v :: vs, d => do
    let c ← FRC.ofDict (sourcesAt v 0 cs)
    netInflows cs vs (setAt d v c)

/-- `set(i for i, c in enumerate(commodities) if c.sink == v)` (src/core/flow_builder.py:70-73). -/
def sinkIdsAt (v : Nat) : Nat → List (Commodity P) → List Nat
  | _, [] => []
  | i, c :: cs => if c.sink = v then i :: sinkIdsAt v (i + 1) cs else sinkIdsAt v (i + 1) cs

/-- The initial entries of `_network_inflow_changes` (src/core/flow_builder.py:79-86). -/
def changeList : Nat → List (Commodity P) → List ((Nat × Nat × ℚ) × EVal)
  | _, [] => []
  | i, c :: cs => (c.sources.map (fun s => s.2.times.map (fun t => ((i, s.1, t), ev t)))).flatten ++ changeList (i + 1) cs

/-- `FlowBuilder(network, predictors, reroute_interval)` (src/core/flow_builder.py:35-86). -/
def init (n : Network P) (interval : Option ℚ) : Py (Builder P) := do
  let flow ← DFlow.init
  let important ← mapPy (importantOf n.graph) n.commodities
  let dflt ← FRC.empty
  let netInflow ← netInflows n.commodities n.graph.nodes (fun _ => dflt)
  pyAssert (∀ p ∈ n.commodities.zip important, ∀ s ∈ p.1.sources, s.1 ∈ p.2)
  let changes ← Heap.ofList (changeList 0 n.commodities)
  pure { net := n, interval := interval, active := fun _ _ => none, built := false, handle := [], flow := flow,
         nextReroute := flow.phi, route := flow.phi, important := important, netInflow := netInflow,
         sinkIds := fun v => sinkIdsAt v 0 n.commodities, changes := changes, cache := fun _ => none }

/-- One entry of `costs` (src/core/flow_builder.py:97-109). -/
def costOfEdge (n : Network P) (time : ℚ) (preds : List PL) (e : Nat) : Py PL := do
  let p ← rd preds e
  let tt ← rd n.travelTime e
  let cap ← rd n.capacity e
  let values ← mapPy (fun v => do
    let x ← pyDiv v cap
    pure (tt + x)) p.values
  let first ← pyDiv p.first cap
  let last ← pyDiv p.last cap
  PL.new p.times values first last (time : WithBot ℚ) ⊤

/-- `_get_costs` (src/core/flow_builder.py:88-110). -/
def getCosts (preds : P → Predictor) (b : Builder P) (p : P) : Py (List PL × Builder P) :=
  match b.cache p with
  | some costs => .ok (costs, b)
  | none => do
    let ps ← (preds p).predict b.route b.flow
    let costs ← mapPy (costOfEdge b.net b.route ps) (List.range b.net.graph.edges.length)
    pure (costs, { b with cache := fun q => if q = p then some costs else b.cache q })

/-- The `for e in v.outgoing_edges` loop (src/core/flow_builder.py:160-166). -/
def constActive (g : Graph) (costs : List ℚ) (dist : Nat → Option ℚ) (v : Nat) : List Nat → Py (List Nat)
  | [] => .ok []
  | e :: es =>
    match dist (g.nodeTo e) with
    | none => constActive g costs dist v es
    | some dw => do
      let c ← rd costs (g.edge e).id
      let dv ← Dijkstra.look dist v
      let rest ← constActive g costs dist v es
      pure (if c + dw ≤ dv + eps then e :: rest else rest)

/-- `self._active_edges[j][v] = active_edges` for the commodities `j` with the same predictor type
(src/core/flow_builder.py:168-173). -/
def assign (n : Network P) (p : P) (v : Nat) (a : List Nat) : List Nat → (Nat → Nat → Option (List Nat)) → Py (Nat → Nat → Option (List Nat))
  | [], d => .ok d
  | j :: js, d => do
    let c ← rd n.commodities j
    assign n p v a js (if c.predictor = p then fun i u => if i = j ∧ u = v then some a else d i u else d)

/-- The `for v in com_nodes` loop (src/core/flow_builder.py:157-173). -/
def constLoop (ord : List Nat → List Nat) (b : Builder P) (c : Commodity P) (costs : List ℚ) (dist : Nat → Option ℚ) :
    List Nat → (Nat → Nat → Option (List Nat)) → Py (Nat → Nat → Option (List Nat))
  | [], d => .ok d
  | v :: vs, d =>
    if v = c.sink then constLoop ord b c costs dist vs d
    else do
      let a ← constActive b.net.graph costs dist v (b.net.graph.outgoing v)
      pyAssert (a.length > 0)
      let d ← assign b.net c.predictor v a (ord (b.sinkIds c.sink)) d
      constLoop ord b c costs dist vs d

/-- `_get_active_edges` (src/core/flow_builder.py:144-184). -/
def getActive (ord : List Nat → List Nat) (preds : P → Predictor) (b : Builder P) (i s : Nat) : Py (List Nat × Builder P) :=
  match b.active i s with
  | some a => .ok (a, b)
  | none => do
    let c ← rd b.net.commodities i
    let nodes ← rd b.important i
    if (preds c.predictor).constant then do
      let (costs, b) ← getCosts preds b c.predictor
      let consts ← mapPy (fun f => rd f.values 0) costs
      let dist ← Dijkstra.reverseDijkstra b.net.graph c.sink consts nodes
      let d ← constLoop ord b c consts dist (ord nodes) b.active
      match d i s with
      | some a => .ok (a, { b with active := d })
      | none => .error .key
    else do
      let (costs, b) ← getCosts preds b c.predictor
      let res ← Dijkstra.dynamicDijkstra b.net.graph b.route s c.sink nodes (costs.map PL.eval)
      let a ← Dijkstra.activeEdges b.net.graph res s c.sink
      pure (a, { b with active := fun j u => if j = i ∧ u = s then some a else b.active j u })

/-- The outflows of the incoming edges of a node (src/core/flow_builder.py:191-194). -/
def outflows (g : Graph) : List Nat → DFlow → Py (List Rates × DFlow)
  | [], s => .ok ([], s)
  | e :: es, s => do
    let (v, s) ← s.lookOutflow (g.edge e).id
    let (rest, s) ← outflows g es s
    pure (v :: rest, s)

/-- `new_inflow[e.id][i] = distribution` for the active edges (src/core/flow_builder.py:217-218); an existing key
would keep its place in the dict, here it moves to the end. -/
def spread (g : Graph) (i : Nat) (x : ℚ) : List Nat → List (Nat × Rates) → Py (List (Nat × Rates))
  | [], d => .ok d
  | e :: es, d =>
    if (d.lookup (g.edge e).id).isSome then
      spread g i x es (d.map (fun p => if p.1 = (g.edge e).id then (p.1, p.2.filter (fun q => q.1 ≠ i) ++ [(i, x)]) else p))
    else .error .key

/-- The `for i in used_commodities` loop (src/core/flow_builder.py:206-218). -/
def distribute (ord : List Nat → List Nat) (preds : P → Predictor) (v : Nat) (outs : List Rates) (net : Rates) :
    List Nat → Builder P → List (Nat × Rates) → Py (List (Nat × Rates) × Builder P)
  | [], b, d => .ok (d, b)
  | i :: is, b, d =>
    let inflow := (outs.map (fun o => o.get i)).sum + net.get i
    if inflow < eps then distribute ord preds v outs net is b d
    else do
      let (a, b) ← getActive ord preds b i v
      let x ← pyDiv inflow a.length
      let d ← spread b.net.graph i x a d
      distribute ord preds v outs net is b d

/-- `new_inflow.update({e.id: {} for e in v.outgoing_edges})` (src/core/flow_builder.py:189). -/
def reset (g : Graph) : List Nat → List (Nat × Rates) → List (Nat × Rates)
  | [], d => d
  | e :: es, d =>
    reset g es (if (d.lookup (g.edge e).id).isSome then d.map (fun p => if p.1 = (g.edge e).id then (p.1, []) else p) else d ++ [((g.edge e).id, [])])

/-- The `for v in self._handle_nodes` loop of `_determine_new_inflow` (src/core/flow_builder.py:186-219). -/
def newInflow (ord : List Nat → List Nat) (preds : P → Predictor) :
    List Nat → Builder P → List (Nat × Rates) → Py (List (Nat × Rates) × Builder P)
  | [], b, d => .ok (d, b)
  | v :: vs, b, d => do
    let d := reset b.net.graph (b.net.graph.outgoing v) d
    let (outs, flow) ← outflows b.net.graph (b.net.graph.incoming v) b.flow
    let b : Builder P := { b with flow := flow }
    let (net, c) ← (b.netInflow v).getValuesAtTime b.flow.phi
    let b : Builder P := { b with netInflow := setAt b.netInflow v c }
    let used := ((outs.flatten ++ net).map Prod.fst).filter (fun i => ¬ i ∈ b.sinkIds v)
    let (d, b) ← distribute ord preds v outs net (ord used) b d
    newInflow ord preds vs b d

/-- The inner `while` loop of `build_flow` (src/core/flow_builder.py:119-121). First argument: fuel. -/
def popChanges : Nat → Builder P → Py (Builder P)
  | 0, _ => .error .fuel
  | fuel + 1, b => do
    let k ← b.changes.minKey
    if k ≤ ev b.flow.phi then do
      let (h, x) ← b.changes.pop
      popChanges fuel { b with changes := h, handle := b.handle ++ [x.2.1] }
    else pure b

/-- The routing part of the loop of `build_flow` (src/core/flow_builder.py:122-131). -/
def reroute (b : Builder P) : Py (Builder P) :=
  match b.interval with
  | none => .error .typeErr
  | some d =>
    if b.flow.phi ≥ b.nextReroute then
      .ok { b with cache := fun _ => none, active := fun _ _ => none, route := b.nextReroute, nextReroute := b.nextReroute + d, handle := b.net.graph.nodes }
    else .ok b

/-- The part of the loop of `build_flow` before the flow is extended (src/core/flow_builder.py:118-136): the new inflows and
the bound on the time. -/
def prepare (ord : List Nat → List Nat) (preds : P → Predictor) (b : Builder P) : Py (List (Nat × Rates) × ℚ × Builder P) := do
  let b ← popChanges (b.changes.len + 1) b
  let b ← reroute b
  let (l, b) ← newInflow ord preds (ord b.handle) b []
  let k ← b.changes.minKey
  let T ← (min (ev b.nextReroute) k).toRat
  pure (l, T, b)

/-- One round of the loop of `build_flow`, up to the next `yield` (src/core/flow_builder.py:118-142). -/
def step (ord : List Nat → List Nat) (preds : P → Predictor) (b : Builder P) : Py (Builder P) := do
  let (l, T, b) ← prepare ord preds b
  let (flow, changed) ← b.flow.extend b.net.data l T
  let handle ← mapPy (fun e => do
    let r ← rd b.net.graph.edges e
    pure (b.net.graph.nodeTo r)) changed
  pure { b with flow := flow, handle := handle }

/-- The state of a generator made by `build_flow`: not started, suspended at a `yield`, or ended. -/
inductive Gen
  | fresh | running | ended
  deriving DecidableEq

/-- `next(generator)` (src/core/flow_builder.py:112-142): the new states of generator and builder and the outcome. A generator
that has ended raises `StopIteration`; one that raises has ended. The partial effects of a step that raises are not
modelled: the builder is left as it was. -/
def next (ord : List Nat → List Nat) (preds : P → Predictor) (g : Gen) (b : Builder P) : Gen × Builder P × Except (Option Err) DFlow :=
  match g with
  | .ended => (.ended, b, .error none)
  | .fresh =>
    if b.built then (.ended, b, .error (some .runtime))
    else (.running, { b with built := true }, .ok b.flow)
  | .running =>
    match step ord preds b with
    | .ok b' => (.running, b', .ok b'.flow)
    | .error e => (.ended, b, .error (some e))

end Builder
end Verif
