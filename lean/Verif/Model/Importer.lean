import Verif.Model.Network
import Verif.Model.FlowBuilder

/-! Model of src/importer/tntp_importer.py, src/importer/csv_importer.py and src/importer/sioux_falls_importer.py. A text is a list of characters, a table (`pd.read_csv`, `np.genfromtxt`) the list of its rows; node positions are not modelled.
`int(…)` and `float(…)` are arbitrary functions of the text, `none` standing for `ValueError`. -/

namespace Verif
namespace Importer
open Builder (mapPy)

variable {P : Type}

/-- The loop of `s.split(p)`, for `p` not empty: `skip` characters belong to the separator just found, `acc` is the current part. -/
def splitLoop (p : List Char) : Nat → List Char → List Char → List (List Char)
  | _, acc, [] => [acc]
  | k + 1, acc, _ :: s => splitLoop p k acc s
  | 0, acc, c :: s => if p.isPrefixOf (c :: s) then acc :: splitLoop p (p.length - 1) [] s else splitLoop p 0 (acc ++ [c]) s

/-- `s.split(p)`. -/
def split (p s : List Char) : List (List Char) := splitLoop p 0 [] s

/-- `s.replace(";", "\n")`. -/
def replaceSemicolons (s : List Char) : List Char := s.map (fun c => if c = ';' then '\n' else c)

/-- `len(line.strip()) == 0`, for ASCII texts. -/
def blank (s : List Char) : Bool := s.all Char.isWhitespace

/-- `int(…)`, `float(…)`: `ValueError` for other texts. -/
def readAs {α : Type} (read : List Char → Option α) (s : List Char) : Py α :=
  match read s with
  | some x => .ok x
  | none => .error .value

/-- One line after the origin (src/importer/tntp_importer.py:46-52): no trip on blank lines. -/
def readLine (readInt : List Char → Option Nat) (readFloat : List Char → Option ℚ) (origin : Nat) (line : List Char) : Py (List (Nat × Nat × ℚ)) :=
  if blank line then .ok []
  else
    match split [':'] line with
    | [a, b] => do
      let destination ← readAs readInt a
      let demand ← readAs readFloat b
      pure [(origin, destination, demand)]
    | _ => .error .assertion

/-- One block (src/importer/tntp_importer.py:40-52). -/
def readBlock (readInt : List Char → Option Nat) (readFloat : List Char → Option ℚ) (block : List Char) : Py (List (Nat × Nat × ℚ)) := do
  let lines := split ['\n'] (replaceSemicolons block)
  let first ← rd lines 0
  let origin ← readAs readInt first
  let trips ← mapPy (readLine readInt readFloat origin) (lines.drop 1)
  pure trips.flatten

/-- `od_pairs` (src/importer/tntp_importer.py:38-52). -/
def readTrips (readInt : List Char → Option Nat) (readFloat : List Char → Option ℚ) (text : List Char) : Py (List (Nat × Nat × ℚ)) := do
  let trips ← mapPy (readBlock readInt readFloat) ((split ['O', 'r', 'i', 'g', 'i', 'n'] text).drop 1)
  pure trips.flatten

/-- `get_demand_with_inflow_horizon` (src/scenarios/scenario_utils.py:4-8). -/
def demandUntil (demand : ℚ) (horizon : WithTop ℚ) : Py RC :=
  match horizon with
  | some h => RC.new [0, h] [demand, 0] ((0 : ℚ) : WithBot ℚ) ⊤
  | none => RC.new [0] [demand] ((0 : ℚ) : WithBot ℚ) ⊤

/-- The loop over the pairs (src/importer/tntp_importer.py:54-59, src/importer/sioux_falls_importer.py:52-59: `add_od_pairs`, whose rows are a table). `constant` is `PredictorType.CONSTANT`. -/
def addPairs (constant : P) (horizon : WithTop ℚ) : List (Nat × Nat × ℚ) → Network P → Py (Network P)
  | [], n => .ok n
  | (o, d, x) :: l, n => do
    let f ← demandUntil x horizon
    let n ← n.addCommodity [(o, f)] d constant
    addPairs constant horizon l n

/-- `add_commodities` (src/importer/tntp_importer.py:34-59), for the text of the file. -/
def addCommodities (readInt : List Char → Option Nat) (readFloat : List Char → Option ℚ) (constant : P) (n : Network P) (text : List Char) (horizon : WithTop ℚ) : Py (Network P) := do
  let l ← readTrips readInt readFloat text
  addPairs constant horizon l n

/-- A row of a `_net.tntp` table: `init_node`, `term_node`, `free_flow_time`, `capacity`. -/
structure NetRow where
  init : Nat
  term : Nat
  time : ℚ
  capacity : ℚ

/-- The loop of `import_network` (src/importer/tntp_importer.py:80-83). -/
def addRows : List NetRow → Network P → Network P
  | [], n => n
  | r :: l, n => addRows l (n.addEdge r.init r.term r.time r.capacity)

/-- `import_network` (src/importer/tntp_importer.py:74-84). -/
def importNetwork (rows : List NetRow) : Network P := addRows rows Network.empty

/-- A row of an arcs file: from, to, length, speed (-1 if unknown) and number of lanes. -/
structure ArcRow where
  tail : Nat
  head : Nat
  length : ℚ
  speed : ℚ
  lanes : ℚ

/-- The loop of `network_from_csv` (src/importer/csv_importer.py:19-29). -/
def addArcs : List ArcRow → Network P → Network P
  | [], n => n
  | r :: l, n =>
    let speed := if r.speed > 0 then r.speed else 20
    if r.tail = r.head then addArcs l n
    else addArcs l (n.addEdge r.tail r.head (r.length / speed) (r.lanes * speed))

/-- `network_from_csv` (src/importer/csv_importer.py:11-30). The speed is not 0, the division cannot raise. -/
def networkFromCsv (rows : List ArcRow) : Network P := addArcs rows Network.empty

/-- `network.add_commodity(row[0], row[1], RightConstant(…), PredictorType.CONSTANT)` (src/importer/csv_importer.py:66-71): four arguments for a method with three. -/
def addCommodityWrong (_ : Network P) (_ _ : Nat) (_ : RC) (_ : P) : Py (Network P) := .error .typeErr

/-- The demand of a row (src/importer/csv_importer.py:61-65); `random` is `random.randint(20, 100)`. -/
def demandOf (useDefault upscale : Bool) (random x : ℚ) : ℚ := if useDefault then (if upscale then 20 + (x - 10) / 20 * 80 else x) else random

/-- The loop of `add_demands_to_network` (src/importer/csv_importer.py:55-71); `random i` is the number drawn in row `i`. -/
def addDemandRows (constant : P) (horizon : ℚ) (useDefault upscale : Bool) (random : Nat → ℚ) : Nat → List (Nat × Nat × ℚ) → Network P → Py (Network P)
  | _, [], n => .ok n
  | i, (o, d, x) :: l, n =>
    if o ∈ n.graph.nodes ∧ d ∈ n.graph.nodes then do
      let reaching ← n.graph.nodesReaching d
      if o ∈ reaching then do
        let f ← RC.new [0, horizon] [demandOf useDefault upscale (random i) x, 0] ((0 : ℚ) : WithBot ℚ) ⊤
        let n ← addCommodityWrong n o d f constant
        addDemandRows constant horizon useDefault upscale random (i + 1) l n
      else addDemandRows constant horizon useDefault upscale random (i + 1) l n
    else .error .key

/-- `add_demands_to_network` (src/importer/csv_importer.py:33-77); `seed` says whether a seed is given. -/
def addDemands (constant : P) (horizon : ℚ) (useDefault upscale seed : Bool) (random : Nat → ℚ) (rows : List (Nat × Nat × ℚ)) (n : Network P) : Py (Network P) :=
  if seed = false ∧ useDefault = false then .error .value
  else if seed = true ∧ useDefault = true then .error .value
  else addDemandRows constant horizon useDefault upscale random 0 rows n

/-- The loop of `_generate_commodities` (src/importer/sioux_falls_importer.py:23-45): `draw k` is what the `k`-th round draws, the source, the sink and the demand (drawn only if it is used; here the demand of the round). First argument: fuel. -/
def generateLoop (constant : P) (number : Nat) (horizon : WithTop ℚ) (draw : Nat → Nat × Nat × ℚ) : Nat → Nat → Network P → Py (Network P)
  | 0, _, n => if n.commodities.length < number then .error .fuel else .ok n
  | fuel + 1, k, n =>
    if n.commodities.length < number then
      let (s, t, x) := draw k
      do
        let reach ← n.graph.reachableNodes s
        if t ∈ reach then do
          let f ← demandUntil x horizon
          generateLoop constant number horizon draw fuel (k + 1) { n with commodities := n.commodities ++ [⟨[(s, f)], t, constant⟩] }
        else generateLoop constant number horizon draw fuel (k + 1) n
    else .ok n

/-- `_generate_commodities` (src/importer/sioux_falls_importer.py:14-46): the network afterwards and the returned list, to which nothing is ever added. -/
def generateCommodities (constant : P) (number : Nat) (horizon : WithTop ℚ) (draw : Nat → Nat × Nat × ℚ) (fuel : Nat) (n : Network P) : Py (Network P × List (Commodity P)) := do
  pyAssert (number < n.graph.nodes.length)
  let n ← generateLoop constant number horizon draw fuel 0 n
  pure (n, [])

end Importer
end Verif
