import Verif.Model.Resume

/-! Model of what is written with src/utilities/json_encoder.py: the values given to `JSONEncoder().dump`, the objects `default` replaces, and the text written by the `json` module of Python
with its standard settings (`ensure_ascii`, separators `", "` and `": "`, `allow_nan`). `num x` is the text of the number `x` (`int.__repr__` or `float.__repr__`; whether a number is an `int`
or a `float` is not modelled). Circular values are not modelled. -/

namespace Verif.Json
open Verif Resume Builder

/-- A value without objects: what the `json` module can write by itself. `inf true` is `float("-inf")`. -/
inductive Tree
  | num (x : ℚ)
  | inf (neg : Bool)
  | str (s : List Char)
  | list (l : List Tree)
  | dict (l : List (List Char × Tree))

/-- A key of a dict: a string or an `int`. -/
inductive Key
  | name (s : List Char)
  | number (i : Nat)

/-- A value given to the encoder. `object` is an object that is not a dataclass and has no `__json__`, such as a `FlowRatesCollection` (src/core/flow_rates_collection.py:23). -/
inductive Val
  | num (x : ℚ)
  | inf (neg : Bool)
  | str (s : List Char)
  | list (l : List Val)
  | dict (l : List (Key × Val))
  | step (f : RC)
  | linear (f : PL)
  | object

/-- `"-Infinity" if self.domain[0] == float("-inf") else self.domain[0]` (src/utilities/right_constant.py:27, src/utilities/piecewise_linear.py:22). -/
def lower (x : WithBot ℚ) : Tree :=
  match x with
  | none => .str "-Infinity".toList
  | some x => .num x

/-- `"Infinity" if self.domain[1] == float("inf") else self.domain[1]` (src/utilities/right_constant.py:28, src/utilities/piecewise_linear.py:23). -/
def upper (x : WithTop ℚ) : Tree :=
  match x with
  | none => .str "Infinity".toList
  | some x => .num x

/-- `RightConstant.__json__` (src/utilities/right_constant.py:22-30). -/
def ofRC (f : RC) : Tree :=
  .dict [("times".toList, .list (f.times.map .num)), ("values".toList, .list (f.values.map .num)), ("domain".toList, .list [lower f.lo, upper f.hi])]

/-- `PiecewiseLinear.__json__` (src/utilities/piecewise_linear.py:17-27). -/
def ofPL (f : PL) : Tree :=
  .dict [("times".toList, .list (f.times.map .num)), ("values".toList, .list (f.values.map .num)), ("domain".toList, .list [lower f.lo, upper f.hi]),
    ("lastSlope".toList, .num f.last), ("firstSlope".toList, .num f.first)]

/-- Keys are written as strings (`json.encoder`): an `int` by its digits. -/
def Key.text : Key → List Char
  | .name s => s
  | .number i => Nat.toDigits 10 i

mutual
/-- What the encoder makes of a value (src/utilities/json_encoder.py:8-16): objects are replaced by `default`, which raises `TypeError` for those it does not know. The functions are the only
objects with `__json__` in the project; there are no dataclasses among the values it writes. -/
def Val.tree : Val → Py Tree
  | .num x => .ok (.num x)
  | .inf b => .ok (.inf b)
  | .str s => .ok (.str s)
  | .list l => do
    let l ← Val.trees l
    pure (.list l)
  | .dict l => do
    let l ← Val.items l
    pure (.dict l)
  | .step f => .ok (ofRC f)
  | .linear f => .ok (ofPL f)
  | .object => .error .typeErr

/-- The elements of a list in turn. -/
def Val.trees : List Val → Py (List Tree)
  | [] => .ok []
  | v :: l => do
    let t ← Val.tree v
    let l ← Val.trees l
    pure (t :: l)

/-- The items of a dict in turn. -/
def Val.items : List (Key × Val) → Py (List (List Char × Tree))
  | [] => .ok []
  | (k, v) :: l => do
    let t ← Val.tree v
    let l ← Val.items l
    pure ((k.text, t) :: l)
end

/-- A hexadecimal digit. -/
def hex (d : Nat) : Char := Nat.digitChar d

/-- `"\\u{0:04x}".format(n)` (`json.encoder`). -/
def hex4 (n : Nat) : List Char := ['\\', 'u', hex (n / 4096 % 16), hex (n / 256 % 16), hex (n / 16 % 16), hex (n % 16)]

/-- A character of a string as it is written (`py_encode_basestring_ascii` of `json.encoder`). -/
def escape (c : Char) : List Char :=
  if c = '"' then ['\\', '"']
  else if c = '\\' then ['\\', '\\']
  else if c = '\n' then ['\\', 'n']
  else if c = '\r' then ['\\', 'r']
  else if c = '\t' then ['\\', 't']
  else if c.toNat = 12 then ['\\', 'f']
  else if c.toNat = 8 then ['\\', 'b']
  else if 32 ≤ c.toNat ∧ c.toNat ≤ 126 then [c]
  else if c.toNat < 65536 then hex4 c.toNat
  else hex4 (55296 + (c.toNat - 65536) / 1024) ++ hex4 (56320 + (c.toNat - 65536) % 1024)

/-- A string as it is written, with its closing quote. -/
def body : List Char → List Char
  | [] => ['"']
  | c :: s => escape c ++ body s

/-- A string as it is written. -/
def quote (s : List Char) : List Char := '"' :: body s

mutual
/-- The text of a value (`_iterencode` of `json.encoder`). -/
def Tree.text (num : ℚ → List Char) : Tree → List Char
  | .num x => num x
  | .inf true => "-Infinity".toList
  | .inf false => "Infinity".toList
  | .str s => quote s
  | .list [] => ['[', ']']
  | .list (t :: l) => '[' :: (Tree.text num t ++ Tree.elements num l)
  | .dict [] => ['{', '}']
  | .dict ((k, t) :: l) => '{' :: (quote k ++ ':' :: ' ' :: (Tree.text num t ++ Tree.members num l))

/-- The further elements of a list and the bracket. -/
def Tree.elements (num : ℚ → List Char) : List Tree → List Char
  | [] => [']']
  | t :: l => ',' :: ' ' :: (Tree.text num t ++ Tree.elements num l)

/-- The further items of a dict and the brace. -/
def Tree.members (num : ℚ → List Char) : List (List Char × Tree) → List Char
  | [] => ['}']
  | (k, t) :: l => ',' :: ' ' :: (quote k ++ ':' :: ' ' :: (Tree.text num t ++ Tree.members num l))
end

/-- `JSONEncoder().dump(value, file)` (src/utilities/json_encoder.py:18-20): the text in the file. -/
def dump (num : ℚ → List Char) (v : Val) : Py (List Char) := do
  let t ← v.tree
  pure (t.text num)

/-- The value built by `to_visualization_json` (src/visualization/to_json.py:45-74) for a flow on `m` edges. `items` gives the items of the dict of functions of a collection in their order. -/
def pictureVal (items : FRC → List (Nat × RC)) (m : Nat) (p : Picture (List Char)) : Val :=
  let functions (c : FRC) : Val := .dict ((items c).map (fun q => (Key.number q.1, Val.step q.2)))
  .dict [
    (.name "network".toList, .dict [
      (.name "nodes".toList, .list (p.nodes.map (fun v => .dict [(.name "id".toList, .num v.1), (.name "x".toList, .num v.2.1), (.name "y".toList, .num v.2.2)]))),
      (.name "edges".toList, .list (p.edges.map (fun e => .dict [(.name "id".toList, .num e.1), (.name "from".toList, .num e.2.1), (.name "to".toList, .num e.2.2.1),
        (.name "capacity".toList, .num e.2.2.2.1), (.name "transitTime".toList, .num e.2.2.2.2)]))),
      (.name "commodities".toList, .list (p.commodities.map (fun c => .dict [(.name "id".toList, .num c.1), (.name "color".toList, .str c.2)])))]),
    (.name "flow".toList, .dict [
      (.name "inflow".toList, .list ((List.range m).map (fun e => functions (p.flow.inflow e)))),
      (.name "outflow".toList, .list ((List.range m).map (fun e => functions (p.flow.outflow e)))),
      (.name "queues".toList, .list ((List.range m).map (fun e => .linear (p.flow.queues e))))])]

/-- `to_visualization_json` (src/visualization/to_json.py:39-77): the text in the file, before it is compressed. The flow was made for a network with `m` edges. -/
def toVisualization {P : Type} (num : ℚ → List Char) (items : FRC → List (Nat × RC)) (n : Network P) (positions : List (Nat × ℚ × ℚ)) (colours : List (Nat × List Char)) (m : Nat) (flow : DFlow) :
    Py (List Char) := do
  let p ← visualization n positions colours flow
  dump num (pictureVal items m p)

/-- What the slide examples write for a flow on `m` edges, after `export default ` (src/slide_examples/example2.py:32-37, src/slide_examples/example3.py:39-44,
src/slide_examples/example4.py:35-40): the lists of collections and of queues. -/
def slideVal (m : Nat) (flow : DFlow) : Val :=
  .dict [(.name "inflow".toList, .list ((List.range m).map (fun _ => .object))), (.name "outflow".toList, .list ((List.range m).map (fun _ => .object))),
    (.name "queues".toList, .list ((List.range m).map (fun e => .linear (flow.queues e))))]

end Verif.Json
