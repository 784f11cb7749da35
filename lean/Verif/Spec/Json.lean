import Verif.Model.Json

/-! JSON texts (RFC 8259) and what a visualisation tells. -/

namespace Verif.Spec
open Verif Json

/-- One or more digits. -/
def Digits (l : List Char) : Prop := l ≠ [] ∧ ∀ c ∈ l, c.isDigit

/-- A number: sign, integer without superfluous zeros, fraction, exponent. -/
def NumberText (t : List Char) : Prop :=
  ∃ s i f e, t = s ++ i ++ f ++ e ∧ (s = [] ∨ s = ['-']) ∧ (Digits i ∧ (i = ['0'] ∨ i.head? ≠ some '0')) ∧ (f = [] ∨ ∃ d, f = '.' :: d ∧ Digits d) ∧
    (e = [] ∨ ∃ x g d, e = x :: g ++ d ∧ (x = 'e' ∨ x = 'E') ∧ (g = [] ∨ g = ['-'] ∨ g = ['+']) ∧ Digits d)

/-- A hexadecimal digit. -/
def HexDigit (c : Char) : Prop := c.isDigit ∨ c ∈ "abcdefABCDEF".toList

/-- The inside of a string. -/
inductive StringText : List Char → Prop
  | nil : StringText []
  | plain {c : Char} {l : List Char} : 32 ≤ c.toNat → c ≠ '"' → c ≠ '\\' → StringText l → StringText (c :: l)
  | short {c : Char} {l : List Char} : c ∈ "\"\\/bfnrt".toList → StringText l → StringText ('\\' :: c :: l)
  | code {a b c d : Char} {l : List Char} : HexDigit a → HexDigit b → HexDigit c → HexDigit d → StringText l → StringText ('\\' :: 'u' :: a :: b :: c :: d :: l)

/-- White space. -/
def Blank (l : List Char) : Prop := ∀ c ∈ l, c = ' ' ∨ c = '\t' ∨ c = '\n' ∨ c = '\r'

mutual
/-- A value. -/
inductive ValueText : List Char → Prop
  | number {t : List Char} : NumberText t → ValueText t
  | string {t : List Char} : StringText t → ValueText ('"' :: t ++ ['"'])
  | emptyArray {w : List Char} : Blank w → ValueText ('[' :: w ++ [']'])
  | array {t : List Char} : ElementsText t → ValueText ('[' :: t ++ [']'])
  | emptyObject {w : List Char} : Blank w → ValueText ('{' :: w ++ ['}'])
  | object {t : List Char} : MembersText t → ValueText ('{' :: t ++ ['}'])

/-- Values separated by commas. -/
inductive ElementsText : List Char → Prop
  | one {w t w' : List Char} : Blank w → ValueText t → Blank w' → ElementsText (w ++ t ++ w')
  | more {w t w' l : List Char} : Blank w → ValueText t → Blank w' → ElementsText l → ElementsText (w ++ t ++ w' ++ ',' :: l)

/-- Names and values separated by commas. -/
inductive MembersText : List Char → Prop
  | one {w k w' v t v' : List Char} : Blank w → StringText k → Blank w' → Blank v → ValueText t → Blank v' → MembersText (w ++ ('"' :: k ++ ['"']) ++ w' ++ ':' :: (v ++ t ++ v'))
  | more {w k w' v t v' l : List Char} : Blank w → StringText k → Blank w' → Blank v → ValueText t → Blank v' → MembersText l →
      MembersText (w ++ ('"' :: k ++ ['"']) ++ w' ++ ':' :: (v ++ t ++ v' ++ ',' :: l))
end

/-- Different numbers have different texts, and they are JSON numbers. -/
structure NumbersOk (num : ℚ → List Char) : Prop where
  different : ∀ x y, num x = num y → x = y
  number : ∀ x, NumberText (num x)

/-- `items c` are the items of the dict of functions of `c`. -/
def ItemsOf (items : FRC → List (Nat × RC)) (c : FRC) : Prop := ((items c).map Prod.fst).Nodup ∧ ∀ i, (items c).lookup i = c.funs i

/-- The same picture: nodes with their positions, edges with their ends, capacities and travel times, colours of the commodities, and on every edge the same inflow and outflow rates of every
commodity and the same queue, as functions with break points, values and domains. -/
structure SamePicture {P Q : Type} (n : Network P) (positions : List (Nat × ℚ × ℚ)) (colours : List (Nat × List Char)) (s : DFlow) (n' : Network Q) (positions' : List (Nat × ℚ × ℚ))
    (colours' : List (Nat × List Char)) (s' : DFlow) : Prop where
  nodes : n.graph.nodes = n'.graph.nodes
  position : ∀ v ∈ n.graph.nodes, positions.lookup v = positions'.lookup v
  edges : n.graph.edges.length = n'.graph.edges.length
  ends : ∀ k r r' : Nat, n.graph.edges[k]? = some r → n'.graph.edges[k]? = some r' → n.graph.nodeFrom r = n'.graph.nodeFrom r' ∧ n.graph.nodeTo r = n'.graph.nodeTo r'
  capacity : ∀ k : Nat, k < n.graph.edges.length → n.capacity[k]? = n'.capacity[k]?
  travelTime : ∀ k : Nat, k < n.graph.edges.length → n.travelTime[k]? = n'.travelTime[k]?
  commodities : n.commodities.length = n'.commodities.length
  colour : ∀ i : Nat, i < n.commodities.length → colours.lookup i = colours'.lookup i
  inflow : ∀ e : Nat, e < n.graph.edges.length → ∀ i, (s.inflow e).funs i = (s'.inflow e).funs i
  outflow : ∀ e : Nat, e < n.graph.edges.length → ∀ i, (s.outflow e).funs i = (s'.outflow e).funs i
  queue : ∀ e : Nat, e < n.graph.edges.length → s.queues e = s'.queues e

end Verif.Spec
