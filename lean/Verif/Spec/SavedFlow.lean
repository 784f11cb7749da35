import Verif.Model.SavedFlow

/-! Uses of a flow object in turn, among them saving it to a file and going on with what is loaded from it. -/

namespace Verif.Spec
open Verif SavedFlow

/-- A use of a flow: a call of `extend`, reading current outflow rates, an average travel time, an edge load; assigning `_network` or `network`; and saving it and going on with the loaded copy. -/
inductive Use (P : Type)
  | extend (l : List (Nat × Rates)) (T : ℚ)
  | look (e : Nat)
  | average (i : Nat) (horizon : ℚ)
  | edgeLoad (e : Nat)
  | reset (n : Network P)
  | annotate (n : Network P)
  | reload (m : Nat)

/-- What is returned. -/
inductive Answer
  | edges (l : List Nat)
  | rates (v : Rates)
  | number (x : ℚ)
  | function (f : PL)
  | nothing

variable {P : Type}

/-- One use. -/
def use (o : Obj P) : Use P → Py (Answer × Obj P)
  | .extend l T => do
    let (c, o) ← SavedFlow.extend o l T
    pure (.edges c, o)
  | .look e => do
    let (v, o) ← SavedFlow.look o e
    pure (.rates v, o)
  | .average i h => do
    let x ← SavedFlow.average o i h
    pure (.number x, o)
  | .edgeLoad e => do
    let f ← o.flow.edgeLoad e
    pure (.function f, o)
  | .reset n => .ok (.nothing, SavedFlow.reset o n)
  | .annotate n => .ok (.nothing, SavedFlow.annotate o n)
  | .reload m => do
    let f ← save o
    let o ← load m f
    pure (.nothing, o)

/-- Uses in turn, up to the first exception. -/
def uses (o : Obj P) : List (Use P) → Py (List Answer × Obj P)
  | [] => .ok ([], o)
  | u :: us => do
    let (a, o) ← use o u
    let (l, o) ← uses o us
    pure (a :: l, o)

end Verif.Spec
