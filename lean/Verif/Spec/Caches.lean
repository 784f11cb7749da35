import Verif.Model.Caches

/-! Functions as plain values, without caches, objects and shared lists; and what a program must not do for this view to be right. -/

namespace Verif.Spec
open Verif Verif.Caching

/-- A function that the program holds: its contents; which functions were made from the same list of times (`family`); whether it may be extended (not if it came
out of `compose`); and whether it may still be used (not after a relative was extended). -/
structure Held where
  fn : PL
  family : Nat
  extendable : Bool
  usable : Bool

/-- After `h` was extended its relatives must not be used. -/
def outdate (vs : List Held) (h family : Nat) : List Held :=
  vs.mapIdx (fun j v => if j ≠ h ∧ v.extendable = true ∧ v.family = family then { v with usable := false } else v)

/-- What is left of `get_edge_loads` after the difference: assertions and the repair of the left end (src/core/dynamic_flow.py:247-255). -/
def repairLoad (l : PL) : Py PL := do
  pyAssert (l.lo = ((0 : ℚ) : WithBot ℚ))
  let v ← l.eval 0
  pyAssert (|v| < 1 / 10 ^ 10)
  let v0 ← rd l.values 0
  let l : PL := if v0 ≠ 0 then { l with times := 0 :: l.times, values := 0 :: l.values } else l
  pure { l with first := 0, lo := ⊥ }

/-- One call on plain values: the number returned, if any, or the exception, and the functions held after it. -/
def plainStep (comp : PL → PL → Prog PL) (vs : List Held) : Call → Py (Option ℚ) × List Held
  | .ask p args =>
    match (do let fs ← handles (vs.map Held.fn) args; (p fs).plain fs : Py ℚ) with
    | .error e => (.error e, vs)
    | .ok v => (.ok (some v), vs)
  | .make p args =>
    match (do let fs ← handles (vs.map Held.fn) args; (p fs).plain fs : Py PL) with
    | .error e => (.error e, vs)
    | .ok f => (.ok none, vs ++ [⟨f, vs.length, true, true⟩])
  | .alias p h =>
    match (do let v ← rd vs h; let f ← (p v.fn).plain [v.fn]; pure (v, f) : Py (Held × PL)) with
    | .error e => (.error e, vs)
    | .ok (v, f) => (.ok none, vs ++ [⟨{ f with times := v.fn.times }, v.family, v.extendable, true⟩])
  | .compose g f =>
    match (do let g ← rd vs g; let f ← rd vs f; (comp g.fn f.fn).plain [g.fn, f.fn] : Py PL) with
    | .error e => (.error e, vs)
    | .ok r => (.ok none, vs ++ [⟨r, vs.length, false, true⟩])
  | .extend h time slope =>
    match (do let v ← rd vs h; let f ← v.fn.extendWithSlope time slope; pure (v, f) : Py (Held × PL)) with
    | .error e => (.error e, vs)
    | .ok (v, f) => (.ok none, outdate (vs.set h { v with fn := f }) h v.family)
  | .deplete h time =>
    match (do let v ← rd vs h; let f ← v.fn.extendWithSlope time 0; pure (v, f) : Py (Held × PL)) with
    | .error e => (.error e, vs)
    | .ok (v, f) =>
      match (do let l ← rdLast f.values; pyAssert (|l| < 1000 * eps) : Py Unit) with
      | .error e => (.error e, outdate (vs.set h { v with fn := f }) h v.family)
      | .ok _ => (.ok none, outdate (vs.set h { v with fn := { f with values := f.values.dropLast ++ [0] } }) h v.family)
  | .load p args =>
    match (do let fs ← handles (vs.map Held.fn) args; let l ← (p fs).plain fs; repairLoad l : Py PL) with
    | .error e => (.error e, vs)
    | .ok f => (.ok none, vs ++ [⟨f, vs.length, true, true⟩])

/-- A series of calls: what each of them returned, and the functions held at the end. -/
def plainRun (comp : PL → PL → Prog PL) (vs : List Held) : List Call → List (Py (Option ℚ)) × List Held
  | [] => ([], vs)
  | c :: cs => let (r, vs) := plainStep comp vs c; let (rs, vs) := plainRun comp vs cs; (r :: rs, vs)

/-- The functions a call uses may be used. -/
def Usable (vs : List Held) (args : List Nat) : Prop := ∀ h ∈ args, ∀ v, vs[h]? = some v → v.usable = true

/-- What a program may do: it uses no function after a relative of it was extended, extends nothing that came out of `compose`, and writes past `extend_with_slope`
only as src/core/dynamic_flow.py does: the end of a queue that is falling, and the left end of a load that starts with value 0 and slope 0. -/
def Allowed (vs : List Held) : Call → Prop
  | .ask _ args => Usable vs args
  | .make _ args => Usable vs args
  | .alias _ h => Usable vs [h]
  | .compose g f => Usable vs [g, f]
  | .extend h _ _ => Usable vs [h] ∧ ∀ v, vs[h]? = some v → v.extendable = true
  | .deplete h _ => Usable vs [h] ∧ ∀ v, vs[h]? = some v → v.extendable = true ∧ eps < |v.fn.last|
  | .load p args => Usable vs args ∧ ∀ fs l, handles (vs.map Held.fn) args = .ok fs → (p fs).plain fs = .ok l → l.first = 0 ∧ l.values.head? = some 0

/-- All calls of a series are allowed. -/
def Careful (comp : PL → PL → Prog PL) : List Held → List Call → Prop
  | _, [] => True
  | vs, c :: cs => Allowed vs c ∧ Careful comp (plainStep comp vs c).2 cs

/-- The edge loads of flows, without cache. -/
def freshLoads (net : EdgeData) (edges : Nat) : List DFlow → List FlowUse → List (Py (Option (List PL)))
  | _, [] => []
  | fs, .extend s l T :: us =>
    match (do let f ← rd fs s; f.extend net l T : Py (DFlow × List Nat)) with
    | .error e => .error e :: freshLoads net edges fs us
    | .ok (f, _) => .ok none :: freshLoads net edges (fs.set s f) us
  | fs, .loads s :: us =>
    (match (do let f ← rd fs s; edgeLoads edges f : Py (List PL)) with
    | .error e => .error e
    | .ok ls => .ok (some ls)) :: freshLoads net edges fs us

end Verif.Spec
