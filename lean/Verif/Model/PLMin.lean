import Verif.Model.PLCompose

/-! Model of `minimum`, `outer_minimum`, `left_extend` and `right_extend` of src/utilities/piecewise_linear.py. The two functions of the sweep are called `c` and `o`, for
`f[curr_min]` and `f[other]`, with the indices `ic` and `io`; swapping `curr_min` and `other` swaps them. -/

namespace Verif
namespace PL

/-- Appending a time that is later than the last one (src/utilities/piecewise_linear.py:379-380,383-384). -/
def pushTime (ts : List ℚ) (t : ℚ) : List ℚ := if isLater ts t then ts ++ [t] else ts

/-- Is the next break point one of `f[other]` (src/utilities/piecewise_linear.py:353-360)? -/
def nextIsOther (c o : PL) (ic io : Nat) : Py Bool :=
  if io ≥ o.times.length then pure false
  else if ic ≥ c.times.length then pure true
  else do
    let a ← rd o.times io
    let b ← rd c.times ic
    pure (decide (a ≤ b))

/-- The next break point with `curr_min_val` and `curr_other_val` (src/utilities/piecewise_linear.py:364-369). The evaluation comes after the test whether the break point is behind
the domain, see `minStep`. -/
def nextValues (c o : PL) (ic io : Nat) (isOther : Bool) (t : ℚ) : Py (ℚ × ℚ) :=
  if isOther then do
    let vc ← c.eval t
    let vo ← rd o.values io
    pure (vc, vo)
  else do
    let vo ← o.eval t
    let vc ← rd c.values ic
    pure (vc, vo)

/-- Adding the crossing before `t` (src/utilities/piecewise_linear.py:374-380). -/
def addCrossing (c o : PL) (ic io : Nat) (t vc vo : ℚ) (ts : List ℚ) : Py (List ℚ) := do
  let gm ← c.gradient ((ic : Int) - 1)
  let go ← o.gradient ((io : Int) - 1)
  if gm - go > eps then pure (pushTime ts (t + (vo - vc) / (gm - go)))
  else pure ts

/-- State of the sweep. -/
structure Sweep where
  c : PL
  o : PL
  ic : Nat
  io : Nat
  ts : List ℚ

/-- One round of the `while` loop (src/utilities/piecewise_linear.py:353-385); `none` for the `break`. -/
def minStep (hi : WithTop ℚ) (s : Sweep) : Py (Option Sweep) := do
  let isOther ← nextIsOther s.c s.o s.ic s.io
  let t ← if isOther then rd s.o.times s.io else rd s.c.times s.ic
  if (t : WithTop ℚ) > hi then pure none
  else do
    let (vc, vo) ← nextValues s.c s.o s.ic s.io isOther t
    if vo < vc - eps then do
      let ts ← addCrossing s.c s.o s.ic s.io t vc vo s.ts
      if isOther then pure (some ⟨s.o, s.c, s.io + 1, s.ic, pushTime ts t⟩)
      else pure (some ⟨s.o, s.c, s.io, s.ic + 1, ts⟩)
    else if isOther then pure (some ⟨s.c, s.o, s.ic, s.io + 1, s.ts⟩)
    else pure (some ⟨s.c, s.o, s.ic + 1, s.io, pushTime s.ts t⟩)

/-- The `while` loop (src/utilities/piecewise_linear.py:352-385). Every round advances one index: the number of break points left is enough fuel. -/
def minLoop (hi : WithTop ℚ) : Nat → Sweep → Py Sweep
  | 0, s => .ok s
  | fuel + 1, s =>
    if s.ic < s.c.times.length ∨ s.io < s.o.times.length then do
      match ← minStep hi s with
      | none => pure s
      | some s => minLoop hi fuel s
    else pure s

/-- `times[-1]`. -/
def lastTime (ts : List ℚ) : Py ℚ :=
  match ts.getLast? with
  | none => .error .index
  | some t => .ok t

/-- The crossing behind the last break point (src/utilities/piecewise_linear.py:387-400): the times and the last slope. -/
def minTail (hi : WithTop ℚ) (s : Sweep) : Py (List ℚ × ℚ) := do
  let l ← lastTime s.ts
  if (l : WithTop ℚ) < hi then do
    let gm ← s.c.gradient ((s.ic : Int) - 1)
    let go ← s.o.gradient ((s.io : Int) - 1)
    if gm > go + eps then do
      let vc ← s.c.eval l
      let vo ← s.o.eval l
      let t := l + (vo - vc) / (gm - go)
      if l + eps < t ∧ (t : WithTop ℚ) ≤ hi then pure (s.ts ++ [t], s.o.last)
      else pure (s.ts, s.c.last)
    else pure (s.ts, s.c.last)
  else pure (s.ts, s.c.last)

/-- `[min(self(t), otherf(t)) for t in times]` (src/utilities/piecewise_linear.py:401). -/
def minValues (f g : PL) : List ℚ → Py (List ℚ)
  | [] => .ok []
  | t :: rest => do
    let a ← f.eval t
    let b ← g.eval t
    let vs ← minValues f g rest
    pure (min a b :: vs)

/-- The start of the sweep (src/utilities/piecewise_linear.py:346-351). -/
def minStart (f g : PL) (a : ℚ) : Py Sweep := do
  let x ← f.eval a
  let y ← g.eval a
  pure (if x < y then ⟨f, g, 0, 0, []⟩ else ⟨g, f, 0, 0, []⟩)

/-- `lo < hi` for the ends of a domain. -/
def endsLt : WithBot ℚ → WithTop ℚ → Bool
  | some a, some b => decide (a < b)
  | _, _ => true

/-- `minimum` (src/utilities/piecewise_linear.py:332-402). A domain without start fails the second assertion. -/
def minimum (f g : PL) : Py PL := do
  let lo := max f.lo g.lo
  let hi := min f.hi g.hi
  pyAssert (endsLt lo hi = true)
  match lo with
  | none => .error .assertion
  | some a => do
    pyAssert (a ∈ f.times ∨ a ∈ g.times)
    let s ← minStart f g a
    let first := s.c.first
    let s ← minLoop hi (f.times.length + g.times.length) s
    let (ts, last) ← minTail hi s
    let vs ← minValues f g ts
    new ts vs first last a hi

/-- `a > b + eps` for starts of domains. -/
def startsLater : WithBot ℚ → WithBot ℚ → Bool
  | some a, some b => decide (a > b + eps)
  | some _, none => true
  | none, _ => false

/-- `a < b - eps` for ends of domains. -/
def endsEarlier : WithTop ℚ → WithTop ℚ → Bool
  | some a, some b => decide (a < b - eps)
  | some _, none => true
  | none, _ => false

/-- `left_extend` (src/utilities/piecewise_linear.py:586-603); `new_times[-1]` raises if there is none. -/
def leftExtend (f g : PL) : Py PL := do
  pyAssert (startsLater f.lo g.lo = true)
  match f.lo with
  | none => .error .assertion
  | some a => do
    let rnk ← elemRank g.times a
    let ts := g.times.take (rnk + 1).toNat
    let vs := g.values.take (rnk + 1).toNat
    let t0 ← rd f.times 0
    let l ← lastTime ts
    if t0 < l - eps then new (ts ++ f.times.tail) (vs ++ f.values.tail) g.first f.last g.lo f.hi
    else new (ts ++ f.times) (vs ++ f.values) g.first f.last g.lo f.hi

/-- `right_extend` (src/utilities/piecewise_linear.py:605-624): the returned object. That the break points of `self` change as well (the lists are shared) is not modelled: the only
caller, `outer_minimum`, drops `self`. -/
def rightExtend (f g : PL) : Py PL := do
  pyAssert (endsEarlier f.hi g.hi = true)
  match f.hi with
  | none => .error .assertion
  | some b => do
    let rnk ← elemRank g.times b
    let k := (rnk + 1).toNat
    if k ≥ g.times.length then new f.times f.values f.first g.last f.lo g.hi
    else do
      let l ← lastTime f.times
      let t ← rd g.times k
      if l ≥ t - eps then new (f.times ++ g.times.drop (k + 1)) (f.values ++ g.values.drop (k + 1)) f.first g.last f.lo g.hi
      else new (f.times ++ g.times.drop k) (f.values ++ g.values.drop k) f.first g.last f.lo g.hi

/-- The first half of `outer_minimum` (src/utilities/piecewise_linear.py:320-323). -/
def outerLeft (f g m : PL) : Py PL :=
  if startsLater m.lo f.lo then m.leftExtend f
  else if startsLater m.lo g.lo then m.leftExtend g
  else pure m

/-- The second half of `outer_minimum` (src/utilities/piecewise_linear.py:325-328). -/
def outerRight (f g m : PL) : Py PL :=
  if endsEarlier m.hi f.hi then m.rightExtend f
  else if endsEarlier m.hi g.hi then m.rightExtend g
  else pure m

/-- `outer_minimum` (src/utilities/piecewise_linear.py:318-330). -/
def outerMinimum (f g : PL) : Py PL := do
  let m ← f.minimum g
  let m ← outerLeft f g m
  outerRight f g m

end PL
end Verif
