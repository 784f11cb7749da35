import Verif.Model.Arrays
import Mathlib.Order.WithBot
import Mathlib.Algebra.Order.AbsoluteValue.Basic

/-! Model of src/utilities/piecewise_linear.py.

Arguments and values are exact rationals. Only domain ends can be infinite: the left end is a
`WithBot ℚ`, the right end a `WithTop ℚ`. `lru_cache`, and lists shared
between functions, are in Model/Caches; here functions are plain values (C110). -/

namespace Verif

/-- `l[i]` for an index that may be negative (Python wraps around once). -/
def rdI {α : Type _} (l : List α) (i : Int) : Py α :=
  if 0 ≤ i then rd l i.toNat
  else if (l.length : Int) + i < 0 then .error .index
  else rd l ((l.length : Int) + i).toNat

/-- Division: `ZeroDivisionError` on a zero divisor. -/
def pyDiv (a b : ℚ) : Py ℚ := if b = 0 then .error .zeroDiv else .ok (a / b)

/-- An extended value: minus infinity, a number, or plus infinity. -/
abbrev EVal := WithBot (WithTop ℚ)

/-- A finite extended value. -/
def EVal.fin (q : ℚ) : EVal := ((q : WithTop ℚ) : WithBot (WithTop ℚ))

/-- State of a `PiecewiseLinear` (src/utilities/piecewise_linear.py:10-15). -/
structure PL where
  times : List ℚ
  values : List ℚ
  first : ℚ
  last : ℚ
  lo : WithBot ℚ
  hi : WithTop ℚ
  deriving DecidableEq

namespace PL

/-- `times[i] < times[i+1] - eps` for all `i` (src/utilities/piecewise_linear.py:51-53). -/
def gapped : List ℚ → Bool
  | a :: b :: l => decide (a < b - eps) && gapped (b :: l)
  | _ => true

/-- `PiecewiseLinear(...)` with its assertions (src/utilities/piecewise_linear.py:29-53). Values are
finite by type. -/
def new (times values : List ℚ) (first last : ℚ) (lo : WithBot ℚ) (hi : WithTop ℚ) : Py PL := do
  pyAssert (values.length = times.length ∧ times.length ≥ 1)
  pyAssert (∀ t ∈ times, lo ≤ (t : WithBot ℚ) ∧ (t : WithTop ℚ) ≤ hi)
  pyAssert (gapped times = true)
  pure { times := times, values := values, first := first, last := last, lo := lo, hi := hi }

/-- `domain[0] <= at <= domain[1]`. -/
def inDom (f : PL) (x : ℚ) : Prop := f.lo ≤ (x : WithBot ℚ) ∧ (x : WithTop ℚ) ≤ f.hi

instance (f : PL) (x : ℚ) : Decidable (f.inDom x) := by unfold inDom; infer_instance

/-- `gradient` (src/utilities/piecewise_linear.py:176-189). -/
def gradient (f : PL) (i : Int) : Py ℚ := do
  pyAssert (-1 ≤ i ∧ i < f.times.length)
  if i = -1 then pure f.first
  else if i = (f.times.length : Int) - 1 then pure f.last
  else do
    let v1 ← rdI f.values (i + 1)
    let v0 ← rdI f.values i
    let t1 ← rdI f.times (i + 1)
    let t0 ← rdI f.times i
    pyDiv (v1 - v0) (t1 - t0)

/-- `_eval_with_rank` for a finite argument (src/utilities/piecewise_linear.py:152-174). -/
def evalWithRank (f : PL) (x : ℚ) (rnk : Int) : Py ℚ := do
  pyAssert (f.inDom x)
  pyAssert (-1 ≤ rnk ∧ rnk ≤ f.times.length)
  let t0 ← rd f.times 0
  pyAssert (rnk ≠ -1 ∨ x ≤ t0)
  let tl ← rdLast f.times
  pyAssert (rnk ≠ (f.times.length : Int) - 1 ∨ x > tl)
  if -1 < rnk ∧ rnk < (f.times.length : Int) - 1 then do
    let a ← rdI f.times rnk
    let b ← rdI f.times (rnk + 1)
    pyAssert (a < x ∧ x ≤ b)
  if rnk = -1 then do
    let g ← f.gradient rnk
    let v0 ← rd f.values 0
    pure (v0 + (x - t0) * g)
  else if rnk = (f.times.length : Int) - 1 then do
    let g ← f.gradient rnk
    let vl ← rdLast f.values
    pure (vl + (x - tl) * g)
  else do
    let v ← rdI f.values rnk
    let t ← rdI f.times rnk
    let g ← f.gradient rnk
    pure (v + (x - t) * g)

/-- `eval` / `__call__` at a finite argument (src/utilities/piecewise_linear.py:55-63). -/
def eval (f : PL) (x : ℚ) : Py ℚ := do
  pyAssert (f.inDom x)
  let rnk ← elemRank f.times x
  f.evalWithRank x rnk

/-- The `while rnk >= 0 and self.times[rnk] >= at` loop (src/utilities/piecewise_linear.py:132-134);
the argument is `rnk + 1`, the result is the final `rnk`. -/
def fromEndLoop (times : List ℚ) (x : ℚ) : Nat → Py Int
  | 0 => .ok (-1)
  | n + 1 => do
    let t ← rd times n
    if t ≥ x then fromEndLoop times x n else pure (n : Int)

/-- `eval_from_end` (src/utilities/piecewise_linear.py:124-135). -/
def evalFromEnd (f : PL) (x : ℚ) : Py ℚ := do
  pyAssert (f.inDom x)
  let rnk ← fromEndLoop f.times x f.times.length
  f.evalWithRank x rnk

/-- `_find_rnk_between` (src/utilities/piecewise_linear.py:65-78). Its loop is that of `elem_rank`. -/
def findRnkBetween (arr : List ℚ) (x : ℚ) (minRnk maxRnk : Int) : Py Int := do
  let high ← elemRankLoop arr x ((maxRnk + 1).toNat + 1) (minRnk + 1).toNat (maxRnk + 1).toNat
  pure ((high : Int) - 1)

/-- `_recursive_eval_sorted_array` (src/utilities/piecewise_linear.py:80-106). The base-case loop over
`range(start_index + 1, end_index)` with `end_index - start_index < 2` is empty. -/
def recEvalSorted (f : PL) (times : List ℚ) :
    Nat → Nat → Nat → Int → Int → List ℚ → Py (List ℚ)
  | 0, _, _, _, _, _ => .error .fuel
  | fuel + 1, start, stop, startRnk, endRnk, values =>
    if stop - start < 2 then .ok values
    else do
      let mid := (start + stop) / 2
      let x ← rd times mid
      let midRnk ← findRnkBetween f.times x startRnk endRnk
      let v ← f.evalWithRank x midRnk
      let values := values.set mid v
      let values ← recEvalSorted f times fuel start mid startRnk midRnk values
      recEvalSorted f times fuel mid stop midRnk endRnk values

/-- `eval_sorted_array` (src/utilities/piecewise_linear.py:108-122). -/
def evalSortedArray (f : PL) (times : List ℚ) : Py (List ℚ) :=
  if times.length < 2 then times.mapM f.eval
  else do
    let values : List ℚ := List.replicate times.length 0
    let x0 ← rd times 0
    let firstRnk ← elemRank f.times x0
    let v0 ← f.evalWithRank x0 firstRnk
    let values := values.set 0 v0
    let xl ← rdLast times
    let lastRnk ← findRnkBetween f.times xl firstRnk ((f.times.length : Int) - 1)
    let vl ← f.evalWithRank xl lastRnk
    let values := values.set (times.length - 1) vl
    recEvalSorted f times times.length 0 (times.length - 1) firstRnk lastRnk values

/-- The loop of `simplify` (src/utilities/piecewise_linear.py:143-147): `i` is the current index. -/
def simplifyLoop (f : PL) : Nat → Nat → List ℚ → List ℚ → Py (List ℚ × List ℚ)
  | 0, _, ts, vs => .ok (ts, vs)
  | n + 1, i, ts, vs => do
    let g0 ← f.gradient (i : Int)
    let g1 ← f.gradient ((i : Int) + 1)
    if |g0 - g1| ≥ 1000 * eps then do
      let t ← rd f.times (i + 1)
      let v ← rd f.values (i + 1)
      simplifyLoop f n (i + 1) (ts ++ [t]) (vs ++ [v])
    else simplifyLoop f n (i + 1) ts vs

/-- `simplify` (src/utilities/piecewise_linear.py:137-150). -/
def simplify (f : PL) : Py PL := do
  let t0 ← rd f.times 0
  let v0 ← rd f.values 0
  let (ts, vs) ← simplifyLoop f (f.times.length - 1) 0 [t0] [v0]
  new ts vs f.first f.last f.lo f.hi

/-- `__neg__` (src/utilities/piecewise_linear.py:191-198). -/
def neg (f : PL) : Py PL :=
  new f.times (f.values.map (fun v => -v)) (-f.first) (-f.last) f.lo f.hi

/-- `new_domain[0] < new_domain[1]` for a left and a right end. -/
def ltEnds : WithBot ℚ → WithTop ℚ → Bool
  | some a, some b => decide (a < b)
  | _, _ => true

/-- Cutting the merged times at the left end (src/utilities/piecewise_linear.py:225-231). -/
def cutLeft (times : List ℚ) : WithBot ℚ → Py (List ℚ)
  | none => .ok times
  | some d => do
    let t0 ← rd times 0
    if t0 < d then do
      let rnk ← elemRank times d
      let t ← rdI times (rnk + 1)
      if t = d then pure (times.drop (rnk + 1).toNat)
      else pure (d :: times.drop (rnk + 1).toNat)
    else pure times

/-- Cutting the merged times at the right end (src/utilities/piecewise_linear.py:232-238). -/
def cutRight (times : List ℚ) : WithTop ℚ → Py (List ℚ)
  | none => .ok times
  | some d => do
    let tl ← rdLast times
    if tl > d then do
      let rnk ← elemRank times d
      let t ← rdI times (rnk + 1)
      if t = d then pure (times.take (rnk + 2).toNat)
      else pure (times.take (rnk + 1).toNat ++ [d])
    else pure times

/-- `plus` / `__add__` (src/utilities/piecewise_linear.py:205-244). -/
def plus (f g : PL) : Py PL := do
  let lo := max f.lo g.lo
  let hi := min f.hi g.hi
  pyAssert (ltEnds lo hi = true)
  let times := mergeSorted f.times g.times
  let times ← cutLeft times lo
  let times ← cutRight times hi
  let values ← times.mapM (fun x => do
    let a ← f.eval x
    let b ← g.eval x
    pure (a + b))
  new times values (f.first + g.first) (f.last + g.last) lo hi

/-- `__sub__` (src/utilities/piecewise_linear.py:200-203). -/
def sub (f g : PL) : Py PL := do
  let n ← g.neg
  f.plus n

/-- `inverse` (src/utilities/piecewise_linear.py:246-266). -/
def inverse (f : PL) (x : ℚ) (i : Int) : Py ℚ := do
  pyAssert (-1 ≤ i ∧ i < f.times.length)
  if i = -1 then do
    let g ← f.gradient i
    let v0 ← rd f.values 0
    pyAssert ((g > 0 ∧ x ≤ v0) ∨ (g < 0 ∧ x ≥ v0))
    let t0 ← rd f.times 0
    let d ← pyDiv (x - v0) g
    pure (t0 + d)
  else if i = (f.times.length : Int) - 1 then do
    let g ← f.gradient i
    let v0 ← rd f.values 0
    pyAssert ((g > 0 ∧ x ≥ v0) ∨ (g < 0 ∧ x ≤ v0))
    let tl ← rdLast f.times
    let vl ← rdLast f.values
    let d ← pyDiv (x - vl) g
    pure (tl + d)
  else do
    let v0 ← rdI f.values i
    let v1 ← rdI f.values (i + 1)
    pyAssert (v0 < v1 ∨ v0 > v1)
    pyAssert ((v0 ≤ x ∧ x ≤ v1) ∨ (v0 ≥ x ∧ x ≥ v1))
    let l ← pyDiv (x - v1) (v0 - v1)
    let t0 ← rdI f.times i
    let t1 ← rdI f.times (i + 1)
    pure (l * t0 + (1 - l) * t1)

/-- `is_monotone` (src/utilities/piecewise_linear.py:404-407). -/
def isMonotone (f : PL) : Bool :=
  let rec go : List ℚ → Bool
    | a :: b :: l => decide (a ≤ b) && go (b :: l)
    | _ => true
  go f.values

/-- `self(self.domain[0])` (src/utilities/piecewise_linear.py:162-167 for an infinite argument): the
value at the left end. At minus infinity the result is `values[0]` for slope 0 and otherwise an
infinity whose sign is opposite to the slope's. -/
def evalLo (f : PL) : Py EVal :=
  match f.lo with
  | some d => do
    let v ← f.eval d
    pure (EVal.fin v)
  | none => do
    let v0 ← rd f.values 0
    if f.first = 0 then pure (EVal.fin v0)
    else if f.first > 0 then pure ⊥
    else pure ⊤

/-- `self(self.domain[1])` (src/utilities/piecewise_linear.py:168-173 for an infinite argument). -/
def evalHi (f : PL) : Py EVal :=
  match f.hi with
  | some d => do
    let v ← f.eval d
    pure (EVal.fin v)
  | none => do
    let vl ← rdLast f.values
    if f.last = 0 then pure (EVal.fin vl)
    else if f.last > 0 then pure ⊤
    else pure ⊥

/-- `max(self.domain[0], x)`. -/
def maxLo : WithBot ℚ → ℚ → ℚ
  | some d, x => max d x
  | none, x => x

/-- `min_t_above` (src/utilities/piecewise_linear.py:416-423). -/
def minTAbove (f : PL) (bound : ℚ) : Py ℚ := do
  pyAssert (f.isMonotone = true)
  let top ← f.evalHi
  pyAssert (EVal.fin bound ≤ top)
  let rnk ← elemRank f.values bound
  let t ← f.inverse bound rnk
  pure (maxLo f.lo t)

/-- The search `for index_j ...: if values[index_j] > bound` (src/utilities/piecewise_linear.py:437-441):
the first position with a value above the bound, minus one. -/
def firstAbove (bound : ℚ) : List ℚ → Int → Option Int
  | [], _ => none
  | v :: l, j => if v > bound then some (j - 1) else firstAbove bound l (j + 1)

/-- `max_t_below` (src/utilities/piecewise_linear.py:427-448). A returned `⊤` is an infinite right end.
`dflt = none` is Python's `None`; the outer `none` result is Python's `None`. -/
def maxTBelow (f : PL) (bound : ℚ) (dflt : Option ℚ) : Py (Option (WithTop ℚ)) := do
  pyAssert (f.isMonotone = true)
  let bot ← f.evalLo
  pyAssert (dflt.isSome = true ∨ bot ≤ EVal.fin bound)
  if bot > EVal.fin (bound + eps) then pure (dflt.map (fun (d : ℚ) => (d : WithTop ℚ)))
  else
    match firstAbove bound f.values 0 with
    | some i => do
      let t ← f.inverse bound i
      pure (some (t : WithTop ℚ))
    | none => do
      let top ← f.evalHi
      if top ≤ EVal.fin bound then pure (some f.hi)
      else do
        let t ← f.inverse bound ((f.times.length : Int) - 1)
        pure (some (t : WithTop ℚ))

/-- The loop of `ensure_monotone` (src/utilities/piecewise_linear.py:455-458). -/
def ensureLoop (am : Bool) : List ℚ → Py (List ℚ)
  | [] => .ok []
  | [v] => .ok [v]
  | a :: b :: l => do
    pyAssert (am = false ∨ a ≤ b + eps)
    let r ← ensureLoop am (max a b :: l)
    pure (a :: r)
termination_by l => l.length

/-- `ensure_monotone` (src/utilities/piecewise_linear.py:450-465). -/
def ensureMonotone (f : PL) (am : Bool) : Py PL := do
  let vs ← ensureLoop am f.values
  new f.times vs (max 0 f.first) (max 0 f.last) f.lo f.hi

/-- `precision = eps * 1000` (src/utilities/piecewise_linear.py:477). -/
def precision : ℚ := eps * 1000

/-- `f.times[ind_f + 1] if ind_f < len(f.times) - 1 else f.domain[1]`
(src/utilities/piecewise_linear.py:487-492). -/
def nextTime (f : PL) (ind : Nat) : Py (WithTop ℚ) :=
  if ind + 1 < f.times.length then do
    let t ← rd f.times (ind + 1)
    pure (t : WithTop ℚ)
  else pure f.hi

/-- The loop of `smaller_equals` (src/utilities/piecewise_linear.py:486-505): `some false` is the early
`return False`, `none` leaves the loop. First argument: fuel. The next time is finite because one of
the two functions still has a break point; the infinite branch is unreachable. -/
def smallerLoop (f g : PL) : Nat → Nat → Nat → Py (Option Bool)
  | 0, _, _ => .error .fuel
  | fuel + 1, i, j =>
    if i + 1 < f.times.length ∨ j + 1 < g.times.length then do
      let nf ← f.nextTime i
      let ng ← g.nextTime j
      match min nf ng with
      | none => .error .fuel
      | some n => do
        let a ← f.evalWithRank n i
        let b ← g.evalWithRank n j
        if a > b + precision then pure (some false)
        else
          let i := if nf = (n : WithTop ℚ) then i + 1 else i
          let j := if ng = (n : WithTop ℚ) then j + 1 else j
          if (n : WithTop ℚ) = g.hi then pure none else smallerLoop f g fuel i j
    else pure none

/-- `f.domain[1] < g.domain[1] - precision` (src/utilities/piecewise_linear.py:479). -/
def endsBefore : WithTop ℚ → WithTop ℚ → Bool
  | some a, some b => decide (a < b - precision)
  | some _, none => true
  | none, _ => false

/-- `smaller_equals` (src/utilities/piecewise_linear.py:467-512). -/
def smallerEquals (f g : PL) : Py Bool := do
  let f0 ← rd f.times 0
  let g0 ← rd g.times 0
  pyAssert ((f0 : WithBot ℚ) = f.lo ∧ f.lo = (g0 : WithBot ℚ) ∧ (g0 : WithBot ℚ) = g.lo)
  if endsBefore f.hi g.hi = true then pure false
  else do
    let fv ← rd f.values 0
    let gv ← rd g.values 0
    if fv > gv + precision then pure false
    else do
      let r ← smallerLoop f g (f.times.length + g.times.length + 1) 0 0
      match r with
      | some b => pure b
      | none =>
        match g.hi with
        | some d => do
          let a ← f.eval d
          let b ← g.eval d
          pure (decide (a ≤ b + precision))
        | none => do
          let a ← f.gradient ((f.times.length : Int) - 1)
          let b ← g.gradient ((g.times.length : Int) - 1)
          pure (decide (a ≤ b + precision))

/-- `extend_with_slope` (src/utilities/piecewise_linear.py:514-522). -/
def extendWithSlope (f : PL) (time slope : ℚ) : Py PL := do
  let tl ← rdLast f.times
  pyAssert (time ≥ tl - eps)
  if |f.last - slope| ≤ eps then pure f
  else if |time - tl| > eps then do
    let vl ← rdLast f.values
    let val := vl + (time - tl) * f.last
    pure { f with values := f.values ++ [val], times := f.times ++ [time], last := slope }
  else pure { f with last := slope }

/-- `restrict` to a domain with finite ends (src/utilities/piecewise_linear.py:532-547). -/
def restrict (f : PL) (a b : ℚ) : Py PL := do
  pyAssert (f.lo ≤ (a : WithBot ℚ) ∧ a ≤ b ∧ (b : WithTop ℚ) ≤ f.hi)
  let r ← elemRank f.times a
  let firstInd := r + 1
  let lastInd ← elemLrank f.times b
  let firstSlope ← f.gradient (firstInd - 1)
  let lastSlope ← f.gradient lastInd
  if firstInd < lastInd + 1 then
    new ((f.times.drop firstInd.toNat).take (lastInd + 1 - firstInd).toNat)
      ((f.values.drop firstInd.toNat).take (lastInd + 1 - firstInd).toNat) firstSlope lastSlope a b
  else do
    let v ← f.eval a
    new [a] [v] firstSlope lastSlope a b

/-- The `while` loop of `integrate` (src/utilities/piecewise_linear.py:575-581): returns the value and
the final rank. First argument: fuel. -/
def integrateLoop (f : PL) (stop : ℚ) : Nat → Nat → ℚ → Py (ℚ × Nat)
  | 0, _, _ => .error .fuel
  | fuel + 1, rnk, value =>
    if rnk + 1 < f.times.length then do
      let t1 ← rd f.times (rnk + 1)
      if t1 ≤ stop then do
        let v1 ← rd f.values (rnk + 1)
        let v0 ← rd f.values rnk
        let t0 ← rd f.times rnk
        integrateLoop f stop fuel (rnk + 1) (value + (v1 + v0) / 2 * (t1 - t0))
      else pure (value, rnk)
    else pure (value, rnk)

/-- `integrate` (src/utilities/piecewise_linear.py:560-584). -/
def integrate (f : PL) (start stop : ℚ) : Py ℚ := do
  pyAssert (f.lo ≤ (start : WithBot ℚ) ∧ start < stop ∧ (stop : WithTop ℚ) ≤ f.hi)
  pyAssert (∀ v ∈ f.values, 0 ≤ v)
  let rnk ← elemLrank f.times start
  if rnk = (f.times.length : Int) - 1 then do
    let a ← f.eval start
    let b ← f.eval stop
    pure ((a + b) / 2 * (stop - start))
  else do
    let v1 ← rdI f.values (rnk + 1)
    let a ← f.eval start
    let t1 ← rdI f.times (rnk + 1)
    let value := 0 + (v1 + a) / 2 * (t1 - start)
    let (value, r) ← integrateLoop f stop (f.times.length + 1) (rnk + 1).toNat value
    let b ← f.eval stop
    let v ← rd f.values r
    let t ← rd f.times r
    pure (value + (b + v) / 2 * (stop - t))

end PL
end Verif
