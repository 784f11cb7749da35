import Verif.Model.PiecewiseLinear

/-! Model of src/utilities/right_constant.py. -/

namespace Verif

/-- State of a `RightConstant` (src/utilities/right_constant.py:10-20). -/
structure RC where
  times : List ℚ
  values : List ℚ
  lo : WithBot ℚ
  hi : WithTop ℚ
  deriving DecidableEq

namespace RC

/-- `RightConstant(...)` with its assertions (src/utilities/right_constant.py:32-49). -/
def new (times values : List ℚ) (lo : WithBot ℚ) (hi : WithTop ℚ) : Py RC := do
  pyAssert (values.length = times.length)
  pyAssert (∀ t ∈ times, lo ≤ (t : WithBot ℚ) ∧ (t : WithTop ℚ) ≤ hi)
  pure { times := times, values := values, lo := lo, hi := hi }

/-- `domain[0] <= at <= domain[1]`. -/
def inDom (f : RC) (x : ℚ) : Prop := f.lo ≤ (x : WithBot ℚ) ∧ (x : WithTop ℚ) ≤ f.hi

instance (f : RC) (x : ℚ) : Decidable (f.inDom x) := by unfold inDom; infer_instance

/-- `_eval_with_lrank` (src/utilities/right_constant.py:71-79). -/
def evalWithLrank (f : RC) (x : ℚ) (rnk : Int) : Py ℚ := do
  pyAssert (f.inDom x)
  pyAssert (-1 ≤ rnk ∧ rnk ≤ f.times.length)
  let r ← elemLrank f.times x
  pyAssert (rnk = r)
  if rnk = -1 then rd f.values 0 else rdI f.values rnk

/-- `eval` / `__call__` (src/utilities/right_constant.py:51-52, 66-69). -/
def eval (f : RC) (x : ℚ) : Py ℚ := do
  pyAssert (f.inDom x)
  let rnk ← elemLrank f.times x
  f.evalWithLrank x rnk

/-- The `while rnk >= 0 and self.times[rnk] > at` loop (src/utilities/right_constant.py:61-63); the
argument is `rnk + 1`, the result is the final `rnk`. -/
def fromEndLoop (times : List ℚ) (x : ℚ) : Nat → Py Int
  | 0 => .ok (-1)
  | n + 1 => do
    let t ← rd times n
    if t > x then fromEndLoop times x n else pure (n : Int)

/-- `eval_from_end` (src/utilities/right_constant.py:54-64). -/
def evalFromEnd (f : RC) (x : ℚ) : Py ℚ := do
  pyAssert (f.inDom x)
  let rnk ← fromEndLoop f.times x f.times.length
  f.evalWithLrank x rnk

/-- `extend` (src/utilities/right_constant.py:81-90). -/
def extend (f : RC) (start value : ℚ) : Py RC := do
  let tl ← rdLast f.times
  pyAssert (start ≥ tl - eps)
  let vl ← rdLast f.values
  if |vl - value| ≤ eps then pure f
  else if |start - tl| ≤ eps then pure { f with values := f.values.dropLast ++ [value] }
  else pure { f with times := f.times ++ [start], values := f.values ++ [value] }

/-- A pointer walk `while ptr < len(times) - 1 and times[ptr + 1] <= time: ptr += 1`
(src/utilities/right_constant.py:115-118, 133-137). First argument: fuel. -/
def advance (times : List ℚ) (x : ℚ) : Nat → Nat → Py Nat
  | 0, _ => .error .fuel
  | fuel + 1, ptr =>
    if ptr + 1 < times.length then do
      let t ← rd times (ptr + 1)
      if t ≤ x then advance times x fuel (ptr + 1) else pure ptr
    else pure ptr

/-- The loop of `__radd__` (src/utilities/right_constant.py:112-119). -/
def addLoop (f g : RC) : List ℚ → Nat → Nat → Py (List ℚ)
  | [], _, _ => .ok []
  | x :: xs, lptr, rptr => do
    let lptr ← advance f.times x (f.times.length + 1) lptr
    let rptr ← advance g.times x (g.times.length + 1) rptr
    let a ← rd f.values lptr
    let b ← rd g.values rptr
    let rest ← addLoop f g xs lptr rptr
    pure ((a + b) :: rest)

/-- `__radd__` / `__add__` of two functions (src/utilities/right_constant.py:101-121, 143-144). -/
def add (f g : RC) : Py RC := do
  pyAssert (f.lo = g.lo ∧ f.hi = g.hi)
  let times := mergeSorted f.times g.times
  let values ← addLoop f g times 0 0
  new times values f.lo f.hi

/-- The inner pointer loop of `sum` over all functions (src/utilities/right_constant.py:132-137). -/
def advanceAll (x : ℚ) : List RC → List Nat → Py (List Nat)
  | f :: fs, p :: ps => do
    let p ← advance f.times x (f.times.length + 1) p
    let ps ← advanceAll x fs ps
    pure (p :: ps)
  | _, _ => .ok []

/-- `sum(functions[j].values[ptrs[j]] ...)` (src/utilities/right_constant.py:138-140). -/
def sumAt : List RC → List Nat → Py ℚ
  | f :: fs, p :: ps => do
    let v ← rd f.values p
    let r ← sumAt fs ps
    pure (v + r)
  | _, _ => .ok 0

/-- The loop of `sum` (src/utilities/right_constant.py:131-140). -/
def sumLoop (fs : List RC) : List ℚ → List Nat → Py (List ℚ)
  | [], _ => .ok []
  | x :: xs, ps => do
    let ps ← advanceAll x fs ps
    let v ← sumAt fs ps
    let rest ← sumLoop fs xs ps
    pure (v :: rest)

/-- `RightConstant.sum` (src/utilities/right_constant.py:123-141). -/
def sum (fs : List RC) (lo : WithBot ℚ) (hi : WithTop ℚ) : Py RC :=
  if fs.length = 0 then new [0] [0] lo hi
  else do
    let times ← mergeSortedMany (fs.map RC.times)
    let values ← sumLoop fs times (fs.map (fun _ => 0))
    new times values lo hi

/-- `__neg__` (src/utilities/right_constant.py:146-147). The real code shares the `times` list with the
operand; sharing is not modelled here. -/
def neg (f : RC) : Py RC := new f.times (f.values.map (fun v => -v)) f.lo f.hi

/-- `__sub__` (src/utilities/right_constant.py:149-152). -/
def sub (f g : RC) : Py RC := do
  let n ← g.neg
  f.add n

/-- The loop of `simplify` (src/utilities/right_constant.py:160-164). -/
def simplifyLoop : List ℚ → List ℚ → List ℚ × List ℚ
  | _ :: t1 :: ts, v0 :: v1 :: vs =>
    let (rt, rv) := simplifyLoop (t1 :: ts) (v1 :: vs)
    if |v0 - v1| ≥ 1000 * eps then (t1 :: rt, v1 :: rv) else (rt, rv)
  | _, _ => ([], [])

/-- `simplify` (src/utilities/right_constant.py:154-165). -/
def simplify (f : RC) : Py RC := do
  let t0 ← rd f.times 0
  let v0 ← rd f.values 0
  let (ts, vs) := simplifyLoop f.times f.values
  new (t0 :: ts) (v0 :: vs) f.lo f.hi

/-- The accumulation loop of `integral` (src/utilities/right_constant.py:172-175). -/
def integralLoop (acc : ℚ) : List ℚ → List ℚ → List ℚ
  | t0 :: t1 :: ts, v0 :: vs => acc :: integralLoop (acc + v0 * (t1 - t0)) (t1 :: ts) vs
  | _ :: _, _ => [acc]
  | [], _ => []

/-- `integral` (src/utilities/right_constant.py:167-178). -/
def integral (f : RC) : Py PL := do
  let t0 ← rd f.times 0
  let tl ← rdLast f.times
  pyAssert ((t0 : WithBot ℚ) = f.lo ∧ ((tl + 1 : ℚ) : WithTop ℚ) ≤ f.hi)
  let v0 ← rd f.values 0
  let vl ← rdLast f.values
  PL.new f.times (integralLoop 0 f.times f.values) v0 vl f.lo f.hi

end RC
end Verif
