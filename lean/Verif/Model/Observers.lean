import Verif.Model.PiecewiseLinear
import Verif.Model.RightConstant

/-! Model of `arg_min`, of `equals` and of `reversal`. -/

namespace Verif

/-- The loop of `arg_min` (src/utilities/arrays.py:9-13); the state is `minimum` with `min_item`. The key may raise. -/
def argMinLoop {α : Type} (key : α → Py ℚ) : List α → Option (ℚ × α) → Py (Option (ℚ × α))
  | [], best => .ok best
  | x :: xs, best => do
    let k ← key x
    match best with
    | none => argMinLoop key xs (some (k, x))
    | some b => if k < b.1 then argMinLoop key xs (some (k, x)) else argMinLoop key xs best

/-- `arg_min` (src/utilities/arrays.py:6-14): `None` for nothing. -/
def argMin {α : Type} (key : α → Py ℚ) (l : List α) : Py (Option α) := do
  let r ← argMinLoop key l none
  pure (r.map Prod.snd)

/-- What `other` may be in `equals`: a step function, a piecewise linear function or anything else. -/
inductive Other
  | rc (f : RC)
  | pl (f : PL)
  | thing

/-- `RightConstant.equals` (src/utilities/right_constant.py:92-99). -/
def RC.equals (f : RC) : Other → Bool
  | .rc g => decide (f.values = g.values) && decide (f.times = g.times) && (decide (f.lo = g.lo) && decide (f.hi = g.hi))
  | _ => false

/-- `PiecewiseLinear.equals` (src/utilities/piecewise_linear.py:549-558). -/
def PL.equals (f : PL) : Other → Bool
  | .pl g => decide (f.values = g.values) && decide (f.times = g.times) && (decide (f.lo = g.lo) && decide (f.hi = g.hi)) && decide (f.first = g.first) && decide (f.last = g.last)
  | _ => false

/-- `reversal` (src/utilities/piecewise_linear.py:413-414). -/
def PL.reversal (f : PL) (x : ℚ) : Py (Option (WithTop ℚ)) := f.maxTBelow x none

end Verif
