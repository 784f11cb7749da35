import Verif.Model.PiecewiseLinear

/-! Model of `compose` of src/utilities/piecewise_linear.py. The cache is in Model/Caches. -/

namespace Verif
namespace PL

/-- `f.image()` (src/utilities/piecewise_linear.py:409-411). -/
def image (f : PL) : Py (EVal × EVal) := do
  pyAssert (f.isMonotone = true)
  let a ← f.evalLo
  let b ← f.evalHi
  pure (a, b)

/-- `g.domain[0] <= x + eps` (src/utilities/piecewise_linear.py:276). -/
def startsBelow : WithBot ℚ → EVal → Bool
  | none, _ => true
  | some _, none => false
  | some _, some none => true
  | some a, some (some b) => decide (a ≤ b + eps)

/-- `g.domain[1] >= x - eps` (src/utilities/piecewise_linear.py:276). -/
def endsAbove : WithTop ℚ → EVal → Bool
  | none, _ => true
  | some _, none => true
  | some _, some none => false
  | some a, some (some b) => decide (a ≥ b - eps)

/-- `max(f_image[0], t)` (src/utilities/piecewise_linear.py:294,306). `f_image[0]` is plus infinity only for a function that decreases from plus infinity; what the code
then does with infinite times is not modelled: it is an error here. -/
def maxImage : EVal → ℚ → Py ℚ
  | none, t => .ok t
  | some none, _ => .error .assertion
  | some (some a), t => .ok (max a t)

/-- `len(times) == 0 or t > times[-1] + eps`. -/
def isLater (ts : List ℚ) (t : ℚ) : Bool :=
  match ts.getLast? with
  | none => true
  | some l => decide (t > l + eps)

/-- Appending a point if it is later than the last one (src/utilities/piecewise_linear.py:297-299,301-303,309-311). -/
def addPoint (g : PL) (ts vs : List ℚ) (t x : ℚ) : Py (List ℚ × List ℚ) :=
  if isLater ts t then do
    let v ← g.eval x
    pure (ts ++ [t], vs ++ [v])
  else pure (ts, vs)

/-- The body of the `while` loops of `compose` (src/utilities/piecewise_linear.py:294-299,306-311), without the increment. -/
def composePoint (g f : PL) (lo : EVal) (i : Int) (t : ℚ) (ts vs : List ℚ) : Py (List ℚ × List ℚ) := do
  let x ← maxImage lo t
  let m ← f.gradient i
  if m ≠ 0 then do
    let s ← f.inverse x i
    addPoint g ts vs s x
  else pure (ts, vs)

/-- The `while` loops of `compose` (src/utilities/piecewise_linear.py:293-300 with `bound` = `f.values[i_f + 1]`, and 305-312 with `bound` = `f_image[1]`). The first list is
`g.times[i_g:]`. -/
def composeInner (g f : PL) (lo bound : EVal) (i : Int) : List ℚ → Nat → List ℚ → List ℚ → Py (Nat × List ℚ × List ℚ)
  | [], ig, ts, vs => .ok (ig, ts, vs)
  | t :: rest, ig, ts, vs =>
    if EVal.fin t ≤ bound then do
      let (ts, vs) ← composePoint g f lo i t ts vs
      composeInner g f lo bound i rest (ig + 1) ts vs
    else .ok (ig, ts, vs)

/-- The `for` loop of `compose` (src/utilities/piecewise_linear.py:292-303); the lists are `f.times[i_f + 1:]` and `f.values[i_f + 1:]`. -/
def composeFor (g f : PL) (lo : EVal) : List ℚ → List ℚ → Int → Nat → List ℚ → List ℚ → Py (Nat × List ℚ × List ℚ)
  | t :: rest, v :: vrest, i, ig, ts, vs => do
    let (ig, ts, vs) ← composeInner g f lo (EVal.fin v) i (g.times.drop ig) ig ts vs
    let (ts, vs) ← addPoint g ts vs t v
    composeFor g f lo rest vrest (i + 1) ig ts vs
  | _, _, _, ig, ts, vs => .ok (ig, ts, vs)

/-- `compose` (src/utilities/piecewise_linear.py:268-316). -/
def compose (g f : PL) : Py PL := do
  pyAssert (f.isMonotone = true)
  let (lo, hi) ← f.image
  pyAssert (startsBelow g.lo lo = true ∧ endsAbove g.hi hi = true)
  let rnk ← elemRank (g.times.map EVal.fin) lo
  let m ← g.gradient rnk
  let first := m * f.first
  let ig := (max 0 rnk).toNat
  if ig + 1 ≠ g.times.length then do
    let t ← rd g.times (ig + 1)
    pyAssert (f.lo ≤ (t : WithBot ℚ))
  let (ig, ts, vs) ← composeFor g f lo f.times f.values (-1) ig [] []
  let (ig, ts, vs) ← composeInner g f lo hi ((f.times.length : Int) - 1) (g.times.drop ig) ig ts vs
  let m ← g.gradient ((ig : Int) - 1)
  new ts vs first (m * f.last) f.lo f.hi

end PL
end Verif
