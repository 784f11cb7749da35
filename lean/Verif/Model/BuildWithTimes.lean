import Verif.Model.AvgTravelTime

/-! Model of src/utilities/build_with_times.py. The clock only decides when lines
are logged: `tick k` says whether a second has passed since the last line after step `k`. Printing has no effect on the result. -/

namespace Verif
namespace Builder
variable {P : Type} [DecidableEq P]

/-- The average travel times in the line that is logged (src/utilities/build_with_times.py:55-56); their values are only printed. -/
def observeTimes (n : Network P) (flow : DFlow) : Option (List Nat) → Py Unit
  | none => .ok ()
  | some l => do
    let _ ← mapPy (fun i => AvgTravelTime.avgTravelTime n flow i flow.phi) l
    pure ()

/-- `log_time()` (src/utilities/build_with_times.py:43-62): it reads variables that are bound only once the loop body
has run and reached a milestone, and then the average travel times of the observed commodities. -/
def logTime (n : Network P) (flow : DFlow) (observe : Option (List Nat)) (now milestone : Bool) : Py Unit :=
  if now ∧ milestone then observeTimes n flow observe else .error .name

/-- The milestone part of the loop body (src/utilities/build_with_times.py:66-85): the next milestone and whether the variables are bound.
Of the estimate of the remaining time only matters whether the division raises. -/
def mark (interval phi : ℚ) (milestone : ℚ) (bound : Bool) : Py (ℚ × Bool) :=
  if phi ≥ milestone then do
    let _ ← pyDiv phi interval
    pure (milestone + interval, true)
  else pure (milestone, bound)

/-- The `while` loop (src/utilities/build_with_times.py:64-88). First argument: fuel. -/
def buildLoop (ord : List Nat → List Nat) (preds : P → Predictor) (interval horizon : ℚ) (observe : Option (List Nat)) (suppress : Bool) (tick : Nat → Bool) :
    Nat → Nat → Gen → Builder P → DFlow → ℚ → Bool → Bool → Py (DFlow × Builder P × Bool × Bool)
  | 0, _, _, _, _, _, _, _ => .error .fuel
  | fuel + 1, k, g, b, flow, milestone, now, bound =>
    if flow.phi < horizon then
      match next ord preds g b with
      | (_, _, .error none) => .error .stopIteration
      | (_, _, .error (some e)) => .error e
      | (g, b, .ok flow) => do
        let (milestone, bound) ← mark interval flow.phi milestone bound
        if suppress = false ∧ tick k = true then do
          logTime b.net flow observe true bound
          buildLoop ord preds interval horizon observe suppress tick fuel (k + 1) g b flow milestone true bound
        else buildLoop ord preds interval horizon observe suppress tick fuel (k + 1) g b flow milestone true bound
    else .ok (flow, b, now, bound)

/-- `build_with_times` (src/utilities/build_with_times.py:10-95): the flow that is returned and the builder afterwards. -/
def buildWithTimes (ord : List Nat → List Nat) (preds : P → Predictor) (interval horizon : ℚ) (observe : Option (List Nat)) (suppress : Bool) (tick : Nat → Bool) (fuel : Nat)
    (b : Builder P) : Py (DFlow × Builder P) :=
  match next ord preds .fresh b with
  | (_, _, .error none) => .error .stopIteration
  | (_, _, .error (some e)) => .error e
  | (g, b, .ok flow) => do
    let (flow, b, now, bound) ← buildLoop ord preds interval horizon observe suppress tick fuel 0 g b flow flow.phi false false
    if suppress then pure (flow, b)
    else do
      logTime b.net flow observe now bound
      pure (flow, b)

end Builder
end Verif
