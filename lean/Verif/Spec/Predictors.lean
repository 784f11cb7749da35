import Verif.Model.Predictors
import Verif.Spec.DynamicFlow

/-! What predictions should look like. -/

namespace Verif.Spec
open Verif

/-- The function `p` can be evaluated everywhere and has the values of `F`. -/
def Evals (p : PL) (F : ℚ → ℚ) : Prop := ∀ x, p.eval x = .ok (F x)

/-- Up to `t`, `F` is affine with slope `σ` for a while. -/
def LeftSlope (F : ℚ → ℚ) (t σ : ℚ) : Prop := ∃ s < t, ∀ x, s ≤ x → x ≤ t → F x = F t + σ * (x - t)

/-- From `t` on, `F` starts at `cur` and follows the slope `σ` for `h` time units or until it is 0; then it stays. -/
def Extrapolates (cur σ h t : ℚ) (F : ℚ → ℚ) : Prop := ∀ x, t ≤ x → F x = max 0 (cur + σ * min (x - t) h)

/-- A predicted queue that could occur: it starts at the current queue, is never negative and never drains faster than with the
capacity. -/
structure Physical (cap t cur : ℚ) (F : ℚ → ℚ) : Prop where
  start : F t = cur
  nonneg : ∀ x, t ≤ x → 0 ≤ F x
  drain : ∀ x y, t ≤ x → x ≤ y → F x - F y ≤ cap * (y - x)

/-- Two predictions with the same functions from time `t` on. -/
def SamePrediction (t : ℚ) (ps qs : List PL) : Prop :=
  ps.length = qs.length ∧ ∀ (e : Nat) (p q : PL), ps[e]? = some p → qs[e]? = some q → ∀ x, t ≤ x → p.eval x = q.eval x

/-- The flow `s` has been made by valid calls on a valid network. -/
def Reached (net : EdgeData) (s : DFlow) : Prop :=
  NetOk net ∧ ∃ s0 calls, DFlow.init = .ok s0 ∧ CallsOk net s0 calls ∧ runFlow net s0 calls = .ok s

/-- The break points of the cumulative in- and outflow of the first `m` edges are more than `eps` apart (see C36). -/
def LoadsApart (m : Nat) (s : DFlow) : Prop := ∀ e < m, Apart eps ((s.inflow e).acc.times ++ (s.outflow e).acc.times)

/-- The queues of the first `m` edges of two flows agree up to time `t`. -/
def SameQueues (m : Nat) (t : ℚ) (f g : DFlow) : Prop := ∀ e < m, ∀ x, x ≤ t → (f.queues e).eval x = (g.queues e).eval x

/-- The loads of two flows are defined and agree up to time `t`. -/
def SameLoads (m : Nat) (t : ℚ) (f g : DFlow) : Prop :=
  ∀ e < m, ∃ a b, f.edgeLoad e = .ok a ∧ g.edgeLoad e = .ok b ∧ ∀ x, x ≤ t → a.eval x = b.eval x

/-- The flow `s'` has been made from the reached flow `s` by further valid calls. -/
def Continues (net : EdgeData) (s s' : DFlow) : Prop := ∃ calls, CallsOk net s calls ∧ runFlow net s calls = .ok s'

/-- What `p` predicts for time `t` depends only on the queues of the first `m` edges up to `t`. -/
def QueuesOnly (m : Nat) (p : Predictor) : Prop := ∀ (net net' : EdgeData) (f g : DFlow) (t : ℚ), Reached net f → Reached net' g → SameQueues m t f g →
  p.predict t f = p.predict t g

/-- What `p` predicts for time `t` depends only on the queues and loads of the first `m` edges up to `t`. -/
def QueuesAndLoadsOnly (m : Nat) (p : Predictor) : Prop := ∀ (net net' : EdgeData) (f g : DFlow) (t : ℚ), Reached net f → Reached net' g →
  LoadsApart m f → LoadsApart m g → SameQueues m t f g → SameLoads m t f g → p.predict t f = p.predict t g

/-- A trained model that answers every row of inputs by itself. -/
def RowWise (model : List (List ℚ) → Py (List (List ℚ))) (f : List ℚ → List ℚ) : Prop := ∀ rows, model rows = .ok (rows.map f)

end Verif.Spec
