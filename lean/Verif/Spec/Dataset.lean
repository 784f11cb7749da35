import Verif.Model.Dataset
import Verif.Spec.Predictors

/-! What training samples should contain. -/

namespace Verif.Spec
open Verif

/-- The length of the queue of edge `e` at time `x` (0 if it could not be evaluated). -/
def queueAt (s : DFlow) (e : Nat) (x : ℚ) : ℚ := ((s.queues e).eval x).toOption.getD 0

/-- The load of edge `e` at time `x` (0 if it could not be evaluated). -/
def loadAt (s : DFlow) (e : Nat) (x : ℚ) : ℚ := ((s.edgeLoad e).toOption.bind (fun g => (g.eval x).toOption)).getD 0

/-- `t - (n - 1) d, …, t - d, t`. -/
def before (t d : ℚ) (n : Nat) : List ℚ := (List.range n).map (fun (a : Nat) => t - ((n : ℚ) - 1 - a) * d)

/-- `t + d, …, t + n d`. -/
def after (t d : ℚ) (n : Nat) : List ℚ := (List.range n).map (fun (a : Nat) => t + ((a : ℚ) + 1) * d)

/-- The values of `F e` at the given times, for one edge `e` after the other. -/
def table (F : Nat → ℚ → ℚ) (edges : List Nat) (times : List ℚ) : List ℚ := (edges.map (fun e => times.map (F e))).flatten

/-- The edges chosen by a mask and perhaps a second one. -/
def chosen (edges : Nat) (mask : List Bool) (more : Option (List Bool)) : List Nat :=
  (List.range edges).filter (fun e => mask.getD e false && (match more with | none => true | some m => m.getD e false))

/-- The interval is a multiple `k` of the rerouting interval, as far as the code checks. -/
structure Grid (past : Nat) (reroute interval horizon : ℚ) (k : Nat) : Prop where
  steps : 1 ≤ past
  pos : 0 < reroute
  nonneg : 0 ≤ horizon
  mult : 1 ≤ k
  near : |(k : ℚ) - interval / reroute| ≤ 1 / 10 ^ 14

/-- The times at which flows are sampled: the multiples of the rerouting interval from `past - 1` intervals before 0 up to the horizon. -/
def OnGrid (past k : Nat) (reroute horizon x : ℚ) : Prop := ∃ i : Int, -((past : Int) - 1) * k ≤ i ∧ (i : ℚ) * reroute ≤ horizon ∧ x = i * reroute

/-- The number of samples of one flow: those `i` for which all of `i, …, i + k (future + 1)` rerouting intervals lie within the horizon. -/
def sampleCount (future : Nat) (reroute horizon : ℚ) (k : Nat) : Nat := (⌊horizon / reroute⌋ + 1 - k * (future + 1)).toNat

/-- The flows the data is taken from. -/
def FlowsOk (edges : Nat) (flows : List DFlow) : Prop := ∀ s ∈ flows, (∃ net, Reached net s) ∧ LoadsApart edges s

/-- What the dataset made from the flows answers, with the additional masks `am` and `ao`: for the `i`-th sample of the `j`-th flow the time
`i * reroute`, queues and loads of the input edges before it, and as target the queues of the output edges after it. -/
def SamplesOk (edges past future : Nat) (reroute : ℚ) (k N : Nat) (flows : List DFlow) (D : Dataset.Data) (am ao : Option (List Bool)) : Prop :=
  ∀ (j : Nat) (s : DFlow), flows[j]? = some s → ∀ i < N,
    ({ D with addInput := am, addOutput := ao } : Dataset.Data).get (j * N + i) = .ok
      ((i * reroute : ℚ) ::
          (table (queueAt s) (chosen edges D.inputMask am) (before (i * reroute) (k * reroute) past) ++
            table (loadAt s) (chosen edges D.inputMask am) (before (i * reroute) (k * reroute) past)),
        table (queueAt s) (chosen edges D.outputMask ao) (after (i * reroute) (k * reroute) future))

end Verif.Spec
