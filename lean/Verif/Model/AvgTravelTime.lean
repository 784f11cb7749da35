import Verif.Model.FlowBuilder

/-! Model of `DynamicFlow.avg_travel_time` (src/core/dynamic_flow.py:219-240). -/

namespace Verif
namespace AvgTravelTime

/-- `sum(fs, start=acc)` of step functions (src/core/dynamic_flow.py:221-228, 230-233). -/
def sumFrom (acc : RC) : List RC → Py RC
  | [] => .ok acc
  | f :: fs => do
    let acc ← acc.add f
    sumFrom acc fs

/-- `sum(fs, start=RightConstant([0.0], [0.0], (0, inf))).integral()` (src/core/dynamic_flow.py:221-234). -/
def accumulate (fs : List RC) : Py PL := do
  let zero ← RC.new [0] [0] ((0 : ℚ) : WithBot ℚ) ⊤
  let net ← sumFrom zero fs
  net.integral

/-- `self.outflow[e.id]._functions_dict[i] for e in commodity.sink.incoming_edges if i in ...` (src/core/dynamic_flow.py:222-226). -/
def sinkOutflows {P : Type} (n : Network P) (flow : DFlow) (i : Nat) (c : Commodity P) : List RC :=
  (n.graph.incoming c.sink).filterMap (fun e => (flow.outflow (n.graph.edge e).id).funs i)

/-- `avg_travel_time(i, horizon)` (src/core/dynamic_flow.py:219-240). -/
def avgTravelTime {P : Type} (n : Network P) (flow : DFlow) (i : Nat) (horizon : ℚ) : Py ℚ := do
  let c ← rd n.commodities i
  let accOut ← accumulate (sinkOutflows n flow i c)
  let accIn ← accumulate (c.sources.map Prod.snd)
  let a ← accIn.integrate 0 horizon
  let b ← accOut.integrate 0 horizon
  let d ← accIn.eval horizon
  pyDiv (a - b) d

end AvgTravelTime
end Verif
