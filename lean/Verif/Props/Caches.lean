import Verif.Proofs.CachesFlow
import Verif.Props.DynamicFlow

/-! C110: the caches of functions and the lists they share cannot be seen. -/

namespace Verif.Props
open Verif Verif.Spec Verif.Caching

/-- **C110**: for every series of calls on functions that is careful (see `Careful`), whatever the size of the caches, each call returns the number, or raises the
exception, that it would return or raise if functions were plain values without caches and shared lists; and the functions that may still be used have the contents of
these values. -/
theorem C110_caches (n : Nat) (comp : PL → PL → Prog PL) (calls : List Call) (h : Careful comp [] calls) :
    (Mem.start.run n comp calls).1 = (plainRun comp [] calls).1 ∧
    (Mem.start.run n comp calls).2.vars.length = (plainRun comp [] calls).2.length ∧
    ∀ (i o : Nat) v, (Mem.start.run n comp calls).2.vars[i]? = some o → (plainRun comp [] calls).2[i]? = some v → v.usable = true →
      (Mem.start.run n comp calls).2.look o = v.fn := by
  obtain ⟨h1, fam, ext, h2⟩ := run_ok n calls start_good h
  exact ⟨h1, h2.len, fun i o v hi hv hu => (h2.held i o v hi hv).2.2.1 hu⟩

/-- **C110**, the body of `compose` that is cached: without caches it is the `compose` of the properties C07 and so on. -/
theorem C110_compose (g f : PL) : (composeProg g f).plain [g, f] = PL.compose g f := composeProg_plain g f

/-- **C110**, the body of `eval`: without caches it is the `eval` of the other properties. -/
theorem C110_eval (f : PL) (x : ℚ) : (evalProg x f).plain [f] = f.eval x := evalProg_plain x f

/-- **C110**, edge loads: for every series of calls of `extend` and `get_edge_loads` on any flows, `get_edge_loads` returns what it would return without its cache. -/
theorem C110_loads (n : Nat) (net : EdgeData) (edges : Nat) (flows : List DFlow) (uses : List FlowUse) :
    useFlows n net edges flows [] uses = freshLoads net edges flows uses :=
  useFlows_fresh n net edges uses flows [] (fun _ _ h => (by cases h))

/-- **C110**, flows are careful with queues: after valid calls and the updates of one more valid call, every queue with a planned depletion falls with a slope of more
than eps, so `extend_with_slope` at its end clears the caches. -/
theorem C110_falling (net : EdgeData) (hn : NetOk net) (s0 s s' : DFlow) (calls : List FlowCall) (l : List (Nat × Rates)) (T : ℚ) (h0 : DFlow.init = .ok s0)
    (hc : CallsOk net s0 calls) (hr : runFlow net s0 calls = .ok s) (hl : CallOk net s l T) (hs : DFlow.setInflows net l s = .ok s') (e : Nat)
    (he : s'.deps.depletions.has e = true) : eps < |(s'.queues e).last| := by
  obtain ⟨⟨P, C, hx⟩, _⟩ := exact_reach hn h0 hc hr
  obtain ⟨s1, P', C', h1, h2, _⟩ := DFlow.setInflows_exact hn l hx hl.nodup hl.rates hl.clear
  rw [hs] at h1; injection h1 with h1; subst h1
  rw [h2.rep.deps.dep.has] at he
  obtain ⟨_, _, _, _, _, h⟩ := h2.edge e
  have hp := h.pend
  unfold DepQ.dmap at he
  cases hP : P' e with
  | none => rw [hP] at he; cases he
  | some x =>
    rw [hP] at hp
    obtain ⟨_, _, h3, h4, _⟩ := hp
    rw [h3, abs_sub_comm, abs_of_pos (by have := eps_pos; linarith)]
    exact h4

/-- **C110**, flows are careful with loads: after valid calls, if the break points of cumulative in- and outflow of an edge are more than eps apart, their difference
starts with value 0 and slope 0, so that `get_edge_loads` changes only its domain. -/
theorem C110_load_start (net : EdgeData) (hn : NetOk net) (s0 s : DFlow) (calls : List FlowCall) (h0 : DFlow.init = .ok s0)
    (hc : CallsOk net s0 calls) (hr : runFlow net s0 calls = .ok s) (e : Nat) (hsep : Apart eps ((s.inflow e).acc.times ++ (s.outflow e).acc.times)) :
    ∃ l, (s.inflow e).acc.sub (s.outflow e).acc = .ok l ∧ l.first = 0 ∧ l.values.head? = some 0 := by
  obtain ⟨⟨P, C, hx⟩, _⟩ := exact_reach hn h0 hc hr
  obtain ⟨_, _, _, _, _, h⟩ := hx.edge e
  exact load_start h (run_first calls (init_first h0) hr) hsep

/-- A flow whose first edge has a queue that will run empty, before a call that changes nothing. -/
example : ∃ s0 s k, DFlow.init = .ok s0 ∧ CallsOk sampleNet s0 (sampleCalls.take k) ∧ runFlow sampleNet s0 (sampleCalls.take k) = .ok s ∧ CallOk sampleNet s [] s.phi ∧
    DFlow.setInflows sampleNet [] s = .ok s ∧ s.deps.depletions.has 0 = true := by
  obtain ⟨s0, s, h0, h1, h2, h3⟩ := runB_sound (net := sampleNet) (calls := sampleCalls.take 3) (post := fun s => s.deps.depletions.has 0) (by decide +kernel)
  exact ⟨s0, s, 3, h0, h1, h2, ⟨le_refl _, by simp, by simp, by simp⟩, rfl, h3⟩

/-- The break points of this flow are apart. -/
example : ∃ s0 s, DFlow.init = .ok s0 ∧ CallsOk sampleNet s0 sampleCalls ∧ runFlow sampleNet s0 sampleCalls = .ok s ∧
    Apart eps ((s.inflow 1).acc.times ++ (s.outflow 1).acc.times) := by
  obtain ⟨s0, s, h0, h1, h2, _, _, _, _, h3, h4⟩ := sample_run
  refine ⟨s0, s, h0, h1, h2, ?_⟩
  rw [h3, h4]
  unfold Apart
  decide +kernel

/-- The load of an edge in a flow is this difference, repaired. -/
theorem C110_load (s : DFlow) (e : Nat) : s.edgeLoad e = (do let l ← (s.inflow e).acc.sub (s.outflow e).acc; repairLoad l) := rfl

/-! A careful program: it makes a function, evaluates it, negates it (the times are shared), composes, extends, lets a queue run empty, and makes a load. -/

/-- The constructor. -/
def mkCall (f : PL) : Call := .make (fun _ => .ret (PL.new f.times f.values f.first f.last f.lo f.hi)) []

/-- `eval`. -/
def evalCall (h : Nat) (x : ℚ) : Call := .ask (fun fs => evalProg x (fs.headD ⟨[], [], 0, 0, ⊥, ⊤⟩)) [h]

/-- `__neg__`. -/
def negCall (h : Nat) : Call := .alias (fun f => .ret f.neg) h

/-- A queue that grows. -/
def growing : PL := ⟨[0], [0], 0, 1, ⊥, ⊤⟩

/-- What `get_edge_loads` starts from. -/
def flowDiff : PL := ⟨[0, 2], [0, 4], 0, 0, ((0 : ℚ) : WithBot ℚ), ⊤⟩

/-- The program. -/
def tidyCalls : List Call := [mkCall growing, evalCall 0 2, negCall 0, evalCall 1 2, .compose 0 0, evalCall 2 3, .compose 0 0, evalCall 3 3, .extend 0 4 (-1), evalCall 0 5,
  .deplete 0 8, evalCall 0 9, evalCall 2 3, .load (fun _ => .ret (.ok flowDiff)) [], evalCall 4 (-1), evalCall 4 1, evalCall 0 9]

example : Careful composeProg [] tidyCalls := carefulB_sound (by decide +kernel)

example : (Mem.start.run 128 composeProg tidyCalls).1.map Except.toOption =
    [some none, some (some 2), some none, some (some (-2)), some none, some (some 3), some none, some (some 3), some none, some (some 3),
     some none, some (some 0), some (some 3), some none, some (some 0), some (some 2), some (some 0)] := by decide +kernel

/-! What happens to programs that are not careful. -/

/-- The end of a queue that is flat: `extend_with_slope` returns early and clears nothing, then the last value is set to 0; an evaluation repeats what was stored. -/
theorem C110_flat_witness : let calls : List Call := [mkCall ⟨[0, 1], [0, 1 / 10 ^ 8], 0, 0, ⊥, ⊤⟩, evalCall 0 2, .deplete 0 2, evalCall 0 2]
    (Mem.start.run 128 composeProg calls).1[3]? = some (.ok (some (1 / 10 ^ 8))) ∧ (plainRun composeProg [] calls).1[3]? = some (.ok (some 0)) := by decide +kernel

/-- A function after a relative was extended: it has more times than values. -/
theorem C110_shared_witness : let calls : List Call := [mkCall growing, negCall 0, .extend 0 4 (-1), evalCall 1 5]
    (Mem.start.run 128 composeProg calls).1[3]? = some (.ok (some (-1))) ∧ (plainRun composeProg [] calls).1[3]? = some (.ok (some (-5))) := by decide +kernel

/-- Two compositions of the same functions are one object: extending the first changes the second. -/
theorem C110_same_object_witness : let calls : List Call := [mkCall growing, .compose 0 0, .compose 0 0, .extend 1 4 (-1), evalCall 2 6]
    (Mem.start.run 128 composeProg calls).1[4]? = some (.ok (some 2)) ∧ (plainRun composeProg [] calls).1[4]? = some (.ok (some 6)) := by decide +kernel

end Verif.Props
