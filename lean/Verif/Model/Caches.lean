import Verif.Model.PLCompose
import Verif.Model.DynamicFlow
import Verif.Model.FlowBuilder

/-! Model of the caches of src/utilities/piecewise_linear.py (`lru_cache` on `_eval_with_rank`, `gradient` and `compose`) and of the objects and lists
behind functions: two functions may share a list of times, and `extend_with_slope` and src/core/dynamic_flow.py change lists and attributes in place.

The caches belong to the class, not to a function; keys contain the function by identity. `functools.lru_cache` keeps the results of the most recent
calls, 128 by default, and does not keep exceptions. Evaluations at infinite arguments are not looked up in the cache. -/

namespace Verif.Caching
open Verif

/-- A method of functions, as far as caches are concerned: it reads attributes, calls `gradient` and `_eval_with_rank` on its arguments, and ends with a result
or an exception. All methods of src/utilities/piecewise_linear.py but `extend_with_slope` have this form (those that call `compose` do not exist). -/
inductive Prog (α : Type)
  | ret (r : Py α)
  | grad (arg : Nat) (i : Int) (k : ℚ → Prog α)
  | evalAt (arg : Nat) (x : ℚ) (rnk : Int) (k : ℚ → Prog α)

namespace Prog
variable {α β : Type}

/-- One after the other. -/
def bind : Prog α → (α → Prog β) → Prog β
  | .ret (.ok a), k => k a
  | .ret (.error e), _ => .ret (.error e)
  | .grad a i g, k => .grad a i (fun v => bind (g v) k)
  | .evalAt a x r g, k => .evalAt a x r (fun v => bind (g v) k)

instance : Monad Prog where
  pure a := .ret (.ok a)
  bind := bind

instance : MonadLift (Except Err) Prog := ⟨.ret⟩

/-- What the method returns without caches, for arguments with contents `fs`. -/
def plain (fs : List PL) : Prog α → Py α
  | .ret r => r
  | .grad a i k => do
    let f ← rd fs a
    let v ← f.gradient i
    plain fs (k v)
  | .evalAt a x r k => do
    let f ← rd fs a
    let v ← f.evalWithRank x r
    plain fs (k v)

end Prog

/-- The caches of the class (src/utilities/piecewise_linear.py:152,176,268), the most recent entry first. Functions are numbered. -/
structure Caches where
  grads : List ((Nat × Int) × ℚ)
  evals : List ((Nat × ℚ × Int) × ℚ)
  comps : List ((Nat × Nat) × Nat)

/-- Empty caches, as after `cache_clear` (src/utilities/piecewise_linear.py:524-530). -/
def Caches.clear : Caches := ⟨[], [], []⟩

/-- `functools.lru_cache(maxsize=n)`: an entry that is made or used becomes the most recent one; the oldest are dropped. -/
def remember {K V : Type} [DecidableEq K] (n : Nat) (l : List (K × V)) (k : K) (v : V) : List (K × V) :=
  ((k, v) :: l.filter (fun p => p.1 ≠ k)).take n

/-- A call of `gradient` (src/utilities/piecewise_linear.py:176-189). `look o` are the contents of function `o`. -/
def callGrad (n : Nat) (look : Nat → PL) (o : Nat) (i : Int) (c : Caches) : Py ℚ × Caches :=
  match c.grads.lookup (o, i) with
  | some v => (.ok v, { c with grads := remember n c.grads (o, i) v })
  | none =>
    match (look o).gradient i with
    | .ok v => (.ok v, { c with grads := remember n c.grads (o, i) v })
    | .error e => (.error e, c)

/-- What `_eval_with_rank` does before it calls `gradient`: assertions, then the break point to start from (src/utilities/piecewise_linear.py:153-174). -/
def rankParts (f : PL) (x : ℚ) (rnk : Int) : Py (ℚ × ℚ) := do
  pyAssert (f.inDom x)
  pyAssert (-1 ≤ rnk ∧ rnk ≤ f.times.length)
  let t0 ← rd f.times 0
  pyAssert (rnk ≠ -1 ∨ x ≤ t0)
  let tl ← rdLast f.times
  pyAssert (rnk ≠ (f.times.length : Int) - 1 ∨ x > tl)
  if -1 < rnk ∧ rnk < (f.times.length : Int) - 1 then do
    let a ← rdI f.times rnk
    let b ← rdI f.times (rnk + 1)
    pyAssert (a < x ∧ x ≤ b)
  if rnk = -1 then do
    let v0 ← rd f.values 0
    pure (v0, t0)
  else if rnk = (f.times.length : Int) - 1 then do
    let vl ← rdLast f.values
    pure (vl, tl)
  else do
    let v ← rdI f.values rnk
    let t ← rdI f.times rnk
    pure (v, t)

/-- A call of `_eval_with_rank` (src/utilities/piecewise_linear.py:152-174), with the call of `gradient` inside. -/
def callEval (n : Nat) (look : Nat → PL) (o : Nat) (x : ℚ) (rnk : Int) (c : Caches) : Py ℚ × Caches :=
  match c.evals.lookup (o, x, rnk) with
  | some v => (.ok v, { c with evals := remember n c.evals (o, x, rnk) v })
  | none =>
    match rankParts (look o) x rnk with
    | .error e => (.error e, c)
    | .ok (v, t) =>
      match callGrad n look o rnk c with
      | (.error e, c) => (.error e, c)
      | (.ok g, c) => (.ok (v + (x - t) * g), { c with evals := remember n c.evals (o, x, rnk) (v + (x - t) * g) })

/-- What a method returns with caches, for the arguments `os`. -/
def Prog.cached {α : Type} (n : Nat) (look : Nat → PL) (os : List Nat) : Prog α → Caches → Py α × Caches
  | .ret r, c => (r, c)
  | .grad a i k, c =>
    match rd os a with
    | .error e => (.error e, c)
    | .ok o =>
      match callGrad n look o i c with
      | (.error e, c) => (.error e, c)
      | (.ok v, c) => Prog.cached n look os (k v) c
  | .evalAt a x r k, c =>
    match rd os a with
    | .error e => (.error e, c)
    | .ok o =>
      match callEval n look o x r c with
      | (.error e, c) => (.error e, c)
      | (.ok v, c) => Prog.cached n look os (k v) c

/-- A `PiecewiseLinear` object: its lists are references (src/utilities/piecewise_linear.py:37-41). -/
structure Obj where
  times : Nat
  values : Nat
  first : ℚ
  last : ℚ
  lo : WithBot ℚ
  hi : WithTop ℚ

/-- The memory: all lists, all functions, the caches, and the functions the program holds, in the order in which it got them. -/
structure Mem where
  lists : List (List ℚ)
  objs : List Obj
  caches : Caches
  vars : List Nat

/-- The memory of a new process. -/
def Mem.start : Mem := ⟨[], [], Caches.clear, []⟩

/-- The contents of function `o` now. -/
def Mem.look (m : Mem) (o : Nat) : PL :=
  match m.objs[o]? with
  | some x => ⟨m.lists.getD x.times [], m.lists.getD x.values [], x.first, x.last, x.lo, x.hi⟩
  | none => ⟨[], [], 0, 0, ⊥, ⊤⟩

/-- A new object with new lists. -/
def Mem.alloc (m : Mem) (f : PL) : Mem :=
  { m with lists := m.lists ++ [f.times, f.values], objs := m.objs ++ [⟨m.lists.length, m.lists.length + 1, f.first, f.last, f.lo, f.hi⟩] }

/-- A new object with the list of times of another one. -/
def Mem.allocShared (m : Mem) (times : Nat) (f : PL) : Mem :=
  { m with lists := m.lists ++ [f.values], objs := m.objs ++ [⟨times, m.lists.length, f.first, f.last, f.lo, f.hi⟩] }

/-- What a program does with functions. Functions are given by their position among those it got. -/
inductive Call
  /-- A method that returns a number. -/
  | ask (method : List PL → Prog ℚ) (args : List Nat)
  /-- The constructor, or a method that returns a function with new lists (`plus`, `simplify`, `restrict`, `minimum`). -/
  | make (method : List PL → Prog PL) (args : List Nat)
  /-- A method that returns a function with the list of times of its argument: `__neg__` (src/utilities/piecewise_linear.py:191-198), `ensure_monotone` (459-465),
  the costs of src/core/flow_builder.py:97-109, `get_fifo_arrival_time` (src/core/bellman_ford.py:34-40). -/
  | alias (method : PL → Prog PL) (h : Nat)
  /-- `compose`. -/
  | compose (g f : Nat)
  /-- `extend_with_slope`. -/
  | extend (h : Nat) (time slope : ℚ)
  /-- The end of a queue (src/core/dynamic_flow.py:170-172). -/
  | deplete (h : Nat) (time : ℚ)
  /-- An entry of `get_edge_loads` (src/core/dynamic_flow.py:243-255), from the function that `method` (a difference) makes. -/
  | load (method : List PL → Prog PL) (args : List Nat)

/-- The functions at the given positions. -/
def handles {α : Type} (vs : List α) : List Nat → Py (List α)
  | [] => .ok []
  | h :: hs => do
    let o ← rd vs h
    let os ← handles vs hs
    pure (o :: os)

/-- `extend_with_slope` (src/utilities/piecewise_linear.py:513-530): the lists are changed in place, and the caches cleared. -/
def Mem.extend (m : Mem) (o : Nat) (time slope : ℚ) : Py Mem := do
  let x ← rd m.objs o
  let ts := m.lists.getD x.times []
  let vs := m.lists.getD x.values []
  let tl ← rdLast ts
  pyAssert (time ≥ tl - eps)
  if |x.last - slope| ≤ eps then pure m
  else if |time - tl| > eps then do
    let vl ← rdLast vs
    let val := vl + (time - tl) * x.last
    pure { m with lists := (m.lists.set x.values (vs ++ [val])).set x.times (ts ++ [time]), objs := m.objs.set o { x with last := slope }, caches := Caches.clear }
  else pure { m with objs := m.objs.set o { x with last := slope }, caches := Caches.clear }

/-- `eval` (src/utilities/piecewise_linear.py:58-63) of the first argument. -/
def evalProg (x : ℚ) (f : PL) : Prog ℚ :=
  match (do pyAssert (f.inDom x); elemRank f.times x : Py Int) with
  | .error e => .ret (.error e)
  | .ok r => .evalAt 0 x r (fun v => .ret (.ok v))

/-- One call, with caches (for the bodies see `Call`): the number returned, if any, or the exception, and the memory after it. `comp` is the body of `compose`. -/
def Mem.step (n : Nat) (comp : PL → PL → Prog PL) (m : Mem) : Call → Py (Option ℚ) × Mem
  | .ask p args =>
    match handles m.vars args with
    | .error e => (.error e, m)
    | .ok os =>
      match (p (os.map m.look)).cached n m.look os m.caches with
      | (.error e, c) => (.error e, { m with caches := c })
      | (.ok v, c) => (.ok (some v), { m with caches := c })
  | .make p args =>
    match handles m.vars args with
    | .error e => (.error e, m)
    | .ok os =>
      match (p (os.map m.look)).cached n m.look os m.caches with
      | (.error e, c) => (.error e, { m with caches := c })
      | (.ok f, c) => (.ok none, { m.alloc f with caches := c, vars := m.vars ++ [m.objs.length] })
  | .alias p h =>
    match rd m.vars h with
    | .error e => (.error e, m)
    | .ok o =>
      match (p (m.look o)).cached n m.look [o] m.caches with
      | (.error e, c) => (.error e, { m with caches := c })
      | (.ok f, c) =>
        match rd m.objs o with
        | .error e => (.error e, m)
        | .ok x => (.ok none, { m.allocShared x.times f with caches := c, vars := m.vars ++ [m.objs.length] })
  | .compose g f =>
    match rd m.vars g, rd m.vars f with
    | .ok og, .ok of =>
      match m.caches.comps.lookup (og, of) with
      | some o => (.ok none, { m with caches := { m.caches with comps := remember n m.caches.comps (og, of) o }, vars := m.vars ++ [o] })
      | none =>
        match (comp (m.look og) (m.look of)).cached n m.look [og, of] m.caches with
        | (.error e, c) => (.error e, { m with caches := c })
        | (.ok r, c) =>
          (.ok none, { m.alloc r with caches := { c with comps := remember n c.comps (og, of) m.objs.length }, vars := m.vars ++ [m.objs.length] })
    | .error e, _ => (.error e, m)
    | _, .error e => (.error e, m)
  | .extend h time slope =>
    match (do let o ← rd m.vars h; m.extend o time slope : Py Mem) with
    | .error e => (.error e, m)
    | .ok m' => (.ok none, m')
  | .deplete h time =>
    match (do let o ← rd m.vars h; let m' ← m.extend o time 0; pure (o, m') : Py (Nat × Mem)) with
    | .error e => (.error e, m)
    | .ok (o, m') =>
      match (do let x ← rd m'.objs o; let l ← rdLast (m'.lists.getD x.values []); pyAssert (|l| < 1000 * eps); pure x : Py Obj) with
      | .error e => (.error e, m')
      | .ok x => (.ok none, { m' with lists := m'.lists.set x.values ((m'.lists.getD x.values []).dropLast ++ [0]) })
  | .load p args =>
    match handles m.vars args with
    | .error e => (.error e, m)
    | .ok os =>
      match (p (os.map m.look)).cached n m.look os m.caches with
      | (.error e, c) => (.error e, { m with caches := c })
      | (.ok f, c) =>
        let o := m.objs.length
        let ref := m.lists.length
        let m : Mem := { m.alloc f with caches := c }
        if f.lo = ((0 : ℚ) : WithBot ℚ) then
          match (evalProg 0 (m.look o)).cached n m.look [o] m.caches with
          | (.error e, c) => (.error e, { m with caches := c })
          | (.ok v, c) =>
            if |v| < 1 / 10 ^ 10 then
              match rd f.values 0 with
              | .error e => (.error e, { m with caches := c })
              | .ok v0 =>
                let l : PL := if v0 ≠ 0 then { f with times := 0 :: f.times, values := 0 :: f.values } else f
                (.ok none, { m with lists := (m.lists.set ref l.times).set (ref + 1) l.values, objs := m.objs.set o ⟨ref, ref + 1, 0, f.last, ⊥, f.hi⟩,
                                    caches := c, vars := m.vars ++ [o] })
            else (.error .assertion, { m with caches := c })
        else (.error .assertion, m)

/-- A series of calls: what each of them returned. -/
def Mem.run (n : Nat) (comp : PL → PL → Prog PL) (m : Mem) : List Call → List (Py (Option ℚ)) × Mem
  | [] => ([], m)
  | c :: cs => let (r, m) := m.step n comp c; let (rs, m) := m.run n comp cs; (r :: rs, m)

/-! `compose` as a method in this sense. -/

/-- `gradient` of an argument. -/
def gradP (a : Nat) (i : Int) : Prog ℚ := .grad a i (fun v => .ret (.ok v))

/-- `eval` of an argument with contents `f` (src/utilities/piecewise_linear.py:58-63). -/
def evalP (a : Nat) (f : PL) (x : ℚ) : Prog ℚ := do
  let r ← (do pyAssert (f.inDom x); elemRank f.times x : Py Int)
  .evalAt a x r (fun v => .ret (.ok v))

/-- `self(self.domain[0])` of an argument (src/utilities/piecewise_linear.py:411). -/
def evalLoP (a : Nat) (f : PL) : Prog EVal :=
  match f.lo with
  | some d => do
    let v ← evalP a f d
    pure (EVal.fin v)
  | none => .ret f.evalLo

/-- `self(self.domain[1])` of an argument (src/utilities/piecewise_linear.py:411). -/
def evalHiP (a : Nat) (f : PL) : Prog EVal :=
  match f.hi with
  | some d => do
    let v ← evalP a f d
    pure (EVal.fin v)
  | none => .ret f.evalHi

/-- `inverse` of an argument (src/utilities/piecewise_linear.py:246-266). -/
def inverseP (a : Nat) (f : PL) (x : ℚ) (i : Int) : Prog ℚ := do
  (pyAssert (-1 ≤ i ∧ i < f.times.length) : Py Unit)
  if i = -1 then do
    let g ← gradP a i
    let v0 ← rd f.values 0
    (pyAssert ((g > 0 ∧ x ≤ v0) ∨ (g < 0 ∧ x ≥ v0)) : Py Unit)
    let t0 ← rd f.times 0
    let d ← pyDiv (x - v0) g
    pure (t0 + d)
  else if i = (f.times.length : Int) - 1 then do
    let g ← gradP a i
    let v0 ← rd f.values 0
    (pyAssert ((g > 0 ∧ x ≥ v0) ∨ (g < 0 ∧ x ≤ v0)) : Py Unit)
    let tl ← rdLast f.times
    let vl ← rdLast f.values
    let d ← pyDiv (x - vl) g
    pure (tl + d)
  else .ret (f.inverse x i)

/-- Appending a point if it is later than the last one (src/utilities/piecewise_linear.py:297-299). -/
def addPointP (g : PL) (ts vs : List ℚ) (t x : ℚ) : Prog (List ℚ × List ℚ) :=
  if PL.isLater ts t then do
    let v ← evalP 0 g x
    pure (ts ++ [t], vs ++ [v])
  else pure (ts, vs)

/-- The body of the `while` loops of `compose` (src/utilities/piecewise_linear.py:294-299,306-311). -/
def composePointP (g f : PL) (lo : EVal) (i : Int) (t : ℚ) (ts vs : List ℚ) : Prog (List ℚ × List ℚ) := do
  let x ← PL.maxImage lo t
  let m ← gradP 1 i
  if m ≠ 0 then do
    let s ← inverseP 1 f x i
    addPointP g ts vs s x
  else pure (ts, vs)

/-- The `while` loops of `compose` (src/utilities/piecewise_linear.py:293-300,305-312). -/
def composeInnerP (g f : PL) (lo bound : EVal) (i : Int) : List ℚ → Nat → List ℚ → List ℚ → Prog (Nat × List ℚ × List ℚ)
  | [], ig, ts, vs => pure (ig, ts, vs)
  | t :: rest, ig, ts, vs =>
    if EVal.fin t ≤ bound then do
      let (ts, vs) ← composePointP g f lo i t ts vs
      composeInnerP g f lo bound i rest (ig + 1) ts vs
    else pure (ig, ts, vs)

/-- The `for` loop of `compose` (src/utilities/piecewise_linear.py:292-303). -/
def composeForP (g f : PL) (lo : EVal) : List ℚ → List ℚ → Int → Nat → List ℚ → List ℚ → Prog (Nat × List ℚ × List ℚ)
  | t :: rest, v :: vrest, i, ig, ts, vs => do
    let (ig, ts, vs) ← composeInnerP g f lo (EVal.fin v) i (g.times.drop ig) ig ts vs
    let (ts, vs) ← addPointP g ts vs t v
    composeForP g f lo rest vrest (i + 1) ig ts vs
  | _, _, _, ig, ts, vs => pure (ig, ts, vs)

/-- The body of `compose` (src/utilities/piecewise_linear.py:268-316): argument 0 is `g`, argument 1 is `f`. -/
def composeProg (g f : PL) : Prog PL := do
  (pyAssert (f.isMonotone = true) : Py Unit)
  let lo ← evalLoP 1 f
  let hi ← evalHiP 1 f
  (pyAssert (PL.startsBelow g.lo lo = true ∧ PL.endsAbove g.hi hi = true) : Py Unit)
  let rnk ← elemRank (g.times.map EVal.fin) lo
  let m ← gradP 0 rnk
  let first := m * f.first
  let ig := (max 0 rnk).toNat
  if ig + 1 ≠ g.times.length then do
    let t ← rd g.times (ig + 1)
    (pyAssert (f.lo ≤ (t : WithBot ℚ)) : Py Unit)
  let (ig, ts, vs) ← composeForP g f lo f.times f.values (-1) ig [] []
  let (ig, ts, vs) ← composeInnerP g f lo hi ((f.times.length : Int) - 1) (g.times.drop ig) ig ts vs
  let m ← gradP 0 ((ig : Int) - 1)
  PL.new ts vs first (m * f.last) f.lo f.hi

/-! The cache of `get_edge_loads`. -/

/-- What a program does with flows. Flows are numbered. -/
inductive FlowUse
  | extend (s : Nat) (inflow : List (Nat × Rates)) (time : ℚ)
  | loads (s : Nat)

/-- `get_edge_loads` without cache (src/core/dynamic_flow.py:243-257). -/
def edgeLoads (edges : Nat) (f : DFlow) : Py (List PL) := Builder.mapPy f.edgeLoad (List.range edges)

/-- One call on the flows `fs` with the cache of `get_edge_loads`, which `extend` clears first, for all flows (src/core/dynamic_flow.py:187,242-257). What a call of
`extend` that raises leaves behind is not modelled: the flow is as before. -/
def useFlow (n : Nat) (net : EdgeData) (edges : Nat) (fs : List DFlow) (c : List (Nat × List PL)) : FlowUse → Py (Option (List PL)) × List DFlow × List (Nat × List PL)
  | .extend s l T =>
    match (do let f ← rd fs s; f.extend net l T : Py (DFlow × List Nat)) with
    | .error e => (.error e, fs, [])
    | .ok (f, _) => (.ok none, fs.set s f, [])
  | .loads s =>
    match c.lookup s with
    | some ls => (.ok (some ls), fs, remember n c s ls)
    | none =>
      match (do let f ← rd fs s; edgeLoads edges f : Py (List PL)) with
      | .error e => (.error e, fs, c)
      | .ok ls => (.ok (some ls), fs, remember n c s ls)

/-- A series of calls. -/
def useFlows (n : Nat) (net : EdgeData) (edges : Nat) (fs : List DFlow) (c : List (Nat × List PL)) : List FlowUse → List (Py (Option (List PL)))
  | [] => []
  | u :: us => let (r, fs, c) := useFlow n net edges fs c u; r :: useFlows n net edges fs c us

end Verif.Caching
