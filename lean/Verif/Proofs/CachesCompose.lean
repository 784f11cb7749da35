import Verif.Proofs.CachesRun

/-! The body of `compose`, and the cache of edge loads. -/

namespace Verif.Caching
open Verif Verif.Spec

variable {α β : Type} {fs : List PL}

theorem plain_bind (p : Prog α) (k : α → Prog β) : (p >>= k).plain fs = p.plain fs >>= fun a => (k a).plain fs := by
  show (Prog.bind p k).plain fs = _
  induction p with
  | ret r => cases r <;> rfl
  | grad a i g ih =>
    simp only [Prog.bind, Prog.plain, bind_assoc]
    exact congrArg _ (funext fun f => congrArg _ (funext fun v => ih v))
  | evalAt a x r g ih =>
    simp only [Prog.bind, Prog.plain, bind_assoc]
    exact congrArg _ (funext fun f => congrArg _ (funext fun v => ih v))

theorem plain_pure (a : α) : (pure a : Prog α).plain fs = .ok a := rfl

theorem plain_ret (r : Py α) : (Prog.ret r).plain fs = r := rfl

theorem plain_lift (r : Py α) : (liftM r : Prog α).plain fs = r := rfl

theorem plain_ite {c : Prop} [Decidable c] (p q : Prog α) : (if c then p else q).plain fs = if c then p.plain fs else q.plain fs := by split <;> rfl

theorem bind_ok (r : Py α) : (r >>= fun a => (.ok a : Py α)) = r := by cases r <;> rfl

theorem gradP_plain {a : Nat} {f : PL} (h : fs[a]? = some f) (i : Int) : (gradP a i).plain fs = f.gradient i := by
  unfold gradP
  simp only [Prog.plain, rd_eq_ok.mpr h, ok_bind, bind_ok]

theorem evalP_plain {a : Nat} {f : PL} (h : fs[a]? = some f) (x : ℚ) : (evalP a f x).plain fs = f.eval x := by
  unfold evalP PL.eval
  rw [plain_bind, plain_lift]
  simp only [Prog.plain, rd_eq_ok.mpr h, ok_bind, bind_ok, bind_assoc]

theorem evalLoP_plain {a : Nat} {f : PL} (h : fs[a]? = some f) : (evalLoP a f).plain fs = f.evalLo := by
  unfold evalLoP
  split
  · rename_i d hd
    rw [plain_bind, evalP_plain h]
    unfold PL.evalLo
    rw [hd]
    rfl
  · rfl

theorem evalHiP_plain {a : Nat} {f : PL} (h : fs[a]? = some f) : (evalHiP a f).plain fs = f.evalHi := by
  unfold evalHiP
  split
  · rename_i d hd
    rw [plain_bind, evalP_plain h]
    unfold PL.evalHi
    rw [hd]
    rfl
  · rfl

theorem inverseP_plain {a : Nat} {f : PL} (h : fs[a]? = some f) (x : ℚ) (i : Int) : (inverseP a f x i).plain fs = f.inverse x i := by
  unfold inverseP
  rw [plain_bind, plain_lift]
  by_cases h1 : i = -1
  · unfold PL.inverse
    simp only [if_pos h1, plain_bind, plain_lift, gradP_plain h, plain_pure]
    rfl
  · by_cases h2 : i = (f.times.length : Int) - 1
    · unfold PL.inverse
      simp only [if_neg h1, if_pos h2, plain_bind, plain_lift, gradP_plain h, plain_pure]
      rfl
    · simp only [if_neg h1, if_neg h2, plain_ret]
      unfold PL.inverse
      simp only [if_neg h1, if_neg h2]
      cases pyAssert (-1 ≤ i ∧ i < (f.times.length : Int)) with
      | error e => rfl
      | ok u => rfl

variable {g f : PL}

theorem addPointP_plain (ts vs : List ℚ) (t x : ℚ) : (addPointP g ts vs t x).plain [g, f] = PL.addPoint g ts vs t x := by
  unfold addPointP PL.addPoint
  split
  · rw [plain_bind, evalP_plain rfl]; rfl
  · rfl

theorem composePointP_plain (lo : EVal) (i : Int) (t : ℚ) (ts vs : List ℚ) : (composePointP g f lo i t ts vs).plain [g, f] = PL.composePoint g f lo i t ts vs := by
  unfold composePointP PL.composePoint
  simp only [plain_bind, plain_lift, gradP_plain (fs := [g, f]) (a := 1) (f := f) rfl, plain_ite, inverseP_plain (fs := [g, f]) (a := 1) (f := f) rfl, addPointP_plain, plain_pure]
  rfl

theorem composeInnerP_plain (lo bound : EVal) (i : Int) : ∀ (l : List ℚ) (ig : Nat) (ts vs : List ℚ),
    (composeInnerP g f lo bound i l ig ts vs).plain [g, f] = PL.composeInner g f lo bound i l ig ts vs
  | [], _, _, _ => rfl
  | t :: rest, ig, ts, vs => by
    unfold composeInnerP PL.composeInner
    split
    · rw [plain_bind, composePointP_plain]
      exact congrArg _ (funext fun p => composeInnerP_plain lo bound i rest (ig + 1) p.1 p.2)
    · rfl

theorem composeForP_plain (lo : EVal) : ∀ (l l' : List ℚ) (i : Int) (ig : Nat) (ts vs : List ℚ),
    (composeForP g f lo l l' i ig ts vs).plain [g, f] = PL.composeFor g f lo l l' i ig ts vs
  | [], _, _, _, _, _ => by unfold composeForP PL.composeFor; rfl
  | _ :: _, [], _, _, _, _ => by unfold composeForP PL.composeFor; rfl
  | t :: rest, v :: vrest, i, ig, ts, vs => by
    unfold composeForP PL.composeFor
    rw [plain_bind, composeInnerP_plain]
    refine congrArg _ (funext fun p => ?_)
    obtain ⟨ig, ts, vs⟩ := p
    simp only
    rw [plain_bind, addPointP_plain]
    refine congrArg _ (funext fun p => ?_)
    exact composeForP_plain lo rest vrest (i + 1) ig p.1 p.2

theorem composeProg_plain (g f : PL) : (composeProg g f).plain [g, f] = PL.compose g f := by
  unfold composeProg PL.compose PL.image
  simp only [plain_bind, plain_lift, bind_assoc, evalLoP_plain (fs := [g, f]) (a := 1) (f := f) rfl, evalHiP_plain (fs := [g, f]) (a := 1) (f := f) rfl,
    gradP_plain (fs := [g, f]) (a := 0) (f := g) rfl, plain_ite, composeForP_plain, composeInnerP_plain]
  by_cases hm : f.isMonotone = true
  · simp only [pyAssert_true hm, ok_bind, py_pure]
  · have : pyAssert (f.isMonotone = true) = .error .assertion := by unfold pyAssert; rw [if_neg hm]
    rw [this]; rfl

theorem useFlows_fresh (n : Nat) (net : EdgeData) (edges : Nat) : ∀ (us : List FlowUse) (fs : List DFlow) (c : List (Nat × List PL)),
    (∀ s ls, (s, ls) ∈ c → ∃ f, fs[s]? = some f ∧ edgeLoads edges f = .ok ls) → useFlows n net edges fs c us = freshLoads net edges fs us
  | [], _, _, _ => rfl
  | .extend s l T :: us, fs, c, hc => by
    unfold useFlows freshLoads useFlow
    simp only
    cases h : (do let f ← rd fs s; f.extend net l T : Py (DFlow × List Nat)) with
    | error e => exact congrArg _ (useFlows_fresh n net edges us fs [] (fun _ _ h => (by cases h)))
    | ok p => exact congrArg _ (useFlows_fresh n net edges us _ [] (fun _ _ h => (by cases h)))
  | .loads s :: us, fs, c, hc => by
    unfold useFlows freshLoads useFlow
    simp only
    have keep : ∀ ls, (∃ f, fs[s]? = some f ∧ edgeLoads edges f = .ok ls) → ∀ s' ls', (s', ls') ∈ remember n c s ls → ∃ f, fs[s']? = some f ∧ edgeLoads edges f = .ok ls' := by
      intro ls hls s' ls' hm
      rcases remember_mem hm with hm | hm
      · injection hm with h1 h2; subst h1; subst h2; exact hls
      · exact hc s' ls' hm
    cases hl : c.lookup s with
    | some ls =>
      obtain ⟨f, h1, h2⟩ := hc s ls (lookup_in hl)
      rw [rd_eq_ok.mpr h1, ok_bind, h2]
      exact congrArg _ (useFlows_fresh n net edges us fs _ (keep ls ⟨f, h1, h2⟩))
    | none =>
      cases h : (do let f ← rd fs s; edgeLoads edges f : Py (List PL)) with
      | error e => exact congrArg _ (useFlows_fresh n net edges us fs c hc)
      | ok ls =>
        obtain ⟨f, h1, h2⟩ := bind_eq_ok.mp h
        exact congrArg _ (useFlows_fresh n net edges us fs _ (keep ls ⟨f, rd_eq_ok.mp h1, h2⟩))

/-- `Usable`, to compute. -/
def usableB (vs : List Held) (args : List Nat) : Bool := args.all (fun h => (vs[h]?).all Held.usable)

theorem usableB_sound {vs : List Held} {args : List Nat} (h : usableB vs args = true) : Usable vs args := by
  intro a ha v hv
  have := List.all_eq_true.mp h a ha
  rw [hv] at this
  exact this

/-- `Allowed`, to compute. -/
def allowedB (vs : List Held) : Call → Bool
  | .ask _ args => usableB vs args
  | .make _ args => usableB vs args
  | .alias _ h => usableB vs [h]
  | .compose g f => usableB vs [g, f]
  | .extend h _ _ => usableB vs [h] && (vs[h]?).all Held.extendable
  | .deplete h _ => usableB vs [h] && (vs[h]?).all (fun v => v.extendable && decide (eps < |v.fn.last|))
  | .load p args => usableB vs args && (match (do let fs ← handles (vs.map Held.fn) args; (p fs).plain fs : Py PL) with
    | .ok l => decide (l.first = 0 ∧ l.values.head? = some 0)
    | .error _ => true)

theorem allowedB_sound {vs : List Held} {c : Call} (h : allowedB vs c = true) : Allowed vs c := by
  cases c with
  | ask p args => exact usableB_sound h
  | make p args => exact usableB_sound h
  | «alias» p h' => exact usableB_sound h
  | compose g f => exact usableB_sound h
  | extend h' t s =>
    unfold allowedB at h
    rw [Bool.and_eq_true] at h
    refine ⟨usableB_sound h.1, fun v hv => ?_⟩
    have := h.2
    rw [hv] at this
    exact this
  | deplete h' t =>
    unfold allowedB at h
    rw [Bool.and_eq_true] at h
    refine ⟨usableB_sound h.1, fun v hv => ?_⟩
    have := h.2
    rw [hv] at this
    simpa using this
  | load p args =>
    unfold allowedB at h
    rw [Bool.and_eq_true] at h
    refine ⟨usableB_sound h.1, fun fs l h1 h2 => ?_⟩
    have := h.2
    rw [h1, ok_bind, h2] at this
    simpa using this

/-- `Careful`, to compute. -/
def carefulB (comp : PL → PL → Prog PL) : List Held → List Call → Bool
  | _, [] => true
  | vs, c :: cs => allowedB vs c && carefulB comp (plainStep comp vs c).2 cs

theorem carefulB_sound {comp : PL → PL → Prog PL} : ∀ {cs : List Call} {vs : List Held}, carefulB comp vs cs = true → Careful comp vs cs
  | [], _, _ => trivial
  | c :: cs, vs, h => by
    unfold carefulB at h
    rw [Bool.and_eq_true] at h
    exact ⟨allowedB_sound h.1, carefulB_sound h.2⟩

end Verif.Caching
