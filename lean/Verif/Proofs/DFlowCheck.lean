import Verif.Spec.DynamicFlow
import Mathlib.Algebra.Order.Ring.Rat
import Mathlib.Algebra.Order.Group.Abs
import Mathlib.Tactic.Linarith

/-! A decision procedure for `CallsOk` on concrete runs, used only for the examples. -/

namespace Verif
open Verif.Spec

/-- Decides `Far eps a b`. -/
def farB (a b : ℚ) : Bool := decide (b = a) || decide (eps < |a - b|)

theorem farB_sound {a b : ℚ} (h : farB a b = true) : Far eps a b := by
  unfold farB at h
  rcases Bool.or_eq_true _ _ ▸ h with h | h
  · exact Or.inl (of_decide_eq_true h)
  · exact Or.inr (of_decide_eq_true h)

/-- The keys of a dict. -/
def Rates.keys (v : Rates) : List Nat := v.map Prod.fst

theorem Rates.get_of_not_key {v : Rates} {i : Nat} (h : i ∉ v.keys) : v.get i = 0 := by
  unfold Rates.get
  have : v.lookup i = none := by
    induction v with
    | nil => rfl
    | cons p v ih =>
      unfold Rates.keys at h
      simp only [List.map_cons, List.mem_cons, not_or] at h
      obtain ⟨a, b⟩ := p
      rw [List.lookup_cons]
      have : (i == a) = false := by simpa using h.1
      rw [this]
      exact ih h.2
  rw [this]; rfl

/-- Decides `∀ i, Far eps (x (V.get i)) (y (W.get i))` for `x`, `y` that fix 0. -/
def farAll (V W : Rates) (x y : ℚ → ℚ) : Bool := (V.keys ++ W.keys).all (fun i => farB (x (V.get i)) (y (W.get i)))

theorem farAll_sound {V W : Rates} {x y : ℚ → ℚ} (hx : x 0 = 0) (hy : y 0 = 0) (h : farAll V W x y = true) (i : Nat) :
    Far eps (x (V.get i)) (y (W.get i)) := by
  by_cases hm : i ∈ V.keys ++ W.keys
  · exact farB_sound (List.all_eq_true.mp h i hm)
  · rw [List.mem_append, not_or] at hm
    rw [Rates.get_of_not_key hm.1, Rates.get_of_not_key hm.2, hx, hy]
    exact Or.inl rfl

/-- Decides `ClearSet`. -/
def clearSetB (cap tt φ q : ℚ) (v : Rates) (Lin : ℚ) (Vin : Rates) (Rin Lout : ℚ) (Vout : Rates) (Rout b σ : ℚ) : Bool :=
  farB Lin φ && (farB Rin v.total && (farAll Vin v id id && (farB Lout (φ + q / cap + tt) &&
  (farB Rout (outTotal cap q v.total) && (farAll Vout v id (outTotal cap q v.total / v.total * ·) &&
  (farB b φ && (farB σ (queueSlope cap q v.total) &&
  ((!(decide (0 < q) && decide (v.total < cap)) || (decide (eps < cap - v.total) && decide (eps < q / (cap - v.total)))) &&
  (!(decide (0 < q) && (decide (v.total < cap) && decide (0 < v.total))) ||
    (farB (φ + q / cap + tt) (φ + q / (cap - v.total) + tt) && farAll v v (cap / v.total * ·) id))))))))))

theorem clearSetB_sound {cap tt φ q : ℚ} {v : Rates} {Lin : ℚ} {Vin : Rates} {Rin Lout : ℚ} {Vout : Rates} {Rout b σ : ℚ}
    (h : clearSetB cap tt φ q v Lin Vin Rin Lout Vout Rout b σ = true) :
    ClearSet cap tt φ q v Lin Vin Rin Lout Vout Rout b σ := by
  unfold clearSetB at h
  rw [Bool.and_eq_true, Bool.and_eq_true, Bool.and_eq_true, Bool.and_eq_true, Bool.and_eq_true, Bool.and_eq_true,
    Bool.and_eq_true, Bool.and_eq_true, Bool.and_eq_true] at h
  obtain ⟨a1, a2, a3, a4, a5, a6, a7, a8, a9, a10⟩ := h
  refine ⟨farB_sound a1, farB_sound a2, farAll_sound rfl rfl a3, farB_sound a4, farB_sound a5,
    farAll_sound rfl (by simp) a6, farB_sound a7, farB_sound a8, ?_, ?_⟩
  · intro h1 h2
    simp only [h1, h2, decide_true, Bool.and_true, Bool.not_true, Bool.false_or, Bool.and_eq_true, decide_eq_true_eq] at a9
    exact a9
  · intro h1 h2 h3
    simp only [h1, h2, h3, decide_true, Bool.and_true, Bool.not_true, Bool.false_or, Bool.and_eq_true] at a10
    exact ⟨farB_sound a10.1, farAll_sound (by simp) rfl a10.2⟩

/-- Decides `Clear`. -/
def clearB (net : EdgeData) (s : DFlow) (e : Nat) (v : Rates) : Bool :=
  match (s.queues e).eval s.phi, (s.inflow e).queue.getLast?, (s.outflow e).queue.getLast?, (s.queues e).times.getLast? with
  | .ok q, some lin, some lout, some b => clearSetB (net.capacity e) (net.travelTime e) s.phi q v lin.time lin.values (s.inflow e).acc.last
      lout.time lout.values (s.outflow e).acc.last b (s.queues e).last
  | _, _, _, _ => false

theorem clearB_sound {net : EdgeData} {s : DFlow} {e : Nat} {v : Rates} (h : clearB net s e v = true) : Clear net s e v := by
  intro q lin lout b h1 h2 h3 h4
  unfold clearB at h
  rw [h1, h2, h3, h4] at h
  exact clearSetB_sound h

/-- Decides the last condition of `CallOk`. -/
def clearCur (net : EdgeData) (s : DFlow) (p : Nat × Rates) : Bool :=
  match (s.inflow p.1).getValuesAtTime s.phi with
  | .ok (cur, _) => cur.dictEq p.2 || clearB net s p.1 p.2
  | .error _ => true

/-- Decides `CallOk`. -/
def callB (net : EdgeData) (s : DFlow) (l : List (Nat × Rates)) (T : ℚ) : Bool :=
  decide (s.phi ≤ T) && (decide ((l.map Prod.fst).Nodup) &&
  (l.all (fun p => decide ((p.2.map Prod.fst).Nodup) && p.2.all (fun r => decide (0 < r.2))) && l.all (clearCur net s)))

theorem callB_sound {net : EdgeData} {s : DFlow} {l : List (Nat × Rates)} {T : ℚ} (h : callB net s l T = true) : CallOk net s l T := by
  unfold callB at h
  rw [Bool.and_eq_true, Bool.and_eq_true, Bool.and_eq_true] at h
  obtain ⟨a1, a2, a3, a4⟩ := h
  refine ⟨of_decide_eq_true a1, of_decide_eq_true a2, ?_, ?_⟩
  · intro p hp
    have := List.all_eq_true.mp a3 p hp
    rw [Bool.and_eq_true] at this
    exact ⟨of_decide_eq_true this.1, fun r hr => of_decide_eq_true (List.all_eq_true.mp this.2 r hr)⟩
  · intro p hp cur c h1 h2
    have := List.all_eq_true.mp a4 p hp
    unfold clearCur at this
    rw [h1] at this
    simp only [h2, Bool.false_or] at this
    exact clearB_sound this

/-- Decides `CallsOk`. -/
def callsB (net : EdgeData) : DFlow → List FlowCall → Bool
  | _, [] => true
  | s, .extend l T :: calls => callB net s l T &&
    (match stepFlow net s (.extend l T) with
     | .ok s' => callsB net s' calls
     | .error _ => true)
  | s, .look e :: calls =>
    match stepFlow net s (.look e) with
    | .ok s' => callsB net s' calls
    | .error _ => true

theorem callsB_sound {net : EdgeData} : ∀ {calls : List FlowCall} {s : DFlow}, callsB net s calls = true → CallsOk net s calls := by
  intro calls
  induction calls with
  | nil => intros; trivial
  | cons c calls ih =>
    intro s h
    cases c with
    | extend l T =>
      unfold callsB at h
      rw [Bool.and_eq_true] at h
      refine ⟨fun l' T' he => ?_, fun s' hs => ?_⟩
      · injection he with e1 e2; subst e1; subst e2
        exact callB_sound h.1
      · have := h.2
        rw [hs] at this
        exact ih this
    | look e =>
      unfold callsB at h
      refine ⟨fun l' T' he => (by cases he), fun s' hs => ?_⟩
      rw [hs] at h
      exact ih h

/-- Decides, from `DFlow.init`, that the calls are valid and return, and a condition on the final state. -/
def runB (net : EdgeData) (calls : List FlowCall) (post : DFlow → Bool) : Bool :=
  match DFlow.init with
  | .ok s0 => callsB net s0 calls &&
    (match runFlow net s0 calls with
     | .ok s => post s
     | .error _ => false)
  | .error _ => false

theorem runB_sound {net : EdgeData} {calls : List FlowCall} {post : DFlow → Bool} (h : runB net calls post = true) :
    ∃ s0 s, DFlow.init = .ok s0 ∧ CallsOk net s0 calls ∧ runFlow net s0 calls = .ok s ∧ post s = true := by
  unfold runB at h
  cases h0 : DFlow.init with
  | error e => rw [h0] at h; cases h
  | ok s0 =>
    rw [h0] at h
    simp only [Bool.and_eq_true] at h
    cases h1 : runFlow net s0 calls with
    | error e => rw [h1] at h; cases h.2
    | ok s =>
      rw [h1] at h
      exact ⟨s0, s, rfl, callsB_sound h.1, h1, h.2⟩

end Verif
