import Verif.Proofs.TwinBuilder

/-! Renaming the commodities of a flow: every operation on flows commutes with it. -/

namespace Verif
open Spec

theorem map_bind_py {α β γ : Type} (f : α → β) (x : Py α) (g : β → Py γ) : (Except.map f x) >>= g = x >>= fun a => g (f a) := by cases x <;> rfl
theorem bind_map_py {α β γ : Type} (f : β → γ) (x : Py α) (g : α → Py β) : Except.map f (x >>= g) = x >>= fun a => Except.map f (g a) := by cases x <;> rfl
theorem bind_same {α β : Type} {x : Py α} {f g : α → Py β} (h : ∀ a, f a = g a) : x >>= f = x >>= g := by cases x; rfl; exact h _
theorem ite_map_py {α β : Type} {c : Prop} [Decidable c] {f : α → β} {a b : Py α} {a' b' : Py β} (h1 : a' = Except.map f a) (h2 : b' = Except.map f b) :
    (if c then a' else b') = Except.map f (if c then a else b) := by split <;> assumption
theorem map_ok_py {α β : Type} {f : α → β} {x : Py α} {y : β} : Except.map f x = .ok y ↔ ∃ a, x = .ok a ∧ f a = y := by
  cases x with
  | error e => constructor; (intro h; cases h); rintro ⟨a, h, _⟩; cases h
  | ok a => constructor; (intro h; injection h with h; exact ⟨a, rfl, h⟩); rintro ⟨b, h, rfl⟩; injection h with h; subst h; rfl

variable (σ : Equiv.Perm ℕ)

/-- The dict with renamed keys. -/
def Rates.ren (v : Rates) : Rates := v.map (fun p => (σ p.1, p.2))

namespace Rates

theorem lookup_ren (v : Rates) (i : Nat) : (v.ren σ).lookup (σ i) = v.lookup i := by
  unfold ren
  induction v with
  | nil => rfl
  | cons p v ih =>
    rw [List.map_cons, List.lookup_cons]
    obtain ⟨k, x⟩ := p
    rw [List.lookup_cons]
    have : (σ i == σ k) = (i == k) := by rw [Bool.eq_iff_iff]; simp
    simp only [this, ih]

theorem get_ren (v : Rates) (i : Nat) : (v.ren σ).get (σ i) = v.get i := by unfold get; rw [lookup_ren]

theorem has_ren (v : Rates) (i : Nat) : (v.ren σ).has (σ i) = v.has i := by unfold has; rw [lookup_ren]

theorem total_ren (v : Rates) : (v.ren σ).total = v.total := by
  unfold total ren; rw [List.map_map]; rfl

theorem scale_ren (c : ℚ) (v : Rates) : (v.ren σ).scale c = (v.scale c).ren σ := by
  unfold scale ren; rw [List.map_map, List.map_map]; rfl

theorem dictEq_ren (a b : Rates) : (a.ren σ).dictEq (b.ren σ) = a.dictEq b := by
  unfold dictEq
  have h : ∀ x : Rates, (x.ren σ).length = x.length := fun x => List.length_map _
  rw [h, h]
  congr 1
  have : ∀ p : Nat × ℚ, ((b.ren σ).lookup (σ p.1) == some p.2) = (b.lookup p.1 == some p.2) := fun p => by rw [lookup_ren]
  rw [show a.ren σ = a.map (fun p => (σ p.1, p.2)) from rfl, List.all_map]
  simp only [Function.comp_def, this]

theorem ren_pos {v : Rates} : (∀ p ∈ v.ren σ, 0 < p.2) ↔ ∀ p ∈ v, 0 < p.2 := by
  unfold ren
  constructor
  · intro h p hp; exact h (σ p.1, p.2) (List.mem_map.mpr ⟨p, hp, rfl⟩)
  · intro h p hp
    obtain ⟨q, hq, rfl⟩ := List.mem_map.mp hp
    exact h q hq

theorem ren_keys (v : Rates) : (v.ren σ).map Prod.fst = (v.map Prod.fst).map σ := by
  unfold ren; rw [List.map_map, List.map_map]; rfl

theorem ren_nodup {v : Rates} (h : (v.map Prod.fst).Nodup) : ((v.ren σ).map Prod.fst).Nodup := by
  rw [ren_keys]; exact h.map σ.injective

theorem ren_symm (v : Rates) : (v.ren σ).ren σ.symm = v := by
  unfold ren; rw [List.map_map]; simp [Function.comp_def]

end Rates

theorem SameDict.ren {v w : Rates} (h : SameDict v w) : SameDict (v.ren σ) (w.ren σ) := ⟨h.perm.map _, Rates.ren_nodup σ h.nodup⟩

/-- The item with renamed keys. -/
def FRItem.ren (a : FRItem) : FRItem := ⟨a.time, a.values.ren σ⟩

theorem FRItem.new_ren (t : ℚ) (v : Rates) : FRItem.new t (v.ren σ) = Except.map (FRItem.ren σ) (FRItem.new t v) := by
  unfold FRItem.new
  by_cases h : ∀ p ∈ v, 0 < p.2
  · rw [pyAssert_true h, pyAssert_true ((Rates.ren_pos σ).mpr h)]; rfl
  · rw [pyAssert_false h, pyAssert_false (fun h' => h ((Rates.ren_pos σ).mp h'))]; rfl

namespace FRC

/-- The dict of functions with renamed keys. -/
def renDict (d : Nat → Option RC) : Nat → Option RC := fun j => d (σ.symm j)

/-- The collection with renamed keys. -/
def ren (c : FRC) : FRC := ⟨renDict σ c.funs, c.queue.map (FRItem.ren σ), c.acc⟩

theorem renDict_at (d : Nat → Option RC) (i : Nat) : renDict σ d (σ i) = d i := by unfold renDict; rw [Equiv.symm_apply_apply]

theorem put_ren (d : Nat → Option RC) (i : Nat) (f : RC) : put (renDict σ d) (σ i) f = renDict σ (put d i f) := by
  funext j
  unfold renDict put
  simp only
  by_cases h : j = σ i
  · rw [if_pos h, if_pos (by rw [h, Equiv.symm_apply_apply])]
  · rw [if_neg h, if_neg (fun h' => h (by rw [← h', Equiv.apply_symm_apply]))]

theorem entry_ren (d : Nat → Option RC) (i : Nat) : entry (renDict σ d) (σ i) = entry d i := by unfold entry; rw [renDict_at]

theorem extendLoop_ren (t : ℚ) (v : Rates) : ∀ d, extendLoop t (v.ren σ) (renDict σ d) = Except.map (renDict σ) (extendLoop t v d) := by
  induction v with
  | nil => intro d; rfl
  | cons p v ih =>
    intro d
    obtain ⟨i, x⟩ := p
    rw [show Rates.ren σ ((i, x) :: v) = (σ i, x) :: Rates.ren σ v from rfl]
    simp only [extendLoop, entry_ren, put_ren, bind_map_py, ih]

theorem freshLoop_ren (t : ℚ) (v : Rates) : ∀ d, freshLoop t (v.ren σ) (renDict σ d) = Except.map (renDict σ) (freshLoop t v d) := by
  induction v with
  | nil => intro d; rfl
  | cons p v ih =>
    intro d
    obtain ⟨i, x⟩ := p
    rw [show Rates.ren σ ((i, x) :: v) = (σ i, x) :: Rates.ren σ v from rfl]
    simp only [freshLoop, put_ren, bind_map_py, ih]

theorem dropLoop_ren (t : ℚ) (w v : Rates) : ∀ d, dropLoop t (w.ren σ) (v.ren σ) (renDict σ d) = Except.map (renDict σ) (dropLoop t w v d) := by
  induction v with
  | nil => intro d; rfl
  | cons p v ih =>
    intro d
    obtain ⟨i, x⟩ := p
    rw [show Rates.ren σ ((i, x) :: v) = (σ i, x) :: Rates.ren σ v from rfl]
    simp only [dropLoop, Rates.has_ren, renDict_at]
    split
    · exact ih d
    · cases d i with
      | none => rfl
      | some f => simp only [put_ren, bind_map_py, ih]

theorem extend_ren (c : FRC) (t : ℚ) (v : Rates) (s : ℚ) : (c.ren σ).extend t (v.ren σ) s = Except.map (ren σ) (c.extend t v s) := by
  unfold extend
  simp only [FRItem.new_ren, map_bind_py, bind_map_py]
  refine bind_same (fun item => ?_)
  simp only [ren, List.getLast?_map]
  cases c.queue.getLast? with
  | none => simp only [Option.map_none, freshLoop_ren, map_bind_py, bind_map_py]; rfl
  | some tail =>
    simp only [Option.map_some, FRItem.ren, extendLoop_ren, dropLoop_ren, map_bind_py, bind_map_py]
    refine bind_same (fun _ => bind_same (fun _ => bind_same (fun _ => bind_same (fun _ => ?_))))
    simp only [py_pure, Except.map, ren, List.map_append, List.map_cons, List.map_nil]; rfl

theorem advanceHead_ren (t : ℚ) : ∀ q : List FRItem, advanceHead t (q.map (FRItem.ren σ)) = (advanceHead t q).map (FRItem.ren σ)
  | [] => rfl
  | [a] => rfl
  | a :: b :: l => by
    have := advanceHead_ren t (b :: l)
    simp only [List.map_cons] at this ⊢
    unfold advanceHead
    rw [show (FRItem.ren σ b).time = b.time from rfl]
    split
    · exact this
    · rfl

theorem getValues_ren (c : FRC) (t : ℚ) : (c.ren σ).getValuesAtTime t = Except.map (fun p => (p.1.ren σ, p.2.ren σ)) (c.getValuesAtTime t) := by
  obtain ⟨funs, q, acc⟩ := c
  unfold getValuesAtTime
  simp only [ren]
  cases q with
  | nil => rfl
  | cons h l =>
    have := advanceHead_ren σ t (h :: l)
    simp only [List.map_cons] at this ⊢
    rw [show (FRItem.ren σ h).time = h.time from rfl, this]
    split
    · rfl
    · cases advanceHead t (h :: l) with
      | nil => rfl
      | cons a r => rfl

theorem ren_symm (c : FRC) : (c.ren σ).ren σ.symm = c := by
  obtain ⟨f, q, a⟩ := c
  unfold ren
  congr 1
  · funext j; unfold renDict; simp
  · simp only [List.map_map]
    conv_rhs => rw [← List.map_id q]
    apply List.map_congr_left
    intro b _
    simp only [Function.comp, FRItem.ren, Rates.ren_symm, id]

theorem Twin.ren {t : ℚ} {c d : FRC} (h : Twin t c d) : Twin t (c.ren σ) (d.ren σ) := by
  refine ⟨by unfold FRC.ren; simp only [h.funs], h.acc, ?_, ?_, ?_⟩
  · obtain ⟨a, ha, hat⟩ := h.headc
    exact ⟨a.ren σ, by simp [FRC.ren, ha], hat⟩
  · obtain ⟨a, ha, hat⟩ := h.headd
    exact ⟨a.ren σ, by simp [FRC.ren, ha], hat⟩
  · simp only [FRC.ren, advanceHead_ren]
    rw [List.forall₂_map_left_iff, List.forall₂_map_right_iff]
    exact h.queue.imp (fun a b hab => ⟨hab.1, hab.2.ren σ⟩)

end FRC

namespace DepQ

/-- The planned outflow with renamed keys. -/
def renOut (v : Rates × ℚ) : Rates × ℚ := (v.1.ren σ, v.2)

/-- The queue of depletions with renamed keys. -/
def ren (q : DepQ) : DepQ := ⟨q.depletions, q.changeTimes, fun e => (q.newOutflow e).map (renOut σ)⟩

theorem setAt_ren (d : Nat → Option (Rates × ℚ)) (e : Nat) (x : Option (Rates × ℚ)) :
    setAt (fun e => (d e).map (renOut σ)) e (x.map (renOut σ)) = fun j => (setAt d e x j).map (renOut σ) := by
  funext j; unfold setAt; split <;> rfl

theorem popOutflow_ren (d : Nat → Option (Rates × ℚ)) (e : Nat) :
    popOutflow (fun e => (d e).map (renOut σ)) e = Except.map (fun p => (renOut σ p.1, fun j => (p.2 j).map (renOut σ))) (popOutflow d e) := by
  unfold popOutflow
  cases h : d e with
  | none => simp only [h]; rfl
  | some v =>
    simp only [h, Option.map_some, Except.map]
    rw [← setAt_ren]; rfl

theorem set_ren (q : DepQ) (e : Nat) (t : ℚ) (c : Option (ℚ × (Rates × ℚ))) :
    (q.ren σ).set e t (c.map (fun p => (p.1, renOut σ p.2))) = Except.map (ren σ) (q.set e t c) := by
  unfold set
  simp only [ren, bind_map_py]
  refine bind_same (fun _ => ?_)
  cases c with
  | some p =>
    obtain ⟨ct, v⟩ := p
    simp only [Option.map_some, bind_map_py]
    refine bind_same (fun _ => ?_)
    have := setAt_ren σ q.newOutflow e (some v)
    simp only [Option.map_some] at this
    simp only [py_pure, Except.map, this]; rfl
  | none =>
    simp only [Option.map_none]
    refine ite_map_py ?_ rfl
    simp only [bind_map_py, popOutflow_ren, map_bind_py]; rfl

theorem remove_ren (q : DepQ) (e : Nat) : (q.ren σ).remove e = Except.map (ren σ) (q.remove e) := by
  unfold remove
  simp only [ren, bind_map_py]
  refine bind_same (fun _ => ?_)
  refine ite_map_py ?_ rfl
  simp only [bind_map_py, popOutflow_ren, map_bind_py]; rfl

theorem pop_ren (q : DepQ) : (q.ren σ).popByDepletion = Except.map (fun r => (r.1, r.2.1, r.2.2.1.map (fun p => (p.1, renOut σ p.2)), r.2.2.2.ren σ)) q.popByDepletion := by
  unfold popByDepletion
  simp only [ren, bind_map_py]
  refine bind_same (fun _ => bind_same (fun _ => bind_same (fun _ => ?_)))
  refine ite_map_py ?_ rfl
  simp only [bind_map_py, popOutflow_ren, map_bind_py]
  rfl

end DepQ

namespace DFlow

/-- The flow with renamed commodities. -/
def ren (s : DFlow) : DFlow :=
  { s with inflow := fun e => (s.inflow e).ren σ, outflow := fun e => (s.outflow e).ren σ, deps := s.deps.ren σ }

theorem setAt_renF (d : Nat → FRC) (e : Nat) (c : FRC) : setAt (fun e => (d e).ren σ) e (c.ren σ) = fun j => (setAt d e c j).ren σ := by
  funext j; unfold setAt; split <;> rfl

variable {σ} {net : EdgeData}

theorem caseI_ren (s : DFlow) (e : Nat) (q : ℚ) : caseI net (s.ren σ) e q = Except.map (ren σ) (caseI net s e q) := by
  unfold caseI
  have h := FRC.extend_ren σ (s.outflow e) (s.phi + q / net.capacity e + net.travelTime e) [] 0
  rw [show Rates.ren σ [] = [] from rfl] at h
  have hd := fun (d : ℚ) => DepQ.set_ren σ s.deps e d none
  simp only [Option.map_none] at hd
  simp only [ren, h, map_bind_py, bind_map_py]
  refine bind_same (fun _ => bind_same (fun _ => bind_same (fun _ => ?_)))
  refine ite_map_py ?_ (ite_map_py ?_ ?_)
  · simp only [hd, map_bind_py, bind_map_py, setAt_renF]; rfl
  · simp only [DepQ.remove_ren, map_bind_py, bind_map_py, setAt_renF]; rfl
  · simp only [setAt_renF]; rfl

theorem caseII_ren (s : DFlow) (e : Nat) (v : Rates) (q a : ℚ) : caseII net (s.ren σ) e (v.ren σ) q a = Except.map (ren σ) (caseII net s e v q a) := by
  unfold caseII
  simp only [ren, Rates.scale_ren, FRC.extend_ren, map_bind_py, bind_map_py]
  refine bind_same (fun _ => bind_same (fun _ => bind_same (fun _ => ?_)))
  refine ite_map_py ?_ ?_
  · simp only [DepQ.remove_ren, map_bind_py, bind_map_py, setAt_renF]; rfl
  · simp only [setAt_renF]; rfl

theorem caseIII_ren (s : DFlow) (e : Nat) (v : Rates) (q a : ℚ) : caseIII net (s.ren σ) e (v.ren σ) q a = Except.map (ren σ) (caseIII net s e v q a) := by
  unfold caseIII
  have hd := fun (d ct : ℚ) => DepQ.set_ren σ s.deps e d (some (ct, (v, a)))
  simp only [Option.map_some, DepQ.renOut] at hd
  simp only [ren, Rates.scale_ren, FRC.extend_ren, map_bind_py, bind_map_py]
  refine bind_same (fun _ => bind_same (fun _ => bind_same (fun _ => bind_same (fun _ => bind_same (fun _ => ?_)))))
  simp only [hd, map_bind_py, bind_map_py, setAt_renF]; rfl

theorem setInflow_ren (s : DFlow) (e : Nat) (v : Rates) : setInflow net (s.ren σ) e (v.ren σ) = Except.map (ren σ) (setInflow net s e v) := by
  unfold setInflow
  rw [show ((s.ren σ).inflow e) = (s.inflow e).ren σ from rfl, show (s.ren σ).phi = s.phi from rfl]
  simp only [FRC.getValues_ren, map_bind_py, bind_map_py]
  refine bind_same (fun r => ?_)
  obtain ⟨cur, c⟩ := r
  simp only [Rates.dictEq_ren]
  refine ite_map_py ?_ ?_
  · simp only [py_pure, Except.map, ren, setAt_renF]
  · simp only [bind_map_py, Rates.total_ren]
    refine bind_same (fun x => ?_)
    simp only [setAt_self, FRC.extend_ren, map_bind_py, bind_map_py]
    refine bind_same (fun c' => ?_)
    have key : ({ s.ren σ with inflow := setAt (setAt (s.ren σ).inflow e (c.ren σ)) e (c'.ren σ) } : DFlow) = ren σ { s with inflow := setAt (setAt s.inflow e c) e c' } := by
      simp only [ren, setAt_renF]
    have g : ∀ z, z = ren σ { s with inflow := setAt (setAt s.inflow e c) e c' } →
        (if v.total = 0 then caseI net z e (max x 0) else if max x 0 = 0 ∨ v.total ≥ net.capacity e - eps then caseII net z e (v.ren σ) (max x 0) v.total else caseIII net z e (v.ren σ) (max x 0) v.total) =
          Except.map (ren σ) (if v.total = 0 then caseI net { s with inflow := setAt (setAt s.inflow e c) e c' } e (max x 0) else
            if max x 0 = 0 ∨ v.total ≥ net.capacity e - eps then caseII net { s with inflow := setAt (setAt s.inflow e c) e c' } e v (max x 0) v.total
            else caseIII net { s with inflow := setAt (setAt s.inflow e c) e c' } e v (max x 0) v.total) := by
      rintro z rfl
      exact ite_map_py (caseI_ren _ _ _) (ite_map_py (caseII_ren _ _ _ _ _) (caseIII_ren _ _ _ _ _))
    exact g _ key

theorem setInflows_ren : ∀ (l : List (Nat × Rates)) (s : DFlow), setInflows net (l.map (fun p => (p.1, p.2.ren σ))) (s.ren σ) = Except.map (ren σ) (setInflows net l s) := by
  intro l
  induction l with
  | nil => intro s; rfl
  | cons p l ih =>
    intro s
    obtain ⟨e, v⟩ := p
    simp only [List.map_cons, setInflows, setInflow_ren, map_bind_py, bind_map_py, ih]

theorem processDepletion_ren (s : DFlow) : processDepletion (s.ren σ) = Except.map (ren σ) (processDepletion s) := by
  unfold processDepletion
  simp only [ren, DepQ.pop_ren, map_bind_py, bind_map_py]
  refine bind_same (fun r => ?_)
  obtain ⟨e, depl, change, deps⟩ := r
  simp only
  refine bind_same (fun _ => bind_same (fun _ => bind_same (fun _ => ?_)))
  cases change with
  | none => rfl
  | some p =>
    obtain ⟨ct, v, a⟩ := p
    simp only [Option.map_some, DepQ.renOut, bind_map_py, FRC.extend_ren, map_bind_py, setAt_renF]; rfl

theorem processDepletions_ren : ∀ (k : Nat) (s : DFlow), processDepletions k (s.ren σ) = Except.map (ren σ) (processDepletions k s) := by
  intro k
  induction k with
  | zero => intro s; rfl
  | succ k ih =>
    intro s
    unfold processDepletions
    rw [show (s.ren σ).deps.depletions = s.deps.depletions from rfl, show (s.ren σ).phi = s.phi from rfl, bind_map_py]
    refine bind_same (fun x => ?_)
    refine ite_map_py ?_ rfl
    simp only [processDepletion_ren, map_bind_py, bind_map_py, ih]

theorem collectChanges_ren : ∀ (k : Nat) (s : DFlow) (acc : List Nat), collectChanges k (s.ren σ) acc = Except.map (fun p => (p.1.ren σ, p.2)) (collectChanges k s acc) := by
  intro k
  induction k with
  | zero => intro s acc; rfl
  | succ k ih =>
    intro s acc
    unfold collectChanges
    rw [show (s.ren σ).changes = s.changes from rfl, show (s.ren σ).phi = s.phi from rfl, bind_map_py]
    refine bind_same (fun x => ?_)
    refine ite_map_py ?_ rfl
    rw [bind_map_py]
    refine bind_same (fun r => ?_)
    exact ih { s with changes := r.1 } _

/-- Extending a renamed flow with renamed rates. -/
theorem extend_ren (s : DFlow) (l : List (Nat × Rates)) (T : ℚ) :
    (s.ren σ).extend net (l.map (fun p => (p.1, p.2.ren σ))) T = Except.map (fun p => (p.1.ren σ, p.2)) (s.extend net l T) := by
  unfold extend
  simp only [setInflows_ren, map_bind_py, bind_map_py]
  refine bind_same (fun s1 => ?_)
  refine bind_same (fun a => bind_same (fun b => bind_same (fun phi => ?_)))
  have := processDepletions_ren (σ := σ) (s1.deps.depletions.len + 1) { s1 with phi := phi }
  rw [show ren σ { s1 with phi := phi } = { s1.ren σ with phi := phi } from rfl] at this
  rw [show (s1.ren σ).deps.depletions = s1.deps.depletions from rfl, this, map_bind_py]
  refine bind_same (fun s2 => ?_)
  exact collectChanges_ren _ s2 []

theorem ren_symm (s : DFlow) : (s.ren σ).ren σ.symm = s := by
  obtain ⟨phi, inf, out, q, ch, deps⟩ := s
  simp only [ren, FRC.ren_symm]
  congr 1
  unfold DepQ.ren
  obtain ⟨a, b, c⟩ := deps
  simp only
  congr 1
  funext e
  cases c e with
  | none => rfl
  | some v => obtain ⟨v, x⟩ := v; simp only [Option.map_some, DepQ.renOut, Rates.ren_symm]

/-- The planned depletion with renamed keys. -/
def renPend (σ : Equiv.Perm ℕ) (p : Pend) : Pend := p.map (fun x => (x.1, x.2.map (DepQ.renOut σ)))

theorem rep_ren {s : DFlow} {P : Nat → Pend} {C : Nat × ℚ → Bool} (h : Rep net s P C) : Rep net (s.ren σ) (fun e => renPend σ (P e)) C := by
  have h1 : DepQ.dmap (fun e => renPend σ (P e)) = DepQ.dmap P := by
    funext e; simp only [DepQ.dmap, renPend]; cases P e with
    | none => rfl
    | some x => rfl
  have h2 : DepQ.cmap net.travelTime (fun e => renPend σ (P e)) = DepQ.cmap net.travelTime P := by
    funext e; simp only [DepQ.cmap, renPend]; cases P e with
    | none => rfl
    | some x => obtain ⟨D, y⟩ := x; cases y <;> rfl
  refine ⟨⟨by rw [h1]; exact h.deps.dep, by rw [h2]; exact h.deps.chg, fun e => ?_⟩, h.chg⟩
  show (s.deps.newOutflow e).map (DepQ.renOut σ) = _
  rw [h.deps.out e]
  simp only [renPend]
  cases P e with
  | none => rfl
  | some x => rfl

theorem Twin.ren (σ : Equiv.Perm ℕ) {s t : DFlow} (h : Twin net s t) : Twin net (s.ren σ) (t.ren σ) := by
  obtain ⟨P, C, Q, D, r1, r2, tw, twc⟩ := h.loc
  refine ⟨h.phi, _, C, _, D, rep_ren r1, rep_ren r2, fun e => ⟨(tw e).inflow.ren σ, (tw e).outflow.ren σ, (tw e).queue, ?_⟩, twc⟩
  have hp : SamePend (P e) (Q e) := (tw e).pend
  show SamePend (renPend σ (P e)) (renPend σ (Q e))
  rcases hp with ⟨h1, h2⟩ | ⟨D, h1, h2⟩ | ⟨D, v, w, a, h1, h2, h3⟩
  · rw [h1, h2]; exact Or.inl ⟨rfl, rfl⟩
  · rw [h1, h2]; exact Or.inr (Or.inl ⟨D, rfl, rfl⟩)
  · rw [h1, h2]; exact Or.inr (Or.inr ⟨D, v.ren σ, w.ren σ, a, rfl, rfl, h3.ren σ⟩)

end DFlow
end Verif
