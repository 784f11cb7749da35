import Verif.Model.DynamicFlow
import Verif.Proofs.HeapMap

/-! The depletion queue of src/core/dynamic_flow.py stores a map from edges to planned events. -/

namespace Verif

/-- A planned depletion: its time, and the outflow that starts a travel time later, if any. -/
abbrev Pend := Option (ℚ × Option (Rates × ℚ))

theorem ev_toRat (x : ℚ) : (ev x).toRat = .ok x := rfl
theorem ev_le {x y : ℚ} : ev x ≤ ev y ↔ x ≤ y := by
  unfold ev EVal.fin
  rw [WithBot.coe_le_coe, WithTop.coe_le_coe]
theorem ev_inj {x y : ℚ} (h : ev x = ev y) : x = y := by
  have h1 : ev x ≤ ev y := le_of_eq h
  have h2 : ev y ≤ ev x := le_of_eq h.symm
  exact le_antisymm (ev_le.mp h1) (ev_le.mp h2)
theorem ev_lt_top (x : ℚ) : ev x < ⊤ := by
  unfold ev EVal.fin
  exact WithBot.coe_lt_coe.mpr (WithTop.coe_lt_top x)

namespace DepQ

/-- Key map of the depletions. -/
def dmap (P : Nat → Pend) : Nat → Option EVal := fun e => (P e).map (fun p => ev p.1)
/-- Key map of the change times. -/
def cmap (tt : Nat → ℚ) (P : Nat → Pend) : Nat → Option EVal :=
  fun e => (P e).bind (fun p => p.2.map (fun _ => ev (p.1 + tt e)))

/-- The queue stores the planned events `P`. -/
structure Rep (tt : Nat → ℚ) (q : DepQ) (P : Nat → Pend) : Prop where
  dep : q.depletions.Rep (dmap P)
  chg : q.changeTimes.Rep (cmap tt P)
  out : ∀ e, q.newOutflow e = (P e).bind (fun p => p.2)

variable {tt : Nat → ℚ} {q : DepQ} {P : Nat → Pend}

theorem rep_empty : Rep tt DepQ.empty (fun _ => none) :=
  ⟨Heap.rep_empty, Heap.rep_empty, fun _ => rfl⟩

/-- Update of the map. -/
def upd (P : Nat → Pend) (e : Nat) (x : Pend) : Nat → Pend := fun j => if j = e then x else P j

theorem upd_self (P : Nat → Pend) (e : Nat) (x : Pend) : upd P e x e = x := if_pos rfl
theorem upd_ne (P : Nat → Pend) {e j : Nat} (x : Pend) (h : j ≠ e) : upd P e x j = P j := if_neg h

theorem dmap_upd (P : Nat → Pend) (e : Nat) (x : Pend) (j : Nat) :
    dmap (upd P e x) j = if j = e then x.map (fun p => ev p.1) else dmap P j := by
  unfold dmap upd; split <;> rfl

theorem cmap_upd (P : Nat → Pend) (e : Nat) (x : Pend) (j : Nat) :
    cmap tt (upd P e x) j = if j = e then x.bind (fun p => p.2.map (fun _ => ev (p.1 + tt e))) else cmap tt P j := by
  unfold cmap upd; split
  · rename_i h; subst h; rfl
  · rfl

theorem chg_none (e : Nat) : cmap tt P e = none ↔ (P e).bind (fun p => p.2) = none := by
  unfold cmap
  cases P e with
  | none => simp
  | some p => simp

theorem out_upd (h : Rep tt q P) (e : Nat) (x : Pend) (d : Nat → Option (Rates × ℚ))
    (hd : ∀ j, d j = if j = e then x.bind (fun p => p.2) else q.newOutflow j) :
    ∀ j, d j = (upd P e x j).bind (fun p => p.2) := by
  intro j
  rw [hd j]
  unfold upd
  split
  · rfl
  · exact h.out j

theorem set_rep (h : Rep tt q P) (e : Nat) (D : ℚ) (x : Option (Rates × ℚ)) :
    ∃ q', q.set e D (x.map (fun v => (D + tt e, v))) = .ok q' ∧ Rep tt q' (upd P e (some (D, x))) := by
  obtain ⟨h1, e1, r1⟩ := h.dep.set e (ev D)
  have r1' : h1.Rep (dmap (upd P e (some (D, x)))) := r1.congr (fun j => by rw [dmap_upd]; rfl)
  unfold DepQ.set
  rw [e1, ok_bind]
  cases x with
  | some v =>
    obtain ⟨h2, e2, r2⟩ := h.chg.set e (ev (D + tt e))
    simp only [Option.map_some]
    rw [e2, ok_bind]
    refine ⟨_, rfl, r1', r2.congr (fun j => by rw [cmap_upd]; rfl), out_upd h e _ _ (fun j => ?_)⟩
    unfold setAt; rfl
  | none =>
    simp only [Option.map_none]
    rw [h.chg.has]
    cases hc : cmap tt P e with
    | none =>
      refine ⟨_, rfl, r1', h.chg.congr (fun j => ?_), out_upd h e _ _ (fun j => ?_)⟩
      · rw [cmap_upd]; split
        · rename_i hj; subst hj; rw [hc]; rfl
        · rfl
      · split
        · rename_i hj; subst hj; rw [h.out, (chg_none j).mp hc]; rfl
        · rfl
    | some k =>
      obtain ⟨h2, e2, r2⟩ := h.chg.remove (x := e) (by rw [hc]; simp)
      simp only [Option.isSome_some, if_true]
      rw [e2, ok_bind]
      have hne : q.newOutflow e ≠ none := by
        rw [h.out]; intro hn; rw [(chg_none e).mpr hn] at hc; cases hc
      obtain ⟨v, hv⟩ := Option.ne_none_iff_exists'.mp hne
      unfold popOutflow
      rw [hv]
      simp only [ok_bind]
      refine ⟨_, rfl, r1', r2.congr (fun j => ?_), out_upd h e _ _ (fun j => ?_)⟩
      · rw [cmap_upd]; rfl
      · unfold setAt; rfl

theorem remove_rep (h : Rep tt q P) {e : Nat} (he : P e ≠ none) :
    ∃ q', q.remove e = .ok q' ∧ Rep tt q' (upd P e none) := by
  obtain ⟨p, hp⟩ := Option.ne_none_iff_exists'.mp he
  obtain ⟨h1, e1, r1⟩ := h.dep.remove (x := e) (by unfold dmap; rw [hp]; simp)
  have r1' : h1.Rep (dmap (upd P e none)) := r1.congr (fun j => by rw [dmap_upd]; rfl)
  unfold DepQ.remove
  rw [e1, ok_bind, h.chg.has]
  cases hc : cmap tt P e with
  | none =>
    refine ⟨_, rfl, r1', h.chg.congr (fun j => ?_), out_upd h e _ _ (fun j => ?_)⟩
    · rw [cmap_upd]; split
      · rename_i hj; subst hj; rw [hc]; rfl
      · rfl
    · split
      · rename_i hj; subst hj; rw [h.out, (chg_none j).mp hc]; rfl
      · rfl
  | some k =>
    obtain ⟨h2, e2, r2⟩ := h.chg.remove (x := e) (by rw [hc]; simp)
    simp only [Option.isSome_some, if_true]
    rw [e2, ok_bind]
    have hne : q.newOutflow e ≠ none := by
      rw [h.out]; intro hn; rw [(chg_none e).mpr hn] at hc; cases hc
    obtain ⟨v, hv⟩ := Option.ne_none_iff_exists'.mp hne
    unfold popOutflow
    rw [hv]
    simp only [ok_bind]
    refine ⟨_, rfl, r1', r2.congr (fun j => ?_), out_upd h e _ _ (fun j => ?_)⟩
    · rw [cmap_upd]; rfl
    · unfold setAt; rfl

theorem has_rep (h : Rep tt q P) (e : Nat) : q.depletions.has e = (P e).isSome := by
  rw [h.dep.has]; unfold dmap; cases P e <;> rfl

/-- Either nothing is planned, or the earliest depletion is popped. -/
theorem pop_rep (h : Rep tt q P) :
    (q.depletions.len = 0 ∧ ∀ e, P e = none) ∨
    ∃ e D x q', P e = some (D, x) ∧ q.depletions.len > 0 ∧ q.depletions.minKey = .ok (ev D) ∧
      (∀ j D' x', P j = some (D', x') → D ≤ D') ∧
      q.popByDepletion = .ok (e, D, x.map (fun v => (D + tt e, v)), q') ∧ Rep tt q' (upd P e none) ∧
      q'.depletions.len + 1 = q.depletions.len := by
  rcases h.dep.cases with ⟨hd, hn⟩ | ⟨h', e, k, hd, hk, hi, hpop, hM, hmin, hr, hlen⟩
  · left
    refine ⟨by unfold Heap.len; rw [hd]; rfl, fun e => ?_⟩
    have := hn e
    unfold dmap at this
    simpa using this
  · right
    unfold dmap at hM
    cases hp : P e with
    | none => rw [hp] at hM; cases hM
    | some p =>
      obtain ⟨D, x⟩ := p
      rw [hp] at hM
      simp only [Option.map_some, Option.some.injEq] at hM
      subst hM
      have hpos : q.depletions.data.length > 0 := List.length_pos_iff.mpr hd
      have hmk : q.depletions.minKey = .ok (ev D) := by
        unfold Heap.minKey
        rw [if_neg (by omega), rd_lt _ _ hpos, ok_bind]
        rw [List.getElem?_eq_getElem hpos] at hk
        simp at hk
        rw [hk]; rfl
      have hmin' : ∀ j D' x', P j = some (D', x') → D ≤ D' := by
        intro j D' x' hj
        have := hmin j (ev D') (by unfold dmap; rw [hj]; rfl)
        exact ev_le.mp this
      have r1' : h'.Rep (dmap (upd P e none)) := hr.congr (fun j => by rw [dmap_upd]; rfl)
      have hcx : cmap tt P e = x.map (fun _ => ev (D + tt e)) := by unfold cmap; rw [hp]; rfl
      have hox : q.newOutflow e = x := by rw [h.out, hp]; rfl
      cases x with
      | none =>
        refine ⟨e, D, none, ⟨h', q.changeTimes, q.newOutflow⟩, hp, hpos, hmk, hmin', ?_, ⟨r1', h.chg.congr (fun j => ?_), out_upd h e _ _ (fun j => ?_)⟩, hlen⟩
        · unfold popByDepletion
          rw [hmk, ok_bind, ev_toRat, ok_bind, hpop, ok_bind]
          simp only
          rw [h.chg.has, hcx]; rfl
        · rw [cmap_upd]; split
          · rename_i hj; subst hj; rw [hcx]; rfl
          · rfl
        · split
          · rename_i hj; subst hj; rw [hox]; rfl
          · rfl
      | some v =>
        obtain ⟨h2, e2, r2⟩ := h.chg.remove (x := e) (by rw [hcx]; simp)
        refine ⟨e, D, some v, ⟨h', h2, setAt q.newOutflow e none⟩, hp, hpos, hmk, hmin', ?_, ⟨r1', r2.congr (fun j => ?_), out_upd h e _ _ (fun j => ?_)⟩, hlen⟩
        · unfold popByDepletion
          rw [hmk, ok_bind, ev_toRat, ok_bind, hpop, ok_bind]
          simp only
          rw [h.chg.has, hcx]
          simp only [Option.map_some, Option.isSome_some, if_true]
          rw [h.chg.keyOf, ok_bind, hcx]
          simp only [Option.map_some]
          rw [ev_toRat, ok_bind, e2, ok_bind]
          unfold popOutflow
          rw [hox]
          rfl
        · rw [cmap_upd]; rfl
        · unfold setAt; rfl

theorem minKey_none (h : Rep tt q P) (hn : ∀ e, P e = none) :
    q.depletions.minKey = .ok ⊤ ∧ q.depletions.len = 0 := by
  rcases pop_rep h with ⟨h1, _⟩ | ⟨e, D, x, _, hp, _⟩
  · refine ⟨?_, h1⟩
    unfold Heap.minKey; unfold Heap.len at h1; rw [if_pos h1]
  · rw [hn] at hp; cases hp

end DepQ
end Verif
