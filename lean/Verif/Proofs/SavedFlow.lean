import Verif.Spec.SavedFlow
import Verif.Proofs.BuilderBase

namespace Verif.SavedFlow
open Verif Spec Builder

/-- All rates in the event list are positive. -/
def Pos (c : FRC) : Prop := ∀ it ∈ c.queue, ∀ p ∈ it.values, (0 : ℚ) < p.2

/-- All rates in the event lists of a flow are positive. -/
def PosAll (s : DFlow) : Prop := ∀ e, Pos (s.inflow e) ∧ Pos (s.outflow e)

theorem item_inv {t : ℚ} {v : Rates} {it : FRItem} (h : FRItem.new t v = .ok it) : it = ⟨t, v⟩ ∧ ∀ p ∈ v, (0 : ℚ) < p.2 := by
  unfold FRItem.new at h
  obtain ⟨_, h1, h2⟩ := bind_eq_ok.mp h
  injection h2 with h2
  exact ⟨h2.symm, pyAssert_eq_ok.mp h1⟩

theorem pos_extend {c c' : FRC} {t x : ℚ} {v : Rates} (hc : Pos c) (h : c.extend t v x = .ok c') : Pos c' := by
  unfold FRC.extend at h
  obtain ⟨it, h1, h⟩ := bind_eq_ok.mp h
  obtain ⟨rfl, hv⟩ := item_inv h1
  cases hl : c.queue.getLast? with
  | none =>
    rw [hl] at h
    obtain ⟨_, _, h⟩ := bind_eq_ok.mp h
    obtain ⟨_, _, h⟩ := bind_eq_ok.mp h
    injection h with h; subst h
    intro it hit; simp only [List.mem_singleton] at hit; subst hit; exact hv
  | some z =>
    rw [hl] at h
    obtain ⟨_, _, h⟩ := bind_eq_ok.mp h
    obtain ⟨_, _, h⟩ := bind_eq_ok.mp h
    obtain ⟨_, _, h⟩ := bind_eq_ok.mp h
    obtain ⟨_, _, h⟩ := bind_eq_ok.mp h
    injection h with h; subst h
    intro it hit
    simp only [List.mem_append, List.mem_singleton] at hit
    rcases hit with hit | rfl
    · exact hc it hit
    · exact hv

theorem advance_sub (t : ℚ) : ∀ l : List FRItem, ∀ it ∈ FRC.advanceHead t l, it ∈ l
  | [], it, h => by simp [FRC.advanceHead] at h
  | [a], it, h => by simpa [FRC.advanceHead] using h
  | a :: b :: l, it, h => by
    unfold FRC.advanceHead at h
    split at h
    · exact List.mem_cons_of_mem _ (advance_sub t (b :: l) it h)
    · exact h

theorem pos_get {c c' : FRC} {t : ℚ} {v : Rates} (hc : Pos c) (h : c.getValuesAtTime t = .ok (v, c')) : Pos c' := by
  unfold FRC.getValuesAtTime at h
  split at h
  · injection h with h; injection h with _ h; subst h; exact hc
  · next a l hq =>
    split at h
    · cases h
    · split at h
      · injection h with h; injection h with _ h; subst h; exact hc
      · next x r hr =>
        injection h with h; injection h with _ h; subst h
        intro it hit
        exact hc it (by rw [hq]; exact advance_sub t _ it (by rw [hr]; exact hit))

theorem pos_in {s : DFlow} (hs : PosAll s) {e : Nat} {c : FRC} (hc : Pos c) : PosAll { s with inflow := setAt s.inflow e c } := by
  intro j
  refine ⟨?_, (hs j).2⟩
  show Pos (setAt s.inflow e c j)
  unfold setAt; split
  · exact hc
  · exact (hs j).1

theorem pos_out {f g : Nat → FRC} (hs : ∀ e, Pos (f e) ∧ Pos (g e)) {e : Nat} {c : FRC} (hc : Pos c) : ∀ j, Pos (f j) ∧ Pos (setAt g e c j) := by
  intro j
  refine ⟨(hs j).1, ?_⟩
  unfold setAt; split
  · exact hc
  · exact (hs j).2

theorem pos_caseI {net : EdgeData} {s s' : DFlow} {e : Nat} {q : ℚ} (hs : PosAll s) (h : s.caseI net e q = .ok s') : PosAll s' := by
  unfold DFlow.caseI at h
  simp only at h
  obtain ⟨out, h1, h⟩ := bind_eq_ok.mp h
  have ho := pos_extend (hs e).2 h1
  obtain ⟨_, _, h⟩ := bind_eq_ok.mp h
  obtain ⟨_, _, h⟩ := bind_eq_ok.mp h
  split at h
  · obtain ⟨_, _, h⟩ := bind_eq_ok.mp h
    obtain ⟨_, _, h⟩ := bind_eq_ok.mp h
    obtain ⟨_, _, h⟩ := bind_eq_ok.mp h
    injection h with h; subst h; exact pos_out hs ho
  · split at h
    · obtain ⟨_, _, h⟩ := bind_eq_ok.mp h
      injection h with h; subst h; exact pos_out hs ho
    · injection h with h; subst h; exact pos_out hs ho

theorem pos_caseII {net : EdgeData} {s s' : DFlow} {e : Nat} {v : Rates} {q a : ℚ} (hs : PosAll s) (h : s.caseII net e v q a = .ok s') : PosAll s' := by
  unfold DFlow.caseII at h
  simp only at h
  obtain ⟨out, h1, h⟩ := bind_eq_ok.mp h
  have ho := pos_extend (hs e).2 h1
  obtain ⟨_, _, h⟩ := bind_eq_ok.mp h
  obtain ⟨_, _, h⟩ := bind_eq_ok.mp h
  split at h
  · obtain ⟨_, _, h⟩ := bind_eq_ok.mp h
    injection h with h; subst h; exact pos_out hs ho
  · injection h with h; subst h; exact pos_out hs ho

theorem pos_caseIII {net : EdgeData} {s s' : DFlow} {e : Nat} {v : Rates} {q a : ℚ} (hs : PosAll s) (h : s.caseIII net e v q a = .ok s') : PosAll s' := by
  unfold DFlow.caseIII at h
  simp only at h
  obtain ⟨out, h1, h⟩ := bind_eq_ok.mp h
  have ho := pos_extend (hs e).2 h1
  obtain ⟨_, _, h⟩ := bind_eq_ok.mp h
  obtain ⟨_, _, h⟩ := bind_eq_ok.mp h
  obtain ⟨_, _, h⟩ := bind_eq_ok.mp h
  obtain ⟨_, _, h⟩ := bind_eq_ok.mp h
  obtain ⟨_, _, h⟩ := bind_eq_ok.mp h
  injection h with h; subst h; exact pos_out hs ho

theorem pos_setInflow {net : EdgeData} {s s' : DFlow} {e : Nat} {v : Rates} (hs : PosAll s) (h : s.setInflow net e v = .ok s') : PosAll s' := by
  unfold DFlow.setInflow at h
  obtain ⟨⟨cur, c⟩, h1, h⟩ := bind_eq_ok.mp h
  have hc := pos_get (hs e).1 h1
  have hs1 := pos_in hs (e := e) hc
  simp only at h
  split at h
  · injection h with h; subst h; exact hs1
  · obtain ⟨_, _, h⟩ := bind_eq_ok.mp h
    obtain ⟨c2, h2, h⟩ := bind_eq_ok.mp h
    have hc2 := pos_extend (hs1 e).1 h2
    have hs2 := pos_in hs1 (e := e) hc2
    split at h
    · exact pos_caseI hs2 h
    · split at h
      · exact pos_caseII hs2 h
      · exact pos_caseIII hs2 h

theorem pos_setInflows {net : EdgeData} : ∀ {l : List (Nat × Rates)} {s s' : DFlow}, PosAll s → s.setInflows net l = .ok s' → PosAll s'
  | [], s, s', hs, h => by unfold DFlow.setInflows at h; injection h with h; subst h; exact hs
  | (e, v) :: l, s, s', hs, h => by
    unfold DFlow.setInflows at h
    obtain ⟨s1, h1, h⟩ := bind_eq_ok.mp h
    exact pos_setInflows (pos_setInflow hs h1) h

theorem pos_depletion {s s' : DFlow} (hs : PosAll s) (h : s.processDepletion = .ok s') : PosAll s' := by
  unfold DFlow.processDepletion at h
  obtain ⟨⟨e, depl, change, deps⟩, _, h⟩ := bind_eq_ok.mp h
  simp only at h
  obtain ⟨_, _, h⟩ := bind_eq_ok.mp h
  obtain ⟨_, _, h⟩ := bind_eq_ok.mp h
  obtain ⟨_, _, h⟩ := bind_eq_ok.mp h
  cases change with
  | none => injection h with h; subst h; exact hs
  | some x =>
    obtain ⟨ct, v, sum⟩ := x
    simp only at h
    obtain ⟨_, _, h⟩ := bind_eq_ok.mp h
    obtain ⟨out, h1, h⟩ := bind_eq_ok.mp h
    injection h with h; subst h
    exact pos_out hs (pos_extend (hs e).2 h1)

theorem pos_depletions : ∀ {k : Nat} {s s' : DFlow}, PosAll s → s.processDepletions k = .ok s' → PosAll s'
  | 0, s, s', hs, h => by unfold DFlow.processDepletions at h; cases h
  | k + 1, s, s', hs, h => by
    unfold DFlow.processDepletions at h
    obtain ⟨_, _, h⟩ := bind_eq_ok.mp h
    split at h
    · obtain ⟨s1, h1, h⟩ := bind_eq_ok.mp h
      exact pos_depletions (pos_depletion hs h1) h
    · injection h with h; subst h; exact hs

theorem pos_collect : ∀ {k : Nat} {s s' : DFlow} {acc l : List Nat}, PosAll s → s.collectChanges k acc = .ok (s', l) → PosAll s'
  | 0, s, s', acc, l, hs, h => by unfold DFlow.collectChanges at h; cases h
  | k + 1, s, s', acc, l, hs, h => by
    unfold DFlow.collectChanges at h
    obtain ⟨_, _, h⟩ := bind_eq_ok.mp h
    split at h
    · obtain ⟨⟨g, p⟩, _, h⟩ := bind_eq_ok.mp h
      simp only at h
      exact pos_collect (s := { s with changes := g }) (fun e => hs e) h
    · injection h with h; injection h with h _; subst h; exact hs

theorem pos_flow_extend {net : EdgeData} {s s' : DFlow} {l : List (Nat × Rates)} {T : ℚ} {ch : List Nat} (hs : PosAll s) (h : s.extend net l T = .ok (s', ch)) : PosAll s' := by
  unfold DFlow.extend at h
  obtain ⟨s1, h1, h⟩ := bind_eq_ok.mp h
  have hs1 := pos_setInflows hs h1
  obtain ⟨_, _, h⟩ := bind_eq_ok.mp h
  obtain ⟨_, _, h⟩ := bind_eq_ok.mp h
  obtain ⟨phi, _, h⟩ := bind_eq_ok.mp h
  obtain ⟨s2, h2, h⟩ := bind_eq_ok.mp h
  exact pos_collect (pos_depletions (s := { s1 with phi := phi }) (fun e => hs1 e) h2) h

theorem pos_look {s s' : DFlow} {e : Nat} {v : Rates} (hs : PosAll s) (h : s.lookOutflow e = .ok (v, s')) : PosAll s' := by
  unfold DFlow.lookOutflow at h
  obtain ⟨⟨_, c⟩, h1, h⟩ := bind_eq_ok.mp h
  injection h with h; injection h with _ h; subst h
  exact pos_out hs (pos_get (hs e).2 h1)

theorem pos_init {s : DFlow} (h : DFlow.init = .ok s) : PosAll s := by
  unfold DFlow.init at h
  obtain ⟨c, h1, h⟩ := bind_eq_ok.mp h
  obtain ⟨_, _, h⟩ := bind_eq_ok.mp h
  injection h with h; subst h
  unfold FRC.empty at h1
  obtain ⟨it, i1, h1⟩ := bind_eq_ok.mp h1
  obtain ⟨_, _, h1⟩ := bind_eq_ok.mp h1
  obtain ⟨_, _, h1⟩ := bind_eq_ok.mp h1
  injection h1 with h1; subst h1
  obtain ⟨rfl, hv⟩ := item_inv i1
  refine fun e => ⟨?_, ?_⟩ <;> (intro it hit; simp only [List.mem_singleton] at hit; subst hit; exact hv)

theorem items_same : ∀ {l : List FRItem}, (∀ it ∈ l, ∀ p ∈ it.values, (0 : ℚ) < p.2) → mapPy (fun i : FRItem => FRItem.new i.time i.values) l = .ok l
  | [], _ => rfl
  | a :: l, h => by
    unfold mapPy
    have e1 : FRItem.new a.time a.values = .ok a := by
      unfold FRItem.new
      rw [pyAssert_true (h a (by simp))]; rfl
    rw [e1, ok_bind, items_same (fun it hit => h it (by simp [hit])), ok_bind]
    rfl

theorem loadRates_same {c : FRC} (h : Pos c) : loadRates c = .ok c := by
  unfold loadRates
  rw [items_same h, ok_bind]
  rfl

theorem loadAll_same : ∀ (l : List Nat) {d : Nat → FRC}, (∀ e, Pos (d e)) → loadAll l d = .ok d
  | [], d, _ => rfl
  | e :: es, d, h => by
    unfold loadAll
    rw [loadRates_same (h e), ok_bind]
    have : setAt d e (d e) = d := by funext j; unfold setAt; split <;> simp_all
    rw [this]
    exact loadAll_same es h

variable {P : Type}

theorem load_same {f : File P} (h : PosAll f.flow) (m : Nat) : load m f = .ok ⟨f.flow, none, f.extra⟩ := by
  unfold load
  rw [loadAll_same _ (fun e => (h e).1), ok_bind, loadAll_same _ (fun e => (h e).2), ok_bind]
  rfl

theorem pos_use {o o' : Obj P} {u : Use P} {a : Answer} (h : PosAll o.flow) (hu : use o u = .ok (a, o')) : PosAll o'.flow := by
  cases u with
  | extend l T =>
    unfold use SavedFlow.extend at hu
    obtain ⟨⟨c, x⟩, h1, hu⟩ := bind_eq_ok.mp hu
    injection hu with hu; injection hu with _ hu; subst hu
    cases hn : o.own with
    | none => rw [hn] at h1; cases h1
    | some n =>
      rw [hn] at h1
      obtain ⟨⟨s, ch⟩, h2, h1⟩ := bind_eq_ok.mp h1
      injection h1 with h1; injection h1 with _ h1; subst h1
      exact pos_flow_extend h h2
  | look e =>
    unfold use SavedFlow.look at hu
    obtain ⟨⟨v, x⟩, h1, hu⟩ := bind_eq_ok.mp hu
    injection hu with hu; injection hu with _ hu; subst hu
    obtain ⟨⟨w, s⟩, h2, h1⟩ := bind_eq_ok.mp h1
    injection h1 with h1; injection h1 with _ h1; subst h1
    exact pos_look h h2
  | average i t =>
    unfold use at hu
    obtain ⟨_, _, hu⟩ := bind_eq_ok.mp hu
    injection hu with hu; injection hu with _ hu; subst hu; exact h
  | edgeLoad e =>
    unfold use at hu
    obtain ⟨_, _, hu⟩ := bind_eq_ok.mp hu
    injection hu with hu; injection hu with _ hu; subst hu; exact h
  | reset n => injection hu with hu; injection hu with _ hu; subst hu; exact h
  | annotate n => injection hu with hu; injection hu with _ hu; subst hu; exact h
  | reload m =>
    unfold use save at hu
    cases hn : o.own with
    | none => rw [hn] at hu; cases hu
    | some n =>
      rw [hn] at hu
      simp only [ok_bind] at hu
      rw [load_same (by exact h), ok_bind] at hu
      injection hu with hu; injection hu with _ hu; subst hu; exact h

theorem pos_uses : ∀ {us : List (Use P)} {o o' : Obj P} {l : List Answer}, PosAll o.flow → uses o us = .ok (l, o') → PosAll o'.flow
  | [], o, o', l, h, hu => by unfold uses at hu; injection hu with hu; injection hu with _ hu; subst hu; exact h
  | u :: us, o, o', l, h, hu => by
    unfold uses at hu
    obtain ⟨⟨a, o1⟩, h1, hu⟩ := bind_eq_ok.mp hu
    obtain ⟨⟨b, o2⟩, h2, hu⟩ := bind_eq_ok.mp hu
    injection hu with hu; injection hu with _ hu; subst hu
    exact pos_uses (pos_use h h1) h2

theorem pos_new {n : Network P} {o : Obj P} (h : SavedFlow.new n = .ok o) : PosAll o.flow := by
  unfold SavedFlow.new at h
  obtain ⟨s, h1, h⟩ := bind_eq_ok.mp h
  injection h with h; subst h
  exact pos_init h1

end Verif.SavedFlow
