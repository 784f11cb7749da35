import Verif.Proofs.HeapRefine

/-! What `increase_key` leaves behind (C07). -/

namespace Verif
namespace Heap
variable {K T : Type} [LinearOrder K] [DecidableEq T]

theorem entGe_eq {a b : Entry K T} (h : a.ctr ≠ b.ctr) : entGe a b = .ok (decide (rank b < rank a)) := by
  unfold entGe
  rw [show decide (rank b < rank a) = decide (b.key < a.key ∨ (b.key = a.key ∧ b.ctr < a.ctr)) from
    decide_eq_decide.mpr (rank_lt_iff b a)]
  rcases lt_trichotomy a.key b.key with h1 | h1 | h1
  · rw [if_pos h1]
    simp [not_lt.mpr h1.le, ne_of_gt h1]
  · simp only [h1, lt_irrefl, if_false, false_or, true_and]
    rcases lt_trichotomy a.ctr b.ctr with h2 | h2 | h2
    · rw [if_pos h2]; simp [not_lt.mpr h2.le]
    · exact absurd h2 h
    · rw [if_neg (not_lt.mpr h2.le), if_pos h2]; simp [h2]
  · rw [if_neg (not_lt.mpr h1.le), if_pos h1]
    simp [h1]

/-- One pass of the loop of `increase_key` at a position with children. -/
theorem increase_step {D data : List (Entry K T)} (hd : Distinct D) {new : Entry K T} {p0 pos : Nat} {old : Entry K T} (ho : D[p0]? = some old) (hc : old.ctr = new.ctr)
    (hlen : data.length = D.length) (hp : p0 ≤ pos) (hs : ∀ j, pos < j → data[j]? = D[j]?) (hl : 2 * pos + 1 < data.length) (fuel : Nat) (idx : T → Option Nat) :
    ∃ c s, (c = 2 * pos + 1 ∨ c = 2 * pos + 2) ∧ D[c]? = some s ∧ (∀ c' e, (c' = 2 * pos + 1 ∨ c' = 2 * pos + 2) → D[c']? = some e → rank s ≤ rank e) ∧
      increaseLoop new (fuel + 1) data idx pos =
        if rank s < rank new then .ok (data, idx) else increaseLoop new fuel (data.set pos s) (upd idx s.item pos) c := by
  have hL : D[2 * pos + 1]? = some (data[2 * pos + 1]) := by rw [← hs _ (by omega)]; exact List.getElem?_eq_getElem hl
  have fin : ∀ c s, D[c]? = some s → (c = 2 * pos + 1 ∨ c = 2 * pos + 2) →
      (do
        let s ← rd data c
        if ← entGe new s then .ok (data, idx)
        else do
          let data ← wr data pos s
          increaseLoop new fuel data (upd idx s.item pos) c : Py (List (Entry K T) × (T → Option Nat))) =
        if rank s < rank new then .ok (data, idx) else increaseLoop new fuel (data.set pos s) (upd idx s.item pos) c := by
    intro c s h1 h2
    have hrd : rd data c = .ok s := by rw [rd_eq_ok, hs c (by omega)]; exact h1
    have hne : new.ctr ≠ s.ctr := by rw [← hc]; exact hd.ne ho h1 (by omega)
    rw [hrd, ok_bind, entGe_eq hne, ok_bind]
    by_cases h : rank s < rank new
    · simp [h]
    · simp only [h, decide_false, Bool.false_eq_true, if_false]
      rw [wr_lt (by omega), ok_bind]
  simp only [increaseLoop, if_pos hl]
  by_cases hr : 2 * pos + 2 < data.length
  · have hR : D[2 * pos + 2]? = some (data[2 * pos + 2]) := by rw [← hs _ (by omega)]; exact List.getElem?_eq_getElem hr
    rw [if_pos hr, rd_lt _ _ hr, ok_bind, rd_lt _ _ hl, ok_bind, entLt_eq (hd.ne hR hL (by omega)), ok_bind]
    by_cases hlt : rank (data[2 * pos + 2]) < rank (data[2 * pos + 1])
    · refine ⟨2 * pos + 2, _, .inr rfl, hR, ?_, ?_⟩
      · rintro c' e (rfl | rfl) he
        · rw [hL] at he; injection he with he; subst he; exact hlt.le
        · rw [hR] at he; injection he with he; subst he; exact le_rfl
      · simp only [hlt, decide_true, if_true, py_pure, ok_bind]
        exact fin _ _ hR (.inr rfl)
    · refine ⟨2 * pos + 1, _, .inl rfl, hL, ?_, ?_⟩
      · rintro c' e (rfl | rfl) he
        · rw [hL] at he; injection he with he; subst he; exact le_rfl
        · rw [hR] at he; injection he with he; subst he; exact not_lt.mp hlt
      · simp only [hlt, decide_false, Bool.false_eq_true, if_false, py_pure, ok_bind]
        exact fin _ _ hL (.inl rfl)
  · refine ⟨2 * pos + 1, _, .inl rfl, hL, ?_, ?_⟩
    · rintro c' e (rfl | rfl) he
      · rw [hL] at he; injection he with he; subst he; exact le_rfl
      · have : D[2 * pos + 2]? = none := List.getElem?_eq_none (by omega)
        rw [this] at he; cases he
    · rw [if_neg hr, py_pure, ok_bind]
      exact fin _ _ hL (.inl rfl)

/-- The loop of `increase_key` only copies old entries, and what is lost stays lost. -/
theorem increaseLoop_spec {D : List (Entry K T)} (hd : Distinct D) {new : Entry K T} {p0 : Nat} {old : Entry K T} (ho : D[p0]? = some old) (hc : old.ctr = new.ctr)
    (hi : ∀ j e, p0 < j → D[j]? = some e → e.item ≠ old.item) : ∀ (fuel : Nat) (data : List (Entry K T)) (idx : T → Option Nat) (pos : Nat), data.length = D.length →
    D.length < fuel + pos → p0 ≤ pos → pos < D.length → (∀ j, pos < j → data[j]? = D[j]?) → (∀ e ∈ data, e ∈ D) →
    ∃ data' idx', increaseLoop new fuel data idx pos = .ok (data', idx') ∧ data'.length = D.length ∧ (∀ e ∈ data', e ∈ D) ∧
      ((∀ e ∈ data, e.item ≠ old.item) → ∀ e ∈ data', e.item ≠ old.item) := by
  intro fuel
  induction fuel with
  | zero =>
    intro data idx pos h1 h2 _ h6 _ _
    omega
  | succ fuel ih =>
    intro data idx pos h1 h2 h3 h6 h4 h5
    by_cases hl : 2 * pos + 1 < data.length
    · obtain ⟨c, s, c1, c2, _, c3⟩ := increase_step hd ho hc h1 h3 h4 hl fuel idx
      rw [c3]
      split
      · exact ⟨data, idx, rfl, h1, h5, id⟩
      · have hset : ∀ e ∈ data.set pos s, e = s ∨ e ∈ data := fun e he => (List.mem_or_eq_of_mem_set he).symm
        obtain ⟨d', i', e1, e2, e3, e4⟩ := ih (data.set pos s) (upd idx s.item pos) c (by simpa using h1) (by omega) (by omega)
          (List.getElem?_eq_some_iff.mp c2).1
          (fun j hj => by rw [List.getElem?_set_ne (by omega)]; exact h4 j (by omega))
          (fun e he => by
            rcases hset e he with rfl | h
            · exact List.mem_of_getElem? c2
            · exact h5 e h)
        refine ⟨d', i', e1, e2, e3, fun h => e4 fun e he => ?_⟩
        rcases hset e he with rfl | h'
        · exact hi c _ (by omega) c2
        · exact h e h'
    · unfold increaseLoop
      rw [if_neg hl]
      exact ⟨data, idx, rfl, h1, h5, id⟩

end Heap
end Verif
