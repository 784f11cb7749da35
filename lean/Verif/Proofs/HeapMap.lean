import Verif.Props.Queue

/-! The concrete queue seen as a finite map from items to keys; used by all clients. -/

set_option linter.unusedSectionVars false

namespace Verif
open Spec

namespace Heap
variable {K T : Type} [LinearOrder K] [DecidableEq T]

/-- The queue stores exactly the map `M`. -/
def Rep (h : Heap K T) (M : T → Option K) : Prop := ∃ q, Rel h q ∧ ∀ x, q.lookup x = M x

theorem rep_empty : Rep (empty : Heap K T) (fun _ => none) := ⟨[], rel_empty, fun _ => rfl⟩

theorem mem_iff_lookup {q : AQueue K T} {x : T} : q.mem x ↔ q.lookup x ≠ none := by
  rw [ne_eq, lookup_eq_none, not_not]

theorem Rep.congr {h : Heap K T} {M N : T → Option K} (hr : Rep h M) (e : ∀ x, M x = N x) : Rep h N := by
  obtain ⟨q, a, b⟩ := hr; exact ⟨q, a, fun x => (b x).trans (e x)⟩

theorem Rep.has {h : Heap K T} {M : T → Option K} (hr : Rep h M) (x : T) : h.has x = (M x).isSome := by
  obtain ⟨q, a, b⟩ := hr
  have := a.mem_iff x
  unfold Heap.has
  rw [mem_iff_lookup, b] at this
  cases hm : M x with
  | none =>
    rw [hm] at this
    cases hh : h.index x with
    | none => rfl
    | some i => rw [hh] at this; simp at this
  | some k => rw [hm] at this; simpa using this

theorem Rep.keyOf {h : Heap K T} {M : T → Option K} (hr : Rep h M) (x : T) : h.keyOf x = .ok (M x) := by
  obtain ⟨q, a, b⟩ := hr
  rw [a.keyOf, b]

theorem Rep.push {h : Heap K T} {M : T → Option K} (hr : Rep h M) {x : T} (k : K) (hx : M x = none) :
    ∃ h', h.push x k = .ok h' ∧ Rep h' (fun y => if y = x then some k else M y) := by
  obtain ⟨q, a, b⟩ := hr
  have hm : ¬ q.mem x := by rw [mem_iff_lookup, b, hx]; simp
  obtain ⟨h', c, d⟩ := a.push k hm
  refine ⟨h', c, q.push x k, d, ?_⟩
  intro y; rw [Props.C05_lookup_push q x y k hm, b]

theorem Rep.update {h : Heap K T} {M : T → Option K} (hr : Rep h M) {x : T} (k : K) (hx : M x ≠ none) :
    ∃ h', h.update x k = .ok h' ∧ Rep h' (fun y => if y = x then some k else M y) := by
  obtain ⟨q, a, b⟩ := hr
  have hm : q.mem x := by rw [mem_iff_lookup, b]; exact hx
  obtain ⟨h', c, d⟩ := a.update k hm
  refine ⟨h', c, q.rekey x k, d, ?_⟩
  intro y; rw [Props.C05_lookup_rekey q x y k hm, b]

theorem Rep.set {h : Heap K T} {M : T → Option K} (hr : Rep h M) (x : T) (k : K) :
    ∃ h', h.set x k = .ok h' ∧ Rep h' (fun y => if y = x then some k else M y) := by
  unfold Heap.set
  rw [hr.has]
  cases hx : M x with
  | none => simpa using hr.push k hx
  | some k0 => simpa using hr.update k (by rw [hx]; simp)

theorem Rep.remove [OrderBot K] {h : Heap K T} {M : T → Option K} (hr : Rep h M) {x : T} (hx : M x ≠ none) :
    ∃ h', h.remove x = .ok h' ∧ Rep h' (fun y => if y = x then none else M y) := by
  obtain ⟨q, a, b⟩ := hr
  have hm : q.mem x := by rw [mem_iff_lookup, b]; exact hx
  obtain ⟨h', c, d⟩ := a.remove hm
  refine ⟨h', c, q.erase x, d, ?_⟩
  intro y; rw [Props.C05_lookup_erase q x y, b]

theorem first_le {q : AQueue K T} {p : T × K} (h : q.first = some p) : ∀ r ∈ q, p.2 ≤ r.2 := by
  induction q generalizing p with
  | nil => simp [AQueue.first] at h
  | cons a q ih =>
    simp only [AQueue.first] at h
    split at h
    · rename_i hn
      rw [first_eq_none] at hn; subst hn
      injection h with h; subst h; simp
    · rename_i m hm
      have := ih hm
      split at h
      · rename_i hle
        injection h with h; subst h
        intro r hr
        rcases List.mem_cons.mp hr with rfl | hr
        · exact le_rfl
        · exact le_trans hle (this r hr)
      · rename_i hle
        injection h with h; subst h
        intro r hr
        rcases List.mem_cons.mp hr with rfl | hr
        · exact le_of_lt (not_le.mp hle)
        · exact this r hr

/-- Is the queue empty, and if not, what comes first. -/
theorem Rep.cases {h : Heap K T} {M : T → Option K} (hr : Rep h M) :
    (h.data = [] ∧ ∀ x, M x = none) ∨
    ∃ h' x k, h.data ≠ [] ∧ h.data[0]?.map Entry.key = some k ∧ h.data[0]?.map Entry.item = some x ∧
      h.pop = .ok (h', x) ∧ M x = some k ∧ (∀ y k', M y = some k' → k ≤ k') ∧
      Rep h' (fun y => if y = x then none else M y) ∧ h'.len + 1 = h.len := by
  obtain ⟨q, a, b⟩ := hr
  have hl := a.len
  cases hq : q.first with
  | none =>
    left
    rw [first_eq_none] at hq; subst hq
    refine ⟨by simpa [Heap.len] using hl, ?_⟩
    intro x; rw [← b]; rfl
  | some p =>
    right
    obtain ⟨x, k⟩ := p
    have hroot := a.root
    rw [hq] at hroot
    obtain ⟨h', c, d⟩ := a.pop hq
    have hmem := first_mem hq
    have hnd := a.items_nodup
    obtain ⟨root, hr0, hpr⟩ := Option.map_eq_some_iff.mp hroot
    simp only [pr, Prod.mk.injEq] at hpr
    refine ⟨h', x, k, ?_, by simp [hr0, hpr.2], by simp [hr0, hpr.1], c, ?_, ?_, ⟨q.erase x, d, ?_⟩, ?_⟩
    · rintro e; rw [e] at hr0; simp at hr0
    · rw [← b]; exact (lookup_eq_some hnd x k).mpr hmem
    · intro y k' hy
      rw [← b] at hy
      exact first_le hq _ ((lookup_eq_some hnd y k').mp hy)
    · intro y; rw [Props.C05_lookup_erase q x y, b]
    · rw [hl, d.len]
      have hc : ∀ (q : AQueue K T), (q.map Prod.fst).Nodup → (x, k) ∈ q → (q.erase x).length + 1 = q.length := by
        intro q
        induction q with
        | nil => intro _ hm; simp at hm
        | cons p q ih =>
          intro hn hm
          rw [List.map_cons, List.nodup_cons] at hn
          unfold AQueue.erase at *
          by_cases hp : p.1 = x
          · have : q.filter (fun r => decide (r.1 ≠ x)) = q := by
              rw [List.filter_eq_self]
              intro r hrq
              have : r.1 ≠ x := fun e => hn.1 (List.mem_map.mpr ⟨r, hrq, e.trans hp.symm⟩)
              simpa using this
            rw [List.filter_cons_of_neg (by simp [hp]), this]; simp
          · rw [List.filter_cons_of_pos (by simp [hp])]
            have hm' : (x, k) ∈ q := by
              rcases List.mem_cons.mp hm with e | e
              · rw [← e] at hp; exact absurd rfl hp
              · exact e
            have := ih hn.2 hm'
            simp only [List.length_cons]; omega
      exact hc q hnd hmem

theorem Rep.minKey [OrderTop K] {h : Heap K T} {M : T → Option K} (hr : Rep h M) :
    ∃ k, h.minKey = .ok k ∧ (∀ y k', M y = some k' → k ≤ k') ∧
      ((∃ x, M x = some k) ∨ (k = ⊤ ∧ h.data = [] ∧ ∀ x, M x = none)) := by
  unfold Heap.minKey
  rcases hr.cases with ⟨hd, hn⟩ | ⟨h', x, k, hd, hk, _, _, hM, hmin, _, _⟩
  · refine ⟨⊤, by rw [hd]; rfl, fun y k' hy => (by rw [hn] at hy; cases hy), Or.inr ⟨rfl, hd, hn⟩⟩
  · refine ⟨k, ?_, hmin, Or.inl ⟨x, hM⟩⟩
    rw [if_neg (by simpa using hd)]
    obtain ⟨root, hr0, e⟩ := Option.map_eq_some_iff.mp hk
    rw [rd_eq_ok.mpr hr0, ok_bind, e]; rfl

end Heap
end Verif
