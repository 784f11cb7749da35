import Verif.Proofs.HeapRefine
import Verif.Proofs.HeapIncrease

/-! Property theorems C05–C08 (src/utilities/queues.py). -/

set_option linter.unusedSectionVars false

namespace Verif.Props
open Verif Verif.Spec Verif.Heap

variable {K T : Type} [LinearOrder K] [DecidableEq T]

/-- When a call is inside its documented precondition, in terms of the abstract queue. -/
def Allowed (q : AQueue K T) : QOp K T → Prop
  | .push x _ => ¬ q.mem x
  | .set _ _ => True
  | .update x _ => q.mem x
  | .decrease x k => ∃ k0, q.lookup x = some k0 ∧ k ≤ k0
  | .remove x => q.mem x
  | .pop => q ≠ []

/-- What a call does to the abstract queue, and the item `pop` hands out. -/
def absStep (q : AQueue K T) : QOp K T → AQueue K T × Option T
  | .push x k => (q.push x k, none)
  | .set x k => (if (q.lookup x).isSome then q.rekey x k else q.push x k, none)
  | .update x k => (q.rekey x k, none)
  | .decrease x k => (q.rekey x k, none)
  | .remove x => (q.erase x, none)
  | .pop => match q.first with
    | some p => (q.erase p.1, some p.1)
    | none => (q, none)

/-- A history all of whose calls are inside their preconditions, its final queue and its outputs. -/
inductive AbsRun : AQueue K T → List (QOp K T) → AQueue K T → List (Option T) → Prop
  | nil (q : AQueue K T) : AbsRun q [] q []
  | cons {q q' : AQueue K T} {o : QOp K T} {os : List (QOp K T)} {rs : List (Option T)} :
      Allowed q o → AbsRun (absStep q o).1 os q' rs → AbsRun q (o :: os) q' ((absStep q o).2 :: rs)

theorem step_refines [OrderBot K] {h : Heap K T} {q : AQueue K T} (hr : Rel h q) {o : QOp K T}
    (ha : Allowed q o) : ∃ h', h.step o = .ok (h', (absStep q o).2) ∧ Rel h' (absStep q o).1 := by
  cases o with
  | push x k =>
    obtain ⟨h', a, b⟩ := hr.push k ha
    exact ⟨h', by simp [Heap.step, absStep, a], b⟩
  | set x k =>
    by_cases hx : q.mem x
    · obtain ⟨h', a, b⟩ := hr.update k hx
      have hs : h.has x = true := (hr.mem_iff x).mpr hx
      have hl : (q.lookup x).isSome = true := by
        cases hl : q.lookup x with
        | none => exact absurd hx ((lookup_eq_none x).mp hl)
        | some _ => rfl
      refine ⟨h', ?_, ?_⟩
      · simp [Heap.step, Heap.set, hs, a, absStep]
      · simpa [absStep, hl] using b
    · obtain ⟨h', a, b⟩ := hr.push k hx
      have hs : ¬ h.has x = true := fun hh => hx ((hr.mem_iff x).mp hh)
      have hl : (q.lookup x).isSome = false := by
        rw [(lookup_eq_none x).mpr hx]; rfl
      refine ⟨h', ?_, ?_⟩
      · simp [Heap.step, Heap.set, hs, a, absStep]
      · simpa [absStep, hl] using b
  | update x k =>
    obtain ⟨h', a, b⟩ := hr.update k ha
    exact ⟨h', by simp [Heap.step, absStep, a], b⟩
  | decrease x k =>
    obtain ⟨k0, h1, h2⟩ := ha
    obtain ⟨h', a, b⟩ := hr.decrease h1 h2
    exact ⟨h', by simp [Heap.step, absStep, a], b⟩
  | remove x =>
    obtain ⟨h', a, b⟩ := hr.remove ha
    exact ⟨h', by simp [Heap.step, absStep, a], b⟩
  | pop =>
    cases hf : q.first with
    | none => exact absurd (first_eq_none.mp hf) ha
    | some p =>
      obtain ⟨h', a, b⟩ := hr.pop hf
      refine ⟨h', by simp [Heap.step, absStep, a, hf], ?_⟩
      simpa [absStep, hf] using b

theorem run_refines [OrderBot K] {h : Heap K T} {q q' : AQueue K T} {os : List (QOp K T)}
    {rs : List (Option T)} (hr : Rel h q) (hrun : AbsRun q os q' rs) :
    ∃ h', h.run os = .ok (h', rs) ∧ Rel h' q' := by
  induction hrun generalizing h with
  | nil q => exact ⟨h, rfl, hr⟩
  | cons ha _ ih =>
    obtain ⟨h1, a, b⟩ := step_refines hr ha
    obtain ⟨h2, c, d⟩ := ih b
    exact ⟨h2, by simp [Heap.run, a, c], d⟩

/-- C05: from any initial list with distinct items, every history of calls inside their preconditions
runs without raising, hands out the items the abstract queue hands out, and afterwards `has`,
`key_of` and `len` answer as the abstract queue (a finite map) does. -/
theorem C05_finite_map [OrderBot K] (init : List (T × K)) (hn : (init.map Prod.fst).Nodup)
    (os : List (QOp K T)) (q : AQueue K T) (rs : List (Option T)) (hrun : AbsRun init os q rs) :
    ∃ h0 h, Heap.ofList init = .ok h0 ∧ h0.run os = .ok (h, rs) ∧
      (∀ x, h.keyOf x = .ok (q.lookup x)) ∧ (∀ x, h.has x = true ↔ q.mem x) ∧ h.len = q.length := by
  obtain ⟨h0, a, b⟩ := rel_ofList init hn
  obtain ⟨h, c, d⟩ := run_refines b hrun
  exact ⟨h0, h, a, c, d.keyOf, d.mem_iff, d.len⟩

/-- C05: the abstract queue is a finite map, i.e. its look-ups change exactly as a map updated by
the same operations would. -/
theorem C05_lookup_push (q : AQueue K T) (x y : T) (k : K) (hx : ¬ q.mem x) :
    (q.push x k).lookup y = if y = x then some k else q.lookup y := by
  unfold AQueue.push AQueue.lookup
  rw [List.find?_append]
  by_cases h : y = x
  · subst h
    have : q.find? (fun p => decide (p.1 = y)) = none := by
      have := (lookup_eq_none y).mpr hx
      unfold AQueue.lookup at this
      simpa using this
    simp [this]
  · have : ¬ x = y := fun e => h e.symm
    simp [h, this]

theorem C05_lookup_rekey (q : AQueue K T) (x y : T) (k : K) (hx : q.mem x) :
    (q.rekey x k).lookup y = if y = x then some k else q.lookup y := by
  unfold AQueue.rekey AQueue.lookup
  obtain ⟨k0, hk0⟩ := hx
  rw [List.find?_map]
  have hfun : ((fun p : T × K => decide (p.1 = y)) ∘ fun p => if p.1 = x then (x, k) else p)
      = fun p => decide (p.1 = y) := by
    funext p
    simp only [Function.comp]
    by_cases h : p.1 = x <;> simp [h]
  rw [hfun]
  by_cases h : y = x
  · subst h
    cases hf : q.find? (fun p => decide (p.1 = y)) with
    | none => have := List.find?_eq_none.mp hf _ hk0; simp at this
    | some p =>
      have := List.find?_some hf
      have : p.1 = y := by simpa using this
      simp [this]
  · rw [if_neg h]
    cases hf : q.find? (fun p => decide (p.1 = y)) with
    | none => rfl
    | some p =>
      have := List.find?_some hf
      have : p.1 = y := by simpa using this
      have hpx : ¬ p.1 = x := by rw [this]; exact h
      simp [hpx]

theorem C05_lookup_erase (q : AQueue K T) (x y : T) :
    (q.erase x).lookup y = if y = x then none else q.lookup y := by
  unfold AQueue.erase AQueue.lookup
  rw [List.find?_filter]
  by_cases h : y = x
  · subst h
    rw [if_pos rfl, Option.map_eq_none_iff, List.find?_eq_none]
    simp
  · rw [if_neg h]
    congr 2
    funext p
    by_cases hp : p.1 = y
    · simp [hp, h]
    · simp [hp]

/-- C06: in every reachable state `min_key` is the least stored key (infinity when empty), `next` is
the item with the least key — among equal keys the one inserted first — and `pop` returns that item
and removes exactly it. -/
theorem C06_min_fifo [BoundedOrder K] (init : List (T × K)) (hn : (init.map Prod.fst).Nodup)
    (os : List (QOp K T)) (q : AQueue K T) (rs : List (Option T)) (hrun : AbsRun init os q rs) :
    ∃ h0 h, Heap.ofList init = .ok h0 ∧ h0.run os = .ok (h, rs) ∧
      (q = [] → h.minKey = .ok ⊤ ∧ h.next = .error .index ∧ h.pop = .error .index) ∧
      (∀ before x k after, q = before ++ (x, k) :: after →
        (∀ p ∈ before, k < p.2) → (∀ p ∈ after, k ≤ p.2) →
        h.minKey = .ok k ∧ h.next = .ok x ∧
        ∃ h', h.pop = .ok (h', x) ∧ ∀ y, h'.keyOf y = .ok (AQueue.lookup (before ++ after) y)) := by
  obtain ⟨h0, a, b⟩ := rel_ofList init hn
  obtain ⟨h, c, d⟩ := run_refines b hrun
  refine ⟨h0, h, a, c, ?_, ?_⟩
  · rintro rfl
    have hl := d.len
    simp only [Heap.len, List.length_nil, List.length_eq_zero_iff] at hl
    simp [Heap.minKey, Heap.next, Heap.pop, hl, rd, rdLast]
  · rintro before x k after rfl hb haf
    have hlast : AQueue.first ((x, k) :: after) = some (x, k) := by
      simp only [AQueue.first]
      split
      · rfl
      · rename_i m hm
        rw [if_pos (haf m (first_mem hm))]
    have hfirst : AQueue.first (before ++ (x, k) :: after) = some (x, k) := by
      clear d c hrun
      induction before with
      | nil => exact hlast
      | cons p before ih =>
        rw [List.cons_append]
        simp only [AQueue.first]
        rw [ih (fun p hp => hb p (by simp [hp]))]
        simp only
        rw [if_neg]
        exact not_le.mpr (hb p (by simp))
    have hroot := d.root
    rw [hfirst] at hroot
    obtain ⟨root, hr0, hpr⟩ := Option.map_eq_some_iff.mp hroot
    simp only [pr, Prod.mk.injEq] at hpr
    have hne : h.data.length ≠ 0 := by
      intro e
      rw [List.length_eq_zero_iff] at e
      rw [e] at hr0; simp at hr0
    refine ⟨?_, ?_, ?_⟩
    · unfold Heap.minKey
      rw [if_neg hne, rd_eq_ok.mpr hr0, ok_bind, hpr.2]; rfl
    · unfold Heap.next
      rw [rd_eq_ok.mpr hr0, ok_bind, hpr.1]; rfl
    · obtain ⟨h', p1, p2⟩ := d.pop hfirst
      refine ⟨h', p1, ?_⟩
      intro y
      rw [p2.keyOf]
      congr 1
      have hnd := d.items_nodup
      have : AQueue.erase (before ++ (x, k) :: after) x = before ++ after := by
        rw [List.map_append, List.map_cons] at hnd
        have hnd' := List.nodup_middle.mp hnd
        rw [List.nodup_cons] at hnd'
        unfold AQueue.erase
        rw [List.filter_append, List.filter_cons_of_neg (by simp)]
        have hx := hnd'.1
        rw [List.mem_append, not_or] at hx
        congr 1
        · rw [List.filter_eq_self]
          intro p hp
          have : p.1 ≠ x := fun e => hx.1 (List.mem_map.mpr ⟨p, hp, e⟩)
          simpa using this
        · rw [List.filter_eq_self]
          intro p hp
          have : p.1 ≠ x := fun e => hx.2 (List.mem_map.mpr ⟨p, hp, e⟩)
          simpa using this
      rw [this]

/-- A history to which C05, C06 and C08 apply (keys are natural numbers with a top). -/
example : ∃ q rs, AbsRun ([(1, (5 : WithTop Nat)), (2, 3)] : List (Nat × WithTop Nat))
    [.push 7 3, .set 1 2, .pop, .remove 7, .decrease 2 1] q rs ∧ q = [(2, 1)] ∧
    rs = [none, none, some 1, none, none] := by
  refine ⟨_, _, .cons ?_ (.cons ?_ (.cons ?_ (.cons ?_ (.cons ?_ (.nil _))))), ?_, ?_⟩
  · rintro ⟨k, hk⟩; simp at hk
  · trivial
  · simp only [Allowed]; decide
  · exact ⟨3, by decide⟩
  · exact ⟨3, by decide, by decide⟩
  · decide
  · decide

/-- C08: in every reachable state `sorted()` lists the stored items by key, insertion order among
equal keys (`AQueue.byKey` inserts every pair, in insertion order, behind all pairs with an equal or
smaller key). Being a function of the state, it leaves the queue unchanged. -/
theorem C08_sorted [OrderBot K] (init : List (T × K)) (hn : (init.map Prod.fst).Nodup)
    (os : List (QOp K T)) (q : AQueue K T) (rs : List (Option T)) (hrun : AbsRun init os q rs) :
    ∃ h0 h, Heap.ofList init = .ok h0 ∧ h0.run os = .ok (h, rs) ∧
      h.sortedItems = q.byKey.map Prod.fst := by
  obtain ⟨h0, a, b⟩ := rel_ofList init hn
  obtain ⟨h, c, d⟩ := run_refines b hrun
  exact ⟨h0, h, a, c, d.sorted⟩

theorem insertByKey_perm (p : T × K) (q : AQueue K T) : (AQueue.insertByKey p q).Perm (p :: q) := by
  induction q with
  | nil => exact List.Perm.refl _
  | cons r q ih =>
    simp only [AQueue.insertByKey]
    split
    · exact List.Perm.refl _
    · exact (ih.cons r).trans (List.Perm.swap p r q)

theorem insertByKey_sorted (p : T × K) (q : AQueue K T) (h : q.Pairwise (fun a b => a.2 ≤ b.2)) :
    (AQueue.insertByKey p q).Pairwise (fun a b => a.2 ≤ b.2) := by
  induction q with
  | nil => simp [AQueue.insertByKey]
  | cons r q ih =>
    rw [List.pairwise_cons] at h
    simp only [AQueue.insertByKey]
    split
    · rename_i hlt
      rw [List.pairwise_cons]
      refine ⟨?_, List.pairwise_cons.mpr h⟩
      intro a ha
      rcases List.mem_cons.mp ha with rfl | ha
      · exact le_of_lt hlt
      · exact le_trans (le_of_lt hlt) (h.1 a ha)
    · rename_i hlt
      rw [List.pairwise_cons]
      refine ⟨?_, ih h.2⟩
      intro a ha
      rcases List.mem_cons.mp ((insertByKey_perm p q).mem_iff.mp ha) with rfl | ha
      · exact not_lt.mp hlt
      · exact h.1 a ha

/-- C08: `byKey` is a sorted rearrangement of the stored pairs. -/
theorem C08_byKey_sorted_perm (q : AQueue K T) :
    q.byKey.Perm q ∧ q.byKey.Pairwise (fun a b => a.2 ≤ b.2) := by
  unfold AQueue.byKey
  have : ∀ (q acc : AQueue K T), acc.Pairwise (fun a b => a.2 ≤ b.2) →
      (q.foldl (fun acc p => AQueue.insertByKey p acc) acc).Perm (acc ++ q) ∧
      (q.foldl (fun acc p => AQueue.insertByKey p acc) acc).Pairwise (fun a b => a.2 ≤ b.2) := by
    intro q
    induction q with
    | nil => intro acc h; exact ⟨by simp, h⟩
    | cons p q ih =>
      intro acc h
      obtain ⟨h1, h2⟩ := ih (AQueue.insertByKey p acc) (insertByKey_sorted p acc h)
      refine ⟨?_, h2⟩
      refine h1.trans (((insertByKey_perm p acc).append_right q).trans ?_)
      exact (List.perm_middle (a := p) (l₁ := acc) (l₂ := q)).symm
  simpa using this q [] (by simp)

/-! ### C07: `increase_key` does not do what it says -/

/-- C07 is FALSE of the code: in the queue `[("a", 1)]` a call `increase_key(a, 5)` returns normally
and leaves the key of `a` at 1. -/
theorem C07_increase_key_false :
    ∃ h0 h : Heap Nat Nat, Heap.ofList [(0, 1)] = .ok h0 ∧ h0.increaseKey 0 5 = .ok h ∧
      h.keyOf 0 = .ok (some 1) := by
  refine ⟨_, _, rfl, rfl, rfl⟩

/-- C07 is FALSE of the code, second way: with a child of larger key, `increase_key` overwrites the
entry, so that afterwards the child is stored twice and the item asked for has lost its entry. -/
theorem C07_increase_key_duplicates :
    ∃ h0 h : Heap Nat Nat, Heap.ofList [(0, 1), (1, 9)] = .ok h0 ∧ h0.increaseKey 0 5 = .ok h ∧
      h.data = [⟨9, 1, 1⟩, ⟨9, 1, 1⟩] ∧ h.keyOf 0 = .ok (some 9) := by
  refine ⟨_, _, rfl, rfl, rfl, rfl⟩

/-- C07, what does hold: on an item at a leaf of the heap, `increase_key` with a not smaller key
returns and changes nothing at all. Missing:
that the new key is stored. -/
theorem C07_increase_key_partial (h : Heap K T) (hi : h.Inv) (x : T) (k : K) (pos : Nat) (old : Entry K T)
    (hx : h.index x = some pos) (ho : h.data[pos]? = some old) (hk : old.key ≤ k)
    (hleaf : h.data.length ≤ 2 * pos + 1) :
    h.increaseKey x k = .ok h := by
  have hitem : old.item = x := by
    have := (hi.good x pos).mp hx
    rw [ho] at this; simpa using this
  unfold Heap.increaseKey
  rw [pyAssert_true (by simp [Heap.has, hx]), ok_bind]
  simp only [dget, hx, ok_bind, rd_eq_ok.mpr ho]
  have hge : entGe (⟨k, old.ctr, x⟩ : Entry K T) old = .ok true := by
    unfold entGe
    simp only [not_lt.mpr hk, if_false, lt_irrefl]
    split
    · rfl
    · rw [if_pos hitem.symm]
  rw [hge, ok_bind, pyAssert_true rfl, ok_bind]
  simp only [increaseLoop, if_neg (not_lt.mpr hleaf), ok_bind]
  rfl

section
variable {h : Heap K T} {x : T} {k : K} {pos : Nat} {old : Entry K T}

theorem increase_guard (hi : h.Inv) (hx : h.index x = some pos) (ho : h.data[pos]? = some old) (hk : old.key ≤ k) :
    old.item = x ∧ h.increaseKey x k = (do
      let (data, idx) ← increaseLoop ⟨k, old.ctr, x⟩ (h.data.length + 1) h.data h.index pos
      pure { h with data := data, index := idx }) := by
  have hitem : old.item = x := by
    have := (hi.good x pos).mp hx
    rw [ho] at this; simpa using this
  refine ⟨hitem, ?_⟩
  unfold Heap.increaseKey
  rw [pyAssert_true (by simp [Heap.has, hx]), ok_bind]
  simp only [dget, hx, ok_bind, rd_eq_ok.mpr ho]
  have hge : entGe (⟨k, old.ctr, x⟩ : Entry K T) old = .ok true := by
    unfold entGe
    simp only [not_lt.mpr hk, if_false, lt_irrefl]
    split
    · rfl
    · rw [if_pos hitem.symm]
  rw [hge, ok_bind, pyAssert_true rfl, ok_bind]

/-- C07, what does hold: `increase_key` with a not smaller key always returns, and whatever the queue, it only copies
entries that were there: the new key is never stored. -/
theorem C07_never_stored (hi : h.Inv) (hx : h.index x = some pos) (ho : h.data[pos]? = some old) (hk : old.key ≤ k) :
    ∃ h', h.increaseKey x k = .ok h' ∧ h'.data.length = h.data.length ∧ ∀ e ∈ h'.data, e ∈ h.data := by
  obtain ⟨h1, h2⟩ := increase_guard hi hx ho hk
  have hp := (List.getElem?_eq_some_iff.mp ho).1
  obtain ⟨d, i, e1, e2, e3, _⟩ := increaseLoop_spec hi.dist (new := ⟨k, old.ctr, x⟩) ho rfl
    (fun j e hj he hq => absurd (hi.good.inj he ho hq) (by omega)) (h.data.length + 1) h.data h.index pos rfl (by omega) le_rfl hp (fun _ _ => rfl) (fun _ => id)
  rw [h2, e1]
  exact ⟨_, rfl, e2, e3⟩

/-- C07 is FALSE of the code whenever the item has a child that should go before it: then `increase_key` changes nothing. -/
theorem C07_kept (hi : h.Inv) (hx : h.index x = some pos) (ho : h.data[pos]? = some old) (hk : old.key ≤ k) {c : Nat} {e : Entry K T}
    (hc : c = 2 * pos + 1 ∨ c = 2 * pos + 2) (he : h.data[c]? = some e) (hlt : e.key < k ∨ e.key = k ∧ e.ctr < old.ctr) : h.increaseKey x k = .ok h := by
  obtain ⟨h1, h2⟩ := increase_guard hi hx ho hk
  have hcl := (List.getElem?_eq_some_iff.mp he).1
  obtain ⟨c', s, _, _, s3, s4⟩ := increase_step hi.dist (new := ⟨k, old.ctr, x⟩) ho rfl rfl le_rfl (fun _ _ => rfl) (by omega) h.data.length h.index
  rw [h2, s4, if_pos (lt_of_le_of_lt (s3 c e hc he) ((rank_lt_iff _ _).mpr hlt))]
  rfl

/-- C07 is FALSE of the code whenever the item has children and all of them should stay behind it: then `increase_key` returns a
queue in which the item has no entry any more. -/
theorem C07_lost (hi : h.Inv) (hx : h.index x = some pos) (ho : h.data[pos]? = some old) (hk : old.key ≤ k) (hch : 2 * pos + 1 < h.data.length)
    (hall : ∀ c e, (c = 2 * pos + 1 ∨ c = 2 * pos + 2) → h.data[c]? = some e → k < e.key ∨ k = e.key ∧ old.ctr < e.ctr) :
    ∃ h', h.increaseKey x k = .ok h' ∧ h'.data.length = h.data.length ∧ ∀ e ∈ h'.data, e.item ≠ x := by
  obtain ⟨h1, h2⟩ := increase_guard hi hx ho hk
  have hp := (List.getElem?_eq_some_iff.mp ho).1
  have hinj : ∀ j e, h.data[j]? = some e → e.item = old.item → j = pos := fun j e he hq => hi.good.inj he ho hq
  obtain ⟨c, s, s1, s2, _, s4⟩ := increase_step hi.dist (new := ⟨k, old.ctr, x⟩) ho rfl rfl le_rfl (fun _ _ => rfl) hch h.data.length h.index
  have hlt : rank (⟨k, old.ctr, x⟩ : Entry K T) < rank s := (rank_lt_iff _ _).mpr (hall c s s1 s2)
  have hmem : ∀ e ∈ h.data.set pos s, e = s ∨ e ∈ h.data := fun e he => (List.mem_or_eq_of_mem_set he).symm
  obtain ⟨d, i, e1, e2, _, e4⟩ := increaseLoop_spec hi.dist (new := ⟨k, old.ctr, x⟩) ho rfl
    (fun j e hj he hq => absurd (hinj j e he hq) (by omega)) h.data.length (h.data.set pos s) (upd h.index s.item pos) c (by simp) (by omega) (by omega)
    (List.getElem?_eq_some_iff.mp s2).1 (fun j hj => List.getElem?_set_ne (by omega)) (fun e he => by
      rcases hmem e he with rfl | h
      · exact List.mem_of_getElem? s2
      · exact h)
  rw [h2, s4, if_neg (not_lt.mpr hlt.le), e1]
  refine ⟨_, rfl, e2, fun e he => ?_⟩
  rw [← h1]
  refine e4 (fun e he => ?_) e he
  obtain ⟨j, hj⟩ := List.mem_iff_getElem?.mp he
  intro hq
  by_cases hjp : j = pos
  · subst hjp
    rw [List.getElem?_set_self hp] at hj
    injection hj with hj
    subst hj
    exact absurd (hinj c _ s2 hq) (by omega)
  · rw [List.getElem?_set_ne (Ne.symm hjp)] at hj
    exact hjp (hinj j e hj hq)

/-- The hypotheses of `C07_kept` and `C07_lost` are met: in the queue `[(0, 1), (1, 9)]` the key of item 0 is raised to 10 and to 5. -/
example : ∃ h : Heap Nat Nat, h.Inv ∧ h.index 0 = some 0 ∧ h.data[0]? = some ⟨1, 0, 0⟩ ∧ h.data[1]? = some ⟨9, 1, 1⟩ ∧ h.data.length = 2 := by
  obtain ⟨h, h1, h2, _⟩ := rel_ofList (K := Nat) (T := Nat) [(0, 1), (1, 9)] (by decide)
  have e : Heap.ofList (K := Nat) (T := Nat) [(0, 1), (1, 9)] = .ok h := h1
  refine ⟨h, ?_, ?_, ?_, ?_, ?_⟩ <;> first | exact h2 | (injection (show Except.ok _ = Except.ok h from e) with e; subst e; rfl)

end

end Verif.Props
