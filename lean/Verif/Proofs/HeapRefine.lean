import Verif.Proofs.HeapOps
import Mathlib.Data.List.Sort

set_option linter.unusedSimpArgs false
set_option linter.unusedSectionVars false

namespace Verif
open HeapOrder Spec

namespace Heap
variable {K T : Type} [LinearOrder K] [DecidableEq T]

/-- The pair stored in an entry. -/
def pr (e : Entry K T) : T × K := (e.item, e.key)

/-- Refinement relation: the concrete queue stores the pairs of `q`, counters follow the insertion
order. -/
def Rel (h : Heap K T) (q : AQueue K T) : Prop :=
  h.Inv ∧ ∃ es : List (Entry K T), es.Perm h.data ∧ es.Pairwise (fun a b => a.ctr < b.ctr) ∧
    (∀ e ∈ es, 0 ≤ e.ctr ∧ e.ctr < h.ctr) ∧ es.map pr = q

theorem rel_empty : Rel (empty : Heap K T) [] :=
  ⟨inv_empty, [], by simp [empty], by simp, by simp, rfl⟩

theorem Rel.items_nodup {h : Heap K T} {q : AQueue K T} (hr : Rel h q) : (q.map Prod.fst).Nodup := by
  obtain ⟨hi, es, h1, h2, h3, rfl⟩ := hr
  rw [List.map_map]
  exact (h1.map Entry.item).nodup_iff.mpr hi.good.items_nodup

theorem Rel.mem_iff {h : Heap K T} {q : AQueue K T} (hr : Rel h q) (x : T) :
    (h.index x).isSome = true ↔ q.mem x := by
  obtain ⟨hi, es, h1, h2, h3, rfl⟩ := hr
  constructor
  · intro hx
    obtain ⟨pos, old, hp, ho, hit⟩ := hi.find hx
    exact ⟨old.key, List.mem_map.mpr ⟨old, h1.mem_iff.mpr (List.mem_of_getElem? ho), by simp [pr, hit]⟩⟩
  · rintro ⟨k, hk⟩
    obtain ⟨e, he, hek⟩ := List.mem_map.mp hk
    obtain ⟨i, hil, hie⟩ := List.mem_iff_getElem.mp (h1.mem_iff.mp he)
    have : h.index x = some i := by
      apply (hi.good x i).mpr
      simp only [pr, Prod.mk.injEq] at hek
      simp [hil, hie, hek.1]
    simp [this]

theorem lookup_eq_some {q : AQueue K T} (hn : (q.map Prod.fst).Nodup) (x : T) (k : K) :
    q.lookup x = some k ↔ (x, k) ∈ q := by
  unfold AQueue.lookup
  induction q with
  | nil => simp
  | cons p q ih =>
    rw [List.map_cons, List.nodup_cons] at hn
    rw [List.find?_cons]
    by_cases hp : p.1 = x
    · simp only [hp, decide_true, Option.map_some, Option.some.injEq, List.mem_cons]
      constructor
      · rintro rfl; left; rw [← hp]
      · rintro (h | h)
        · rw [← h]
        · exfalso; apply hn.1; rw [hp]; exact List.mem_map.mpr ⟨(x, k), h, rfl⟩
    · have := ih hn.2
      simp only [hp, decide_false]
      rw [this, List.mem_cons]
      constructor
      · exact Or.inr
      · rintro (h | h)
        · exfalso; apply hp; rw [← h]
        · exact h

theorem lookup_eq_none {q : AQueue K T} (x : T) : q.lookup x = none ↔ ¬ q.mem x := by
  unfold AQueue.lookup AQueue.mem
  simp only [Option.map_eq_none_iff, List.find?_eq_none]
  constructor
  · rintro h ⟨k, hk⟩
    have := h _ hk; simp at this
  · rintro h ⟨a, b⟩ hp hpx
    apply h
    have : a = x := by simpa using hpx
    subst this
    exact ⟨b, hp⟩

theorem Rel.keyOf {h : Heap K T} {q : AQueue K T} (hr : Rel h q) (x : T) :
    h.keyOf x = .ok (q.lookup x) := by
  unfold Heap.keyOf
  have hm := hr.mem_iff x
  have hnd := hr.items_nodup
  cases hx : h.index x with
  | none =>
    rw [hx] at hm
    have : ¬ q.mem x := fun hh => by simpa using hm.mpr hh
    simp only
    rw [(lookup_eq_none x).mpr this]
  | some i =>
    obtain ⟨hi, es, h1, h2, h3, rfl⟩ := hr
    have := (hi.good x i).mp hx
    obtain ⟨e, he1, he2⟩ := Option.map_eq_some_iff.mp this
    simp only
    rw [rd_eq_ok.mpr he1, ok_bind, py_pure]
    congr 1
    symm
    rw [lookup_eq_some hnd]
    exact List.mem_map.mpr ⟨e, h1.mem_iff.mpr (List.mem_of_getElem? he1), by simp [pr, he2]⟩

theorem Rel.len {h : Heap K T} {q : AQueue K T} (hr : Rel h q) : h.len = q.length := by
  obtain ⟨hi, es, h1, h2, h3, rfl⟩ := hr
  simp [Heap.len, h1.length_eq]

theorem first_mem {q : AQueue K T} {p : T × K} (h : q.first = some p) : p ∈ q := by
  induction q with
  | nil => simp [AQueue.first] at h
  | cons a q ih =>
    simp only [AQueue.first] at h
    split at h
    · simp_all
    · rename_i m hm
      split at h
      · simp_all
      · obtain rfl := Option.some.inj h
        exact List.mem_cons_of_mem _ (ih hm)

theorem first_eq {es : List (Entry K T)} (hp : es.Pairwise (fun a b => a.ctr < b.ctr)) {root : Entry K T}
    (hr : root ∈ es) (hmin : ∀ e ∈ es, rank root ≤ rank e) :
    AQueue.first (es.map pr) = some (pr root) := by
  induction es with
  | nil => simp at hr
  | cons e es ih =>
    rw [List.pairwise_cons] at hp
    rw [List.map_cons, AQueue.first]
    rcases List.mem_cons.mp hr with rfl | hr'
    · split
      · rfl
      · rename_i m hm
        obtain ⟨e', he', rfl⟩ := List.mem_map.mp (first_mem hm)
        rw [if_pos]
        have := hmin e' (by simp [he'])
        simp only [rank, Prod.Lex.toLex_le_toLex] at this
        simp only [pr]
        rcases this with h | h
        · exact le_of_lt h
        · exact le_of_eq h.1
    · rw [ih hp.2 hr' (fun e he => hmin e (by simp [he]))]
      simp only
      rw [if_neg]
      have h1 := hmin e (by simp)
      have h2 := hp.1 root hr'
      simp only [rank, Prod.Lex.toLex_le_toLex] at h1
      simp only [pr, not_le]
      rcases h1 with h | h
      · exact h
      · omega

theorem first_eq_none {q : AQueue K T} : q.first = none ↔ q = [] := by
  cases q with
  | nil => simp [AQueue.first]
  | cons p q =>
    simp only [AQueue.first, reduceCtorEq, iff_false]
    split
    · simp
    · split <;> simp

theorem Rel.root {h : Heap K T} {q : AQueue K T} (hr : Rel h q) :
    h.data[0]?.map pr = q.first := by
  obtain ⟨hi, es, h1, h2, h3, rfl⟩ := hr
  cases hd : h.data with
  | nil =>
    rw [hd] at h1
    rw [List.perm_nil.mp h1]; rfl
  | cons root t =>
    have h0 : h.data[0]? = some root := by simp [hd]
    rw [first_eq h2 (root := root)]
    · simp
    · rw [h1.mem_iff, hd]; simp
    · intro e he
      exact hi.root_le h0 (h1.mem_iff.mp he)

theorem Rel.push {h : Heap K T} {q : AQueue K T} (hr : Rel h q) {x : T} (k : K) (hx : ¬ q.mem x) :
    ∃ h', h.push x k = .ok h' ∧ Rel h' (q.push x k) := by
  have hm := hr.mem_iff x
  obtain ⟨hi, es, h1, h2, h3, rfl⟩ := hr
  have hnone : h.index x = none := by
    cases hh : h.index x with
    | none => rfl
    | some i => exact absurd (hm.mp (by simp [hh])) hx
  obtain ⟨h', a, b, c, d⟩ := push_spec h hi x k hnone (by
    intro e he
    have := h3 e (h1.mem_iff.mpr he)
    omega)
  refine ⟨h', a, b, es ++ [⟨k, h.ctr, x⟩], (h1.append_right _).trans d.symm, ?_, ?_, ?_⟩
  · rw [List.pairwise_append]
    refine ⟨h2, by simp, ?_⟩
    intro a ha b hb
    have : b = ⟨k, h.ctr, x⟩ := by simpa using hb
    subst this
    exact (h3 a ha).2
  · intro e he
    rw [c]
    rcases List.mem_append.mp he with he | he
    · have := h3 e he; omega
    · have : e = ⟨k, h.ctr, x⟩ := by simpa using he
      subst this
      simp only
      omega
  · simp [AQueue.push, pr]

theorem rekeyE_ctr (x : T) (k : K) (e : Entry K T) : (rekeyE x k e).ctr = e.ctr := by
  unfold rekeyE; split <;> rfl

theorem Rel.of_rekey {h h' : Heap K T} {es : List (Entry K T)} {x : T} {k : K}
    (h1 : es.Perm h.data) (h2 : es.Pairwise (fun a b => a.ctr < b.ctr))
    (h3 : ∀ e ∈ es, 0 ≤ e.ctr ∧ e.ctr < h.ctr) (b : h'.Inv) (c : h'.ctr = h.ctr)
    (d : h'.data.Perm (h.data.map (rekeyE x k))) : Rel h' (AQueue.rekey (es.map pr) x k) := by
  refine ⟨b, es.map (rekeyE x k), (h1.map _).trans d.symm, ?_, ?_, ?_⟩
  · rw [List.pairwise_map]
    simpa only [rekeyE_ctr] using h2
  · intro e he
    obtain ⟨e', he', rfl⟩ := List.mem_map.mp he
    rw [rekeyE_ctr, c]
    exact h3 e' he'
  · unfold AQueue.rekey
    rw [List.map_map, List.map_map]
    apply List.map_congr_left
    intro e _
    simp only [Function.comp, rekeyE, pr]
    by_cases h : e.item = x <;> simp [h]

theorem Rel.update {h : Heap K T} {q : AQueue K T} (hr : Rel h q) {x : T} (k : K) (hx : q.mem x) :
    ∃ h', h.update x k = .ok h' ∧ Rel h' (q.rekey x k) := by
  have hm := (hr.mem_iff x).mpr hx
  obtain ⟨hi, es, h1, h2, h3, rfl⟩ := hr
  obtain ⟨h', a, b, c, d⟩ := update_spec h hi (k := k) hm
  exact ⟨h', a, Rel.of_rekey h1 h2 h3 b c d⟩

theorem Rel.decrease {h : Heap K T} {q : AQueue K T} (hr : Rel h q) {x : T} {k k0 : K}
    (hx : q.lookup x = some k0) (hk : k ≤ k0) :
    ∃ h', h.decreaseKey x k = .ok h' ∧ Rel h' (q.rekey x k) := by
  have hnd := hr.items_nodup
  have hmem := (lookup_eq_some hnd x k0).mp hx
  have hm := (hr.mem_iff x).mpr ⟨k0, hmem⟩
  have hko := hr.keyOf x
  obtain ⟨hi, es, h1, h2, h3, rfl⟩ := hr
  obtain ⟨pos, old, hp, ho, hit⟩ := hi.find hm
  have hold : old.key = k0 := by
    unfold Heap.keyOf at hko
    rw [hp] at hko
    simp only [rd_eq_ok.mpr ho, ok_bind, py_pure, hx] at hko
    injection hko with hko
    exact Option.some.inj hko
  obtain ⟨h', a, b, c, d⟩ := decreaseKey_spec h hi (k := k) hp ho (by rw [hold]; exact hk)
  exact ⟨h', a, Rel.of_rekey h1 h2 h3 b c d⟩

theorem Rel.of_filter {h h' : Heap K T} {es : List (Entry K T)} {x : T}
    (h1 : es.Perm h.data) (h2 : es.Pairwise (fun a b => a.ctr < b.ctr))
    (h3 : ∀ e ∈ es, 0 ≤ e.ctr ∧ e.ctr < h.ctr) (b : h'.Inv) (c : h'.ctr = h.ctr)
    (d : h'.data.Perm (h.data.filter (fun a => a.item ≠ x))) : Rel h' (AQueue.erase (es.map pr) x) := by
  refine ⟨b, es.filter (fun a => a.item ≠ x), (h1.filter _).trans d.symm, h2.filter _, ?_, ?_⟩
  · intro e he
    rw [c]
    exact h3 e (List.mem_filter.mp he).1
  · unfold AQueue.erase
    rw [List.filter_map]
    rfl

theorem Rel.remove [OrderBot K] {h : Heap K T} {q : AQueue K T} (hr : Rel h q) {x : T} (hx : q.mem x) :
    ∃ h', h.remove x = .ok h' ∧ Rel h' (q.erase x) := by
  have hm := (hr.mem_iff x).mpr hx
  obtain ⟨hi, es, h1, h2, h3, rfl⟩ := hr
  obtain ⟨h', a, b, c, d⟩ := remove_spec h hi hm (fun e he => (h3 e (h1.mem_iff.mpr he)).1)
  exact ⟨h', a, Rel.of_filter h1 h2 h3 b c d⟩

theorem Rel.pop {h : Heap K T} {q : AQueue K T} (hr : Rel h q) {p : T × K} (hp : q.first = some p) :
    ∃ h', h.pop = .ok (h', p.1) ∧ Rel h' (q.erase p.1) := by
  have hroot := hr.root
  obtain ⟨hi, es, h1, h2, h3, rfl⟩ := hr
  rw [hp] at hroot
  obtain ⟨root, hr0, rfl⟩ := Option.map_eq_some_iff.mp hroot
  have hne : h.data ≠ [] := by rintro e; rw [e] at hr0; simp at hr0
  obtain ⟨h', root', a, b, c, d, e⟩ := pop_spec' h hi hne
  rw [hr0] at b
  obtain rfl := Option.some.inj b
  exact ⟨h', a, Rel.of_filter h1 h2 h3 d e c⟩

/-! ### construction from a list -/

theorem heapifyLoop_spec : ∀ (n : Nat) (h : Heap K T), n ≤ h.data.length →
    Good h.data h.index → Distinct h.data → (∀ d0, HeapFrom n h.data.length (rk d0 h.data)) →
    ∃ h', heapifyLoop n h = .ok h' ∧ h'.ctr = h.ctr ∧ h'.data.Perm h.data ∧ h'.Inv := by
  intro n
  induction n with
  | zero => intro h _ hg hd hh; exact ⟨h, rfl, rfl, List.Perm.refl _, ⟨hg, hd, hh⟩⟩
  | succ n ih =>
    intro h hn hg hd hh
    have hl : n < h.data.length := by omega
    have key : ∀ d0, ∃ h', siftup h n = .ok h' ∧ h'.ctr = h.ctr ∧ h'.data.Perm h.data ∧
        Good h'.data h'.index ∧ HeapFrom n h.data.length (rk d0 h'.data) := by
      intro d0
      obtain ⟨h', a, b, c, d, e⟩ := siftup_spec d0 h n h.data[n] (by simp [hl]) hg hd
      refine ⟨h', a, b, c, d, e n (Or.inr rfl) (hh d0).extend ?_⟩
      intro h0 hlo
      simp only [par] at hlo; omega
    obtain ⟨h', a, b, c, d, e⟩ := key h.data[n]
    obtain ⟨h'', a', b', c', d'⟩ := ih h' (by rw [c.length_eq]; omega) d (hd.perm c) (by
      intro d0
      obtain ⟨h2, p, _, _, _, e'⟩ := key d0
      rw [a] at p
      obtain rfl := Except.ok.inj p
      rw [c.length_eq]; exact e')
    refine ⟨h'', ?_, by rw [b', b], c'.trans c, d'⟩
    rw [heapifyLoop, a, ok_bind, a']

/-- The index dict plays no role for the data: any dict gives the same data. -/
theorem siftdownLoop_data (start : Nat) (nw : Entry K T) : ∀ (fuel : Nat) (data : List (Entry K T))
    (i1 i2 : T → Option Nat) (pos : Nat),
    (siftdownLoop start nw fuel data i1 pos).map Prod.fst = (siftdownLoop start nw fuel data i2 pos).map Prod.fst := by
  intro fuel
  induction fuel with
  | zero => intros; rfl
  | succ fuel ih =>
    intro data i1 i2 pos
    simp only [siftdownLoop]
    have hfin : ∀ (i1 i2 : T → Option Nat), Except.map Prod.fst (do
        let data ← wr data pos nw
        pure (data, upd i1 nw.item pos) : Py (List (Entry K T) × (T → Option Nat))) =
        Except.map Prod.fst (do
        let data ← wr data pos nw
        pure (data, upd i2 nw.item pos) : Py (List (Entry K T) × (T → Option Nat))) := by
      intro i1 i2
      cases wr data pos nw <;> rfl
    split
    · cases rd data ((pos - 1) / 2) with
      | error e => rfl
      | ok parent =>
        simp only [ok_bind]
        cases entLt nw parent with
        | error e => rfl
        | ok b =>
          simp only [ok_bind]
          split
          · cases wr data pos parent with
            | error e => rfl
            | ok d => simp only [ok_bind]; exact ih _ _ _ _
          · exact hfin _ _
    · exact hfin _ _

theorem siftupLoop_data (endpos : Nat) : ∀ (fuel : Nat) (data : List (Entry K T))
    (i1 i2 : T → Option Nat) (pos : Nat),
    (siftupLoop endpos fuel data i1 pos).map (fun r => (r.1, r.2.2)) =
    (siftupLoop endpos fuel data i2 pos).map (fun r => (r.1, r.2.2)) := by
  intro fuel
  induction fuel with
  | zero => intros; rfl
  | succ fuel ih =>
    intro data i1 i2 pos
    simp only [siftupLoop]
    split
    · generalize (if 2 * pos + 1 + 1 < endpos then _ else _ : Py Nat) = ch
      cases ch with
      | error e => rfl
      | ok c =>
        simp only [ok_bind]
        cases rd data c with
        | error e => rfl
        | ok e =>
          simp only [ok_bind]
          cases wr data pos e with
          | error e => rfl
          | ok d => simp only [ok_bind]; exact ih _ _ _ _
    · rfl

theorem siftdown_data (data : List (Entry K T)) (i1 i2 : T → Option Nat) (c start pos : Nat) :
    (siftdown ⟨data, i1, c⟩ start pos).map (fun h => (h.data, h.ctr)) =
    (siftdown ⟨data, i2, c⟩ start pos).map (fun h => (h.data, h.ctr)) := by
  unfold siftdown
  simp only
  cases rd data pos with
  | error e => rfl
  | ok nw =>
    simp only [ok_bind]
    have := siftdownLoop_data start nw (pos + 1) data i1 i2 pos
    revert this
    cases siftdownLoop start nw (pos + 1) data i1 pos <;> cases siftdownLoop start nw (pos + 1) data i2 pos <;>
      simp [Except.map]

theorem siftup_data (data : List (Entry K T)) (i1 i2 : T → Option Nat) (c pos : Nat) :
    (siftup ⟨data, i1, c⟩ pos).map (fun h => (h.data, h.ctr)) =
    (siftup ⟨data, i2, c⟩ pos).map (fun h => (h.data, h.ctr)) := by
  unfold siftup
  simp only
  cases rd data pos with
  | error e => rfl
  | ok nw =>
    simp only [ok_bind]
    have := siftupLoop_data data.length (data.length + 1) data i1 i2 pos
    revert this
    cases h1 : siftupLoop data.length (data.length + 1) data i1 pos with
    | error e =>
      cases h2 : siftupLoop data.length (data.length + 1) data i2 pos with
      | error e' => simp [Except.map]
      | ok r => simp [Except.map]
    | ok r1 =>
      cases h2 : siftupLoop data.length (data.length + 1) data i2 pos with
      | error e' => simp [Except.map]
      | ok r2 =>
        obtain ⟨d1, j1, p1⟩ := r1
        obtain ⟨d2, j2, p2⟩ := r2
        simp only [Except.map, Except.ok.injEq, Prod.mk.injEq, ok_bind]
        rintro ⟨rfl, rfl⟩
        cases wr d1 p1 nw with
        | error e => rfl
        | ok d => simp only [ok_bind]; exact siftdown_data _ _ _ _ _ _

theorem heapifyLoop_data : ∀ (n : Nat) (data : List (Entry K T)) (i1 i2 : T → Option Nat) (c : Nat),
    (heapifyLoop n ⟨data, i1, c⟩).map (fun h => (h.data, h.ctr)) =
    (heapifyLoop n ⟨data, i2, c⟩).map (fun h => (h.data, h.ctr)) := by
  intro n
  induction n with
  | zero => intros; rfl
  | succ n ih =>
    intro data i1 i2 c
    simp only [heapifyLoop]
    have := siftup_data data i1 i2 c n
    revert this
    cases h1 : siftup (⟨data, i1, c⟩ : Heap K T) n with
    | error e =>
      cases h2 : siftup (⟨data, i2, c⟩ : Heap K T) n with
      | error e' => simp [Except.map]
      | ok r => simp [Except.map]
    | ok r1 =>
      cases h2 : siftup (⟨data, i2, c⟩ : Heap K T) n with
      | error e' => simp [Except.map]
      | ok r2 =>
        obtain ⟨d1, j1, p1⟩ := r1
        obtain ⟨d2, j2, p2⟩ := r2
        simp only [Except.map, Except.ok.injEq, Prod.mk.injEq, ok_bind]
        rintro ⟨rfl, rfl⟩
        exact ih _ _ _ _

theorem enumDict_good : ∀ (l pre : List (Entry K T)) (d : T → Option Nat),
    Good pre d → ((pre ++ l).map Entry.item).Nodup → Good (pre ++ l) (enumDict pre.length l d) := by
  intro l
  induction l with
  | nil => intro pre d h _; simpa [enumDict] using h
  | cons e l ih =>
    intro pre d h hn
    have hap : pre ++ e :: l = (pre ++ [e]) ++ l := by simp
    have hnone : d e.item = none := by
      cases hd : d e.item with
      | none => rfl
      | some i =>
        exfalso
        have := (h e.item i).mp hd
        obtain ⟨e', h1, h2⟩ := Option.map_eq_some_iff.mp this
        rw [List.map_append, List.nodup_append] at hn
        exact hn.2.2 e'.item (List.mem_map.mpr ⟨e', List.mem_of_getElem? h1, rfl⟩) e.item (by simp) h2
    rw [hap]
    have := ih (pre ++ [e]) (upd d e.item pre.length) (h.concat hnone) (by rw [← hap]; exact hn)
    simpa [enumDict] using this

theorem zipIdx_map_ctr (l : List (T × K)) (k : Nat) :
    ((l.zipIdx k).map (fun p => (⟨p.1.2, (p.2 : Int), p.1.1⟩ : Entry K T))).Pairwise (fun a b => a.ctr < b.ctr) := by
  induction l generalizing k with
  | nil => simp
  | cons a l ih =>
    rw [List.zipIdx_cons, List.map_cons, List.pairwise_cons]
    refine ⟨?_, ih (k + 1)⟩
    intro e he
    obtain ⟨⟨p, j⟩, hp, rfl⟩ := List.mem_map.mp he
    have := List.le_snd_of_mem_zipIdx hp
    simp only at this ⊢
    omega

theorem rel_ofList (l : List (T × K)) (hn : (l.map Prod.fst).Nodup) :
    ∃ h, ofList l = .ok h ∧ Rel h l := by
  unfold ofList
  by_cases hl : l = []
  · subst hl
    exact ⟨empty, by simp, rel_empty⟩
  · rw [if_neg hl]
    let data : List (Entry K T) := l.zipIdx.map (fun p => ⟨p.1.2, (p.2 : Int), p.1.1⟩)
    change ∃ h, (heapifyLoop (data.length / 2) ⟨data, fun _ => none, data.length⟩ >>= _) = _ ∧ _
    have hpr : data.map pr = l := by
      simp only [data, List.map_map]
      have : (pr ∘ fun p : (T × K) × Nat => (⟨p.1.2, (p.2 : Int), p.1.1⟩ : Entry K T)) = Prod.fst := rfl
      rw [this, List.zipIdx_map_fst]
    have hpw : data.Pairwise (fun a b => a.ctr < b.ctr) := zipIdx_map_ctr l 0
    have hitems : (data.map Entry.item).Nodup := by
      have : data.map Entry.item = (data.map pr).map Prod.fst := (List.map_map (l := data) (f := pr) (g := Prod.fst)).symm ▸ rfl
      rw [this, hpr]; exact hn
    have hdist : Distinct data := by
      unfold Distinct List.Nodup
      rw [List.pairwise_map]
      exact hpw.imp (fun {a b} h => by omega)
    have hgood : Good data (enumDict 0 data (fun _ => none)) := by
      simpa using enumDict_good data [] (fun _ => none) good_nil (by simpa using hitems)
    obtain ⟨h1, a, b, c, d⟩ := heapifyLoop_spec (data.length / 2)
      ⟨data, enumDict 0 data (fun _ => none), data.length⟩ (by simp only; omega) hgood hdist (by
        intro d0 i h0 hi hlo
        simp only [par] at hlo hi; omega)
    have hdata := heapifyLoop_data (data.length / 2) data (enumDict 0 data (fun _ => none)) (fun _ => none) data.length
    rw [a] at hdata
    cases h2 : heapifyLoop (data.length / 2) (⟨data, fun _ => none, data.length⟩ : Heap K T) with
    | error e => rw [h2] at hdata; simp [Except.map] at hdata
    | ok r =>
      rw [h2] at hdata
      simp only [Except.map, Except.ok.injEq, Prod.mk.injEq] at hdata
      rw [ok_bind]
      refine ⟨_, rfl, ⟨?_, ?_, ?_⟩, data, ?_, hpw, ?_, hpr⟩
      · simp only
        have := enumDict_good r.data [] (fun _ => none) good_nil (by
          rw [List.nil_append, ← hdata.1, (c.map Entry.item).nodup_iff]; exact hitems)
        simpa using this
      · simp only; rw [← hdata.1]; exact d.dist
      · intro d0; simp only; rw [← hdata.1]; exact d.heap d0
      · simp only; rw [← hdata.1]; exact c.symm
      · intro e he
        simp only
        rw [← hdata.2, b]
        obtain ⟨⟨p, j⟩, hp, rfl⟩ := List.mem_map.mp he
        have := List.snd_lt_of_mem_zipIdx hp
        simp only [data, List.length_map, List.length_zipIdx]
        simp at this ⊢
        omega

/-! ### sorted -/

/-- Insertion of an entry by key after all equal keys. -/
def insE (e : Entry K T) : List (Entry K T) → List (Entry K T)
  | [] => [e]
  | r :: l => if e.key < r.key then e :: r :: l else r :: insE e l

theorem insE_pr (e : Entry K T) (l : List (Entry K T)) :
    (insE e l).map pr = AQueue.insertByKey (pr e) (l.map pr) := by
  induction l with
  | nil => rfl
  | cons r l ih =>
    simp only [insE, List.map_cons, AQueue.insertByKey, pr]
    split
    · rfl
    · rw [List.map_cons, ih]; rfl

theorem insE_perm (e : Entry K T) (l : List (Entry K T)) : (insE e l).Perm (e :: l) := by
  induction l with
  | nil => exact List.Perm.refl _
  | cons r l ih =>
    simp only [insE]
    split
    · exact List.Perm.refl _
    · exact (ih.cons r).trans (List.Perm.swap e r l)

theorem insE_sorted {e : Entry K T} {l : List (Entry K T)} (hs : l.Pairwise (fun a b => rank a ≤ rank b))
    (hc : ∀ a ∈ l, a.ctr < e.ctr) : (insE e l).Pairwise (fun a b => rank a ≤ rank b) := by
  induction l with
  | nil => simp [insE]
  | cons r l ih =>
    rw [List.pairwise_cons] at hs
    simp only [insE]
    split
    · rename_i h
      have her : rank e ≤ rank r := le_of_lt ((rank_lt_iff e r).mpr (Or.inl h))
      rw [List.pairwise_cons]
      refine ⟨?_, by rw [List.pairwise_cons]; exact hs⟩
      intro a ha
      rcases List.mem_cons.mp ha with rfl | ha
      · exact her
      · exact le_trans her (hs.1 a ha)
    · rename_i h
      rw [List.pairwise_cons]
      refine ⟨?_, ih hs.2 (fun a ha => hc a (by simp [ha]))⟩
      intro a ha
      rcases List.mem_cons.mp ((insE_perm e l).mem_iff.mp ha) with rfl | ha
      · simp only [rank, Prod.Lex.toLex_le_toLex]
        rcases lt_or_eq_of_le (not_lt.mp h) with h1 | h1
        · exact Or.inl h1
        · exact Or.inr ⟨h1, le_of_lt (hc r (by simp))⟩
      · exact hs.1 a ha

theorem foldl_insE (es acc : List (Entry K T)) (hs : acc.Pairwise (fun a b => rank a ≤ rank b))
    (hp : es.Pairwise (fun a b => a.ctr < b.ctr)) (hc : ∀ a ∈ acc, ∀ e ∈ es, a.ctr < e.ctr) :
    ∃ r : List (Entry K T), r.Pairwise (fun a b => rank a ≤ rank b) ∧ r.Perm (acc ++ es) ∧
      r.map pr = (es.map pr).foldl (fun acc p => AQueue.insertByKey p acc) (acc.map pr) := by
  induction es generalizing acc with
  | nil => exact ⟨acc, hs, by simp, rfl⟩
  | cons e es ih =>
    rw [List.pairwise_cons] at hp
    obtain ⟨r, h1, h2, h3⟩ := ih (insE e acc) (insE_sorted hs (fun a ha => hc a ha e (by simp))) hp.2 (by
      intro a ha e' he'
      rcases List.mem_cons.mp ((insE_perm e acc).mem_iff.mp ha) with rfl | ha
      · exact hp.1 e' he'
      · exact hc a ha e' (by simp [he']))
    refine ⟨r, h1, ?_, ?_⟩
    · refine h2.trans (((insE_perm e acc).append_right es).trans ?_)
      exact (List.perm_middle (a := e) (l₁ := acc) (l₂ := es)).symm
    · rw [h3, insE_pr]; rfl

theorem Rel.sorted {h : Heap K T} {q : AQueue K T} (hr : Rel h q) :
    h.sortedItems = q.byKey.map Prod.fst := by
  obtain ⟨hi, es, h1, h2, h3, rfl⟩ := hr
  obtain ⟨r, a, b, c⟩ := foldl_insE es [] (by simp) h2 (by simp)
  unfold AQueue.byKey
  rw [List.map_nil] at c
  rw [← c, List.map_map]
  unfold sortedItems
  have hms : (h.data.mergeSort (fun a b => decide (rank a ≤ rank b))).Pairwise (fun a b => rank a ≤ rank b) := by
    have := List.pairwise_mergeSort (le := fun a b : Entry K T => decide (rank a ≤ rank b))
      (by intro a b c; simp only [decide_eq_true_eq]; exact le_trans)
      (by intro a b; simp only [Bool.or_eq_true, decide_eq_true_eq]; exact le_total _ _) h.data
    simpa using this
  have hperm : (h.data.mergeSort (fun a b => decide (rank a ≤ rank b))).Perm r :=
    (List.mergeSort_perm _ _).trans (h1.symm.trans (by simpa using b.symm))
  have : h.data.mergeSort (fun a b => decide (rank a ≤ rank b)) = r := by
    refine List.Perm.eq_of_pairwise (le := fun a b => rank a ≤ rank b) ?_ hms a hperm
    intro x y hx hy hxy hyx
    have hrk : rank x = rank y := le_antisymm hxy hyx
    have hcx : x.ctr = y.ctr := by
      have := congrArg (fun z => (ofLex z).2) hrk
      simpa [rank] using this
    have hx' : x ∈ h.data := by
      have := (List.mergeSort_perm h.data (fun a b => decide (rank a ≤ rank b))).mem_iff.mp hx
      exact this
    have hy' : y ∈ h.data := h1.mem_iff.mp (by
      have := b.mem_iff.mp hy
      simpa using this)
    obtain ⟨i, hil, rfl⟩ := List.mem_iff_getElem.mp hx'
    obtain ⟨j, hjl, rfl⟩ := List.mem_iff_getElem.mp hy'
    by_cases hij : i = j
    · subst hij; rfl
    · exact absurd hcx (hi.dist.ne (i := i) (j := j) (by simp [hil]) (by simp [hjl]) hij)
  rw [this]
  rfl

end Heap
end Verif
