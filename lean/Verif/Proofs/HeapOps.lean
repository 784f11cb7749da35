import Verif.Proofs.Heap

set_option linter.unusedSimpArgs false
set_option linter.unusedSectionVars false

namespace Verif
open HeapOrder Spec

namespace Heap
variable {K T : Type _} [LinearOrder K] [DecidableEq T]

/-- The internal consistency of a queue. -/
structure Inv (h : Heap K T) : Prop where
  good : Good h.data h.index
  dist : Distinct h.data
  heap : ∀ d0, HeapFrom 0 h.data.length (rk d0 h.data)

theorem Good.items_nodup {data : List (Entry K T)} {idx : T → Option Nat} (h : Good data idx) :
    (data.map Entry.item).Nodup := by
  rw [List.nodup_iff_getElem?_ne_getElem?]
  intro i j hij hj e
  have hj' : j < data.length := by simpa using hj
  have hi' : i < data.length := by omega
  simp [hi', hj'] at e
  have := h.inj (i := i) (j := j) (a := data[i]) (b := data[j]) (by simp [hi']) (by simp [hj']) e
  omega

theorem Inv.root_le {h : Heap K T} (hi : h.Inv) {root : Entry K T} (hr : h.data[0]? = some root)
    {e : Entry K T} (he : e ∈ h.data) : rank root ≤ rank e := by
  obtain ⟨i, hil, rfl⟩ := List.mem_iff_getElem.mp he
  have := (hi.heap root).root_le i hil
  simpa [rk, hr, hil] using this

theorem good_nil : Good ([] : List (Entry K T)) (fun _ => none) := by
  intro x i; simp

theorem inv_empty : (empty : Heap K T).Inv :=
  ⟨good_nil, by simp [Distinct, empty], by intro d0 i _ h; simp [empty] at h⟩

theorem Good.concat {data : List (Entry K T)} {idx : T → Option Nat} (h : Good data idx)
    {e : Entry K T} (hn : idx e.item = none) : Good (data ++ [e]) (upd idx e.item data.length) := by
  intro x i
  unfold upd
  by_cases hx : x = e.item
  · subst hx
    rw [if_pos rfl]
    constructor
    · intro hk
      obtain rfl := Option.some.inj hk
      simp
    · intro hk
      rw [List.getElem?_append] at hk
      split at hk
      · have := (h e.item i).mpr hk
        rw [hn] at this; simp at this
      · rename_i hlt
        rw [List.getElem?_singleton] at hk
        split at hk
        · congr 1; omega
        · simp at hk
  · rw [if_neg hx, h x i, List.getElem?_append]
    by_cases hlt : i < data.length
    · rw [if_pos hlt]
    · rw [if_neg hlt, List.getElem?_singleton]
      have : data[i]? = none := by simp; omega
      rw [this]
      split
      · simp; exact fun e' => hx e'.symm
      · simp

theorem push_spec (h : Heap K T) (hi : h.Inv) (x : T) (k : K) (hx : h.index x = none)
    (hc : ∀ e ∈ h.data, e.ctr ≠ h.ctr) :
    ∃ h', h.push x k = .ok h' ∧ h'.Inv ∧ h'.ctr = h.ctr + 1 ∧
      h'.data.Perm (h.data ++ [⟨k, h.ctr, x⟩]) := by
  have hg : Good (h.data ++ [⟨k, (h.ctr : Int), x⟩]) (upd h.index x h.data.length) :=
    hi.good.concat (e := ⟨k, (h.ctr : Int), x⟩) hx
  have hd : Distinct (h.data ++ [⟨k, (h.ctr : Int), x⟩]) := by
    unfold Distinct
    rw [List.map_append, List.nodup_append]
    refine ⟨hi.dist, by simp, ?_⟩
    intro a ha b hb
    obtain ⟨e, he, rfl⟩ := List.mem_map.mp ha
    simp at hb
    subst hb
    exact hc e he
  have hP : ∀ d0, PUp 0 (h.data.length + 1) (rk d0 (h.data ++ [⟨k, (h.ctr : Int), x⟩])) h.data.length := by
    intro d0
    apply (hi.heap d0).push
    intro i hil
    unfold rk
    rw [List.getElem?_append_left hil]
  have key : ∀ d0, ∃ h', siftdown { h with data := h.data ++ [⟨k, (h.ctr : Int), x⟩], index := upd h.index x h.data.length } 0 h.data.length = .ok h' ∧ h'.ctr = h.ctr ∧ h'.data.Perm (h.data ++ [⟨k, (h.ctr : Int), x⟩]) ∧ Good h'.data h'.index ∧ HeapFrom 0 (h.data.length + 1) (rk d0 h'.data) := by
    intro d0
    obtain ⟨h', a, b, c, d, e⟩ := siftdown_spec d0
      { h with data := h.data ++ [⟨k, (h.ctr : Int), x⟩], index := upd h.index x h.data.length } 0 h.data.length
      ⟨k, (h.ctr : Int), x⟩ (by simp) (.zero _) hg hd
    simp only [List.length_append, List.length_singleton] at e
    exact ⟨h', a, b, c, d, e 0 (Or.inl rfl) (hP d0) (fun hh => absurd hh (by omega))⟩
  obtain ⟨h', a, b, c, d, e⟩ := key ⟨k, (h.ctr : Int), x⟩
  refine ⟨{ h' with ctr := h'.ctr + 1 }, ?_, ⟨d, hd.perm c, ?_⟩, by simp [b], c⟩
  · unfold push
    rw [pyAssert_true (by simp [hx]), ok_bind]
    simp only [List.length_append, List.length_singleton, Nat.add_sub_cancel]
    rw [a]; rfl
  · intro d0
    obtain ⟨h'', a', b', c', d', e'⟩ := key d0
    rw [a] at a'
    obtain rfl := Except.ok.inj a'
    have : h'.data.length = h.data.length + 1 := by simpa using c.length_eq
    simpa [this] using e'

theorem dpop_eq {d : T → Option Nat} {x : T} {i : Nat} (h : d x = some i) :
    dpop d x = .ok (fun y => if y = x then none else d y) := by
  simp [dpop, h]

theorem pop_spec (h : Heap K T) (hi : h.Inv) (hne : h.data ≠ []) :
    ∃ h' root, h.pop = .ok (h', root.item) ∧ h.data[0]? = some root ∧ (root :: h'.data).Perm h.data ∧
      h'.Inv ∧ h'.ctr = h.ctr := by
  obtain ⟨init, last, hd⟩ : ∃ init last, h.data = init ++ [last] := by
    rcases List.eq_nil_or_concat h.data with e | ⟨a, b, e⟩
    · exact absurd e hne
    · exact ⟨a, b, by simpa using e⟩
  have hlast : h.data[init.length]? = some last := by simp [hd]
  have hidx : h.index last.item = some init.length := (hi.good _ _).mpr (by simp [hlast])
  unfold pop
  rw [hd, rdLast_concat, ok_bind, List.dropLast_concat, dpop_eq hidx, ok_bind]
  cases init with
  | nil =>
    rw [if_neg (by simp)]
    refine ⟨_, last, rfl, by simp, by simp, ⟨?_, by simp [Distinct], ?_⟩, rfl⟩
    · intro y i
      simp only [List.getElem?_nil, Option.map_none]
      constructor
      · intro hh
        split at hh
        · simp at hh
        · rename_i hy
          have := (hi.good y i).mp hh
          rw [hd] at this
          simp only [List.nil_append, List.getElem?_singleton] at this
          split at this
          · simp at this; exact absurd this.symm hy
          · simp at this
      · intro hh; simp at hh
    · intro d0 i _ hh; simp at hh
  | cons root t =>
    rw [if_pos (by simp)]
    have hroot : h.data[0]? = some root := by simp [hd]
    have hridx : h.index root.item = some 0 := (hi.good _ _).mpr (by simp [hroot])
    have hrl : root.item ≠ last.item := by
      intro e
      have := hi.good.inj hroot hlast e
      simp at this
    rw [rd_lt _ _ (by simp), ok_bind]
    simp only [List.getElem_cons_zero]
    rw [dpop_eq (i := 0) (by simp [hrl, hridx]), ok_bind, wr_lt (by simp), ok_bind]
    simp only [List.set_cons_zero]
    have hgood : Good (last :: t) (upd (fun y => if y = root.item then none else if y = last.item then none else h.index y) last.item 0) := by
      intro x i
      unfold upd
      have hx := hi.good x i
      rw [hd] at hx
      by_cases e1 : x = last.item
      · subst e1
        rw [if_pos rfl]
        constructor
        · intro hh; obtain rfl := Option.some.inj hh; simp
        · intro hh
          cases i with
          | zero => rfl
          | succ i =>
            exfalso
            simp only [List.getElem?_cons_succ] at hh
            have hil : i < t.length := by
              by_contra hcon
              rw [List.getElem?_eq_none (by omega)] at hh; simp at hh
            have : h.index last.item = some (i + 1) := by
              apply hx.mpr
              simp [List.getElem?_append, hil]
              simpa [hil] using hh
            rw [hidx] at this
            simp at this; omega
      · rw [if_neg e1]
        beta_reduce
        by_cases e2 : x = root.item
        · subst e2
          rw [if_pos rfl]
          constructor
          · intro hh; simp at hh
          · intro hh
            exfalso
            cases i with
            | zero => simp at hh; exact e1 hh.symm
            | succ i =>
              simp only [List.getElem?_cons_succ] at hh
              have hil : i < t.length := by
                by_contra hcon
                rw [List.getElem?_eq_none (by omega)] at hh; simp at hh
              have : h.index root.item = some (i + 1) := by
                apply hx.mpr
                simp [List.getElem?_append, hil]
                simpa [hil] using hh
              rw [hridx] at this
              simp at this
        · rw [if_neg e2, if_neg e1, hx]
          cases i with
          | zero =>
            simp
            exact ⟨fun e => absurd e.symm e2, fun e => absurd e.symm e1⟩
          | succ i =>
            simp only [List.cons_append, List.getElem?_cons_succ]
            rw [List.getElem?_append]
            split
            · rfl
            · rename_i hlt
              rw [List.getElem?_eq_none (l := t) (by omega), List.getElem?_singleton]
              split
              · simp; exact fun e => e1 e.symm
              · simp
    have hperm : (root :: last :: t).Perm h.data := by
      rw [hd]
      simpa using (List.perm_append_comm (l₁ := [last]) (l₂ := t)).cons root
    have hdist : Distinct (last :: t) := by
      have := hi.dist.perm hperm
      unfold Distinct at this ⊢
      rw [List.map_cons, List.nodup_cons] at this
      exact this.2
    have hQ : ∀ d0, QDn 0 (last :: t).length (rk d0 (last :: t)) 0 := by
      intro d0
      apply ((hi.heap d0).mono (n' := (last :: t).length) (by simp [hd])).raise (by simp)
      intro i hin hi0
      cases i with
      | zero => omega
      | succ i =>
        unfold rk
        rw [hd]
        simp only [List.cons_append, List.getElem?_cons_succ]
        rw [List.getElem?_append_left (by simpa using hin)]
    have key : ∀ d0, ∃ h', siftup { h with data := last :: t, index := upd (fun y => if y = root.item then none else if y = last.item then none else h.index y) last.item 0 } 0 = .ok h' ∧ h'.ctr = h.ctr ∧ h'.data.Perm (last :: t) ∧ Good h'.data h'.index ∧ HeapFrom 0 (last :: t).length (rk d0 h'.data) := by
      intro d0
      obtain ⟨h', a, b, c, d, e⟩ := siftup_spec d0 { h with data := last :: t, index := upd (fun y => if y = root.item then none else if y = last.item then none else h.index y) last.item 0 } 0 last (by simp) hgood hdist
      exact ⟨h', a, b, c, d, e 0 (Or.inl rfl) (hQ d0) (fun hh => absurd hh (by omega))⟩
    obtain ⟨h', a, b, c, d, e⟩ := key root
    rw [a, ok_bind]
    refine ⟨h', root, rfl, by simp, ?_, ⟨d, hdist.perm c, ?_⟩, b⟩
    · rw [hd] at hperm
      exact (c.cons root).trans hperm
    · intro d0
      obtain ⟨h'', a', b', c', d', e'⟩ := key d0
      rw [a] at a'
      obtain rfl := Except.ok.inj a'
      rw [c.length_eq]; exact e'

theorem Good.set_same {data : List (Entry K T)} {idx : T → Option Nat} (h : Good data idx) {pos : Nat}
    {old e : Entry K T} (ho : data[pos]? = some old) (he : e.item = old.item) :
    Good (data.set pos e) idx := by
  have hl : pos < data.length := (List.getElem?_eq_some_iff.mp ho).1
  intro x i
  rw [h x i, List.getElem?_set, if_pos hl]
  split
  · rename_i hpi
    subst hpi
    rw [ho]; simp [he]
  · rfl

theorem set_ctr_map {data : List (Entry K T)} {pos : Nat} {old e : Entry K T}
    (ho : data[pos]? = some old) (he : e.ctr = old.ctr) :
    (data.set pos e).map Entry.ctr = data.map Entry.ctr := by
  apply List.ext_getElem?
  intro i
  rw [List.getElem?_map, List.getElem?_map, List.getElem?_set]
  split
  · rename_i hpi
    subst hpi
    have hl : pos < data.length := (List.getElem?_eq_some_iff.mp ho).1
    rw [if_pos hl, ho]; simp [he]
  · rfl

theorem rk_set_ne (d0 : Entry K T) {data : List (Entry K T)} {pos : Nat} {e : Entry K T} {i : Nat} (h : i ≠ pos) :
    rk d0 (data.set pos e) i = rk d0 data i := by
  unfold rk
  rw [List.getElem?_set, if_neg (Ne.symm h)]

theorem rk_set_eq (d0 : Entry K T) {data : List (Entry K T)} {pos : Nat} {e : Entry K T} (h : pos < data.length) :
    rk d0 (data.set pos e) pos = rank e := by
  unfold rk
  rw [List.getElem?_set, if_pos rfl, if_pos h]; rfl

theorem rk_eq (d0 : Entry K T) {data : List (Entry K T)} {pos : Nat} {e : Entry K T} (h : data[pos]? = some e) :
    rk d0 data pos = rank e := by
  unfold rk; rw [h]; rfl

/-- Overwriting an entry by a smaller one and sifting. -/
theorem lower_spec (h : Heap K T) (hi : h.Inv) {pos : Nat} {old e : Entry K T}
    (ho : h.data[pos]? = some old) (hitem : e.item = old.item) (hd : Distinct (h.data.set pos e))
    (hle : rank e ≤ rank old) :
    ∃ h', siftdown { h with data := h.data.set pos e } 0 pos = .ok h' ∧ h'.Inv ∧ h'.ctr = h.ctr ∧
      h'.data.Perm (h.data.set pos e) := by
  have hl : pos < h.data.length := (List.getElem?_eq_some_iff.mp ho).1
  have key : ∀ d0, ∃ h', siftdown { h with data := h.data.set pos e } 0 pos = .ok h' ∧ h'.ctr = h.ctr ∧
      h'.data.Perm (h.data.set pos e) ∧ Good h'.data h'.index ∧ HeapFrom 0 h.data.length (rk d0 h'.data) := by
    intro d0
    obtain ⟨h', a, b, c, d, f⟩ := siftdown_spec d0 { h with data := h.data.set pos e } 0 pos e
      (by simp [List.getElem?_set, hl]) (.zero _) (hi.good.set_same ho hitem) hd
    refine ⟨h', a, b, c, d, ?_⟩
    simp only [List.length_set] at f
    apply f 0 (Or.inl rfl) _ (fun hh => absurd hh (by omega))
    apply (hi.heap d0).lower hl
    · intro i _ hne; exact rk_set_ne d0 hne
    · rw [rk_set_eq d0 hl, rk_eq d0 ho]; exact hle
  obtain ⟨h', a, b, c, d, f⟩ := key e
  refine ⟨h', a, ⟨d, hd.perm c, ?_⟩, b, c⟩
  intro d0
  obtain ⟨h'', a', b', c', d', f'⟩ := key d0
  rw [a] at a'
  obtain rfl := Except.ok.inj a'
  rw [c.length_eq, List.length_set]; exact f'

theorem raise_spec (h : Heap K T) (hi : h.Inv) {pos : Nat} {old e : Entry K T}
    (ho : h.data[pos]? = some old) (hitem : e.item = old.item) (hctr : e.ctr = old.ctr)
    (hle : rank old ≤ rank e) :
    ∃ h', siftup { h with data := h.data.set pos e } pos = .ok h' ∧ h'.Inv ∧ h'.ctr = h.ctr ∧
      h'.data.Perm (h.data.set pos e) := by
  have hl : pos < h.data.length := (List.getElem?_eq_some_iff.mp ho).1
  have hd : Distinct (h.data.set pos e) := by
    unfold Distinct; rw [set_ctr_map ho hctr]; exact hi.dist
  have key : ∀ d0, ∃ h', siftup { h with data := h.data.set pos e } pos = .ok h' ∧ h'.ctr = h.ctr ∧
      h'.data.Perm (h.data.set pos e) ∧ Good h'.data h'.index ∧ HeapFrom 0 h.data.length (rk d0 h'.data) := by
    intro d0
    obtain ⟨h', a, b, c, d, f⟩ := siftup_spec d0 { h with data := h.data.set pos e } pos e
      (by simp [List.getElem?_set, hl]) (hi.good.set_same ho hitem) hd
    refine ⟨h', a, b, c, d, ?_⟩
    simp only [List.length_set] at f
    apply f 0 (Or.inl rfl)
    · apply (hi.heap d0).raise hl
      intro i _ hne; exact rk_set_ne d0 hne
    · intro h0 _
      have hpp : par pos < pos := by simp only [par]; omega
      rw [rk_set_ne d0 (by omega)]
      have := hi.heap d0 pos h0 hl (by omega)
      rw [rk_eq d0 ho] at this
      exact le_trans this hle
  obtain ⟨h', a, b, c, d, f⟩ := key e
  refine ⟨h', a, ⟨d, hd.perm c, ?_⟩, b, c⟩
  intro d0
  obtain ⟨h'', a', b', c', d', f'⟩ := key d0
  rw [a] at a'
  obtain rfl := Except.ok.inj a'
  rw [c.length_eq, List.length_set]; exact f'

theorem rank_le_of_key {a b : Entry K T} (hk : a.key ≤ b.key) (hc : a.ctr = b.ctr) : rank a ≤ rank b := by
  simp only [rank, Prod.Lex.toLex_le_toLex]
  rcases lt_or_eq_of_le hk with h | h
  · exact Or.inl h
  · exact Or.inr ⟨h, le_of_eq hc⟩

/-- Position lookup of a stored item. -/
theorem Inv.find {h : Heap K T} (hi : h.Inv) {x : T} (hx : (h.index x).isSome = true) :
    ∃ pos old, h.index x = some pos ∧ h.data[pos]? = some old ∧ old.item = x := by
  obtain ⟨pos, hp⟩ := Option.isSome_iff_exists.mp hx
  have := (hi.good x pos).mp hp
  obtain ⟨old, h1, h2⟩ := Option.map_eq_some_iff.mp this
  exact ⟨pos, old, hp, h1, h2⟩

/-- Changing the key of the entry of `x`. -/
def rekeyE (x : T) (k : K) (e : Entry K T) : Entry K T := if e.item = x then ⟨k, e.ctr, x⟩ else e

theorem set_eq_map {data : List (Entry K T)} {idx : T → Option Nat} (hg : Good data idx) {pos : Nat}
    {old : Entry K T} (ho : data[pos]? = some old) (f : Entry K T → Entry K T)
    (hf : ∀ e, e.item ≠ old.item → f e = e) : data.set pos (f old) = data.map f := by
  apply List.ext_getElem?
  intro i
  rw [List.getElem?_map, List.getElem?_set]
  have hl : pos < data.length := (List.getElem?_eq_some_iff.mp ho).1
  rw [if_pos hl]
  split
  · rename_i hpi
    subst hpi
    rw [ho]; rfl
  · rename_i hpi
    cases hd : data[i]? with
    | none => rfl
    | some e =>
      rw [Option.map_some, hf]
      intro he
      exact hpi (hg.inj ho hd he.symm)

theorem decreaseKey_spec (h : Heap K T) (hi : h.Inv) {x : T} {pos : Nat} {old : Entry K T} {k : K}
    (hx : h.index x = some pos) (ho : h.data[pos]? = some old) (hk : k ≤ old.key) :
    ∃ h', h.decreaseKey x k = .ok h' ∧ h'.Inv ∧ h'.ctr = h.ctr ∧ h'.data.Perm (h.data.map (rekeyE x k)) := by
  have hitem : old.item = x := by
    have := (hi.good x pos).mp hx
    rw [ho] at this; simpa using this
  have hl : pos < h.data.length := (List.getElem?_eq_some_iff.mp ho).1
  obtain ⟨h', a, b, c, d⟩ := lower_spec h hi (e := ⟨k, old.ctr, x⟩) ho hitem.symm
    (by unfold Distinct; rw [set_ctr_map (e := ⟨k, old.ctr, x⟩) ho rfl]; exact hi.dist) (rank_le_of_key hk rfl)
  refine ⟨h', ?_, b, c, ?_⟩
  · unfold decreaseKey
    rw [pyAssert_true (by simp [hx]), ok_bind]
    simp only [dget, hx, ok_bind, rd_eq_ok.mpr ho, wr_lt hl]
    exact a
  · have := set_eq_map hi.good ho (rekeyE x k) (by
      intro e he; unfold rekeyE; rw [if_neg]; rw [hitem] at he; exact he)
    rw [← this]
    simpa [rekeyE, hitem] using d

theorem update_spec (h : Heap K T) (hi : h.Inv) {x : T} {k : K} (hx : (h.index x).isSome = true) :
    ∃ h', h.update x k = .ok h' ∧ h'.Inv ∧ h'.ctr = h.ctr ∧ h'.data.Perm (h.data.map (rekeyE x k)) := by
  obtain ⟨pos, old, hp, ho, hitem⟩ := hi.find hx
  have hl : pos < h.data.length := (List.getElem?_eq_some_iff.mp ho).1
  unfold update
  rw [pyAssert_true (by simp [has, hp]), ok_bind]
  simp only [dget, hp, ok_bind, rd_eq_ok.mpr ho]
  by_cases hk : k ≤ old.key
  · rw [if_pos hk]
    exact decreaseKey_spec h hi hp ho hk
  · rw [if_neg hk, wr_lt hl, ok_bind]
    obtain ⟨h', a, b, c, d⟩ := raise_spec h hi (e := ⟨k, old.ctr, x⟩) ho hitem.symm rfl
      (rank_le_of_key (le_of_lt (not_le.mp hk)) rfl)
    refine ⟨h', a, b, c, ?_⟩
    have := set_eq_map hi.good ho (rekeyE x k) (by
      intro e he; unfold rekeyE; rw [if_neg]; rw [hitem] at he; exact he)
    rw [← this]
    simpa [rekeyE, hitem] using d

theorem filter_of_perm_cons {e : Entry K T} {l es : List (Entry K T)} (hp : (e :: l).Perm es)
    (hn : ((e :: l).map Entry.item).Nodup) : l.Perm (es.filter (fun a => a.item ≠ e.item)) := by
  have h1 := hp.filter (fun a => decide (a.item ≠ e.item))
  rw [List.filter_cons_of_neg (by simp)] at h1
  refine (List.Perm.of_eq ?_).trans h1
  symm
  rw [List.filter_eq_self]
  intro a ha
  rw [List.map_cons, List.nodup_cons] at hn
  simp only [ne_eq, decide_not, Bool.not_eq_eq_eq_not, Bool.not_true, decide_eq_false_iff_not]
  intro e'
  exact hn.1 (List.mem_map.mpr ⟨a, ha, e'⟩)

theorem pop_spec' (h : Heap K T) (hi : h.Inv) (hne : h.data ≠ []) :
    ∃ h' root, h.pop = .ok (h', root.item) ∧ h.data[0]? = some root ∧
      h'.data.Perm (h.data.filter (fun a => a.item ≠ root.item)) ∧ h'.Inv ∧ h'.ctr = h.ctr := by
  obtain ⟨h', root, a, b, c, d, e⟩ := pop_spec h hi hne
  refine ⟨h', root, a, b, filter_of_perm_cons c ?_, d, e⟩
  rw [(c.map Entry.item).nodup_iff]
  exact hi.good.items_nodup

theorem remove_spec [OrderBot K] (h : Heap K T) (hi : h.Inv) {x : T} (hx : (h.index x).isSome = true)
    (hpos : ∀ e ∈ h.data, 0 ≤ e.ctr) :
    ∃ h', h.remove x = .ok h' ∧ h'.Inv ∧ h'.ctr = h.ctr ∧
      h'.data.Perm (h.data.filter (fun a => a.item ≠ x)) := by
  obtain ⟨pos, old, hp, ho, hitem⟩ := hi.find hx
  have hl : pos < h.data.length := (List.getElem?_eq_some_iff.mp ho).1
  have hold : old ∈ h.data := List.mem_of_getElem? ho
  let f : Entry K T → Entry K T := fun e => if e.item = x then ⟨⊥, -1, x⟩ else e
  have hset : h.data.set pos (⟨⊥, -1, x⟩ : Entry K T) = h.data.map f := by
    have := set_eq_map hi.good ho f (by intro e he; simp only [f]; rw [if_neg]; rw [hitem] at he; exact he)
    rw [← this]; simp only [f, hitem, if_true]
  have hmin : ∀ e : Entry K T, 0 ≤ e.ctr → rank (⟨⊥, -1, x⟩ : Entry K T) < rank e := by
    intro e he
    rw [rank_lt_iff]
    rcases eq_or_lt_of_le (bot_le : ⊥ ≤ e.key) with h1 | h1
    · exact Or.inr ⟨h1, by simp only; omega⟩
    · exact Or.inl h1
  have hd : Distinct (h.data.set pos (⟨⊥, -1, x⟩ : Entry K T)) := by
    have hnd := hi.dist
    unfold Distinct at hnd ⊢
    rw [List.map_set]
    rw [List.nodup_iff_getElem?_ne_getElem?] at hnd ⊢
    intro i j hij hj
    rw [List.length_set] at hj
    have hn := hnd i j hij hj
    rw [List.getElem?_set, List.getElem?_set]
    have hneg : ∀ k : Nat, (h.data.map Entry.ctr)[k]? ≠ some (-1) := by
      intro k hk
      rw [List.getElem?_map] at hk
      obtain ⟨e, he1, he2⟩ := Option.map_eq_some_iff.mp hk
      have := hpos e (List.mem_of_getElem? he1)
      omega
    have hml : pos < (h.data.map Entry.ctr).length := by simpa using hl
    split
    · split
      · omega
      · exact Ne.symm (hneg j)
    · split
      · exact hneg i
      · exact hn
  obtain ⟨h1, a, b, c, d⟩ := lower_spec h hi (e := ⟨⊥, -1, x⟩) ho hitem.symm hd
    (le_of_lt (hmin old (hpos old hold)))
  -- the root is the marked entry
  have hmem : (⟨⊥, -1, x⟩ : Entry K T) ∈ h1.data := by
    rw [d.mem_iff]
    exact List.mem_of_getElem? (i := pos) (by simp [List.getElem?_set, hl])
  have hne : h1.data ≠ [] := List.ne_nil_of_mem hmem
  obtain ⟨h2, root, p1, p2, p3, p4, p5⟩ := pop_spec' h1 b hne
  have hroot : root = ⟨⊥, -1, x⟩ := by
    have hr : root ∈ h.data.map f := by
      rw [← hset, ← d.mem_iff]; exact List.mem_of_getElem? p2
    obtain ⟨e, he, rfl⟩ := List.mem_map.mp hr
    by_cases hex : e.item = x
    · simp only [f, hex, if_true]
    · exfalso
      have h3 : f e = e := by simp only [f, hex, if_false]
      have h4 := b.root_le p2 hmem
      rw [h3] at h4
      exact absurd (hmin e (hpos e he)) (not_lt.mpr h4)
  subst hroot
  refine ⟨h2, ?_, p4, by rw [p5, c], ?_⟩
  · unfold remove
    rw [pyAssert_true (by simp [has, hp]), ok_bind]
    simp only [dget, hp, ok_bind, wr_lt hl]
    rw [a, ok_bind, rd_eq_ok.mpr p2, ok_bind, pyAssert_true (by simp), ok_bind, p1, ok_bind]
    rfl
  · refine p3.trans ((d.filter _).trans (List.Perm.of_eq ?_))
    rw [hset, List.filter_map]
    have : ∀ l : List (Entry K T), (l.filter ((fun a => decide (a.item ≠ x)) ∘ f)).map f = l.filter (fun a => decide (a.item ≠ x)) := by
      intro l
      induction l with
      | nil => rfl
      | cons e l ih =>
        by_cases hex : e.item = x
        · rw [List.filter_cons_of_neg (by simp [f, hex]), List.filter_cons_of_neg (by simp [hex]), ih]
        · rw [List.filter_cons_of_pos (by simp [f, hex]), List.filter_cons_of_pos (by simp [hex]),
            List.map_cons, ih]
          simp only [f, hex, if_false]
    exact this _

end Heap
end Verif
