import Verif.Proofs.Redomained

/-! A priority queue does not look at its items, except whether they are equal. -/

set_option linter.unusedSectionVars false

namespace Verif
namespace Heap
open Redom

variable {K T T' : Type} [LinearOrder K] [DecidableEq T] [DecidableEq T'] {f : T → T'}

/-- The entry with its item renamed. -/
def ent (f : T → T') (e : Entry K T) : Entry K T' := ⟨e.key, e.ctr, f e.item⟩

/-- `d'` is `d` with its keys renamed. -/
def IRen (f : T → T') (d : T → Option Nat) (d' : T' → Option Nat) : Prop := ∀ x, d' (f x) = d x

/-- `h'` is `h` with its items renamed. -/
structure HRen (f : T → T') (h : Heap K T) (h' : Heap K T') : Prop where
  data : h'.data = h.data.map (ent f)
  index : IRen f h.index h'.index
  ctr : h'.ctr = h.ctr

omit [LinearOrder K] [DecidableEq T] [DecidableEq T'] in
theorem rd_map {α β : Type} (g : α → β) (l : List α) (i : Nat) : rd (l.map g) i = (rd l i).map g := by
  unfold rd
  rw [List.getElem?_map]
  cases l[i]? <;> rfl

theorem rdLast_map {α β : Type} (g : α → β) (l : List α) : rdLast (l.map g) = (rdLast l).map g := by
  unfold rdLast
  rw [List.getLast?_map]
  cases l.getLast? <;> rfl

theorem wr_map {α β : Type} (g : α → β) (l : List α) (i : Nat) (x : α) : wr (l.map g) i (g x) = (wr l i x).map (List.map g) := by
  unfold wr
  rw [List.length_map]
  split
  · simp [Except.map]
  · rfl

theorem Sim2.map {α β : Type} (g : α → β) (r : Py α) : Sim2 (fun x y => y = g x) r (r.map g) := by
  cases r <;> rfl

theorem Sim2.mono {α α' : Type} {R S : α → α' → Prop} {r : Py α} {r' : Py α'} (h : Sim2 R r r') (hm : ∀ x y, R x y → S x y) : Sim2 S r r' := by
  cases r <;> cases r' <;> first | exact h | exact hm _ _ h

theorem Sim2.rd {α β : Type} (g : α → β) (l : List α) (i : Nat) : Sim2 (fun x y => y = g x) (rd l i) (Verif.rd (l.map g) i) := by
  rw [rd_map]; exact Sim2.map g _

theorem IRen.upd (hf : Function.Injective f) {d : T → Option Nat} {d' : T' → Option Nat} (h : IRen f d d') (x : T) (i : Nat) : IRen f (Heap.upd d x i) (Heap.upd d' (f x) i) := by
  intro y
  unfold Heap.upd
  by_cases hy : y = x
  · subst hy; simp
  · rw [if_neg hy, if_neg (fun e => hy (hf e)), h y]

theorem dpop_ren (hf : Function.Injective f) {d : T → Option Nat} {d' : T' → Option Nat} (h : IRen f d d') (x : T) : Sim2 (IRen f) (dpop d x) (dpop d' (f x)) := by
  unfold dpop
  rw [h x]
  cases d x with
  | none => rfl
  | some i =>
    intro y
    simp only
    by_cases hy : y = x
    · subst hy; simp
    · rw [if_neg hy, if_neg (fun e => hy (hf e)), h y]

theorem entLt_ren (a b : Entry K T) : entLt (ent f a) (ent f b) = entLt a b := rfl

/-- Related lists of entries and dicts. -/
def PRen (f : T → T') (p : List (Entry K T) × (T → Option Nat)) (p' : List (Entry K T') × (T' → Option Nat)) : Prop := p'.1 = p.1.map (ent f) ∧ IRen f p.2 p'.2

theorem write_ren (hf : Function.Injective f) (data : List (Entry K T)) (e : Entry K T) (pos : Nat) {d : T → Option Nat} {d' : T' → Option Nat} (h : IRen f d d') :
    Sim2 (PRen f) (do let data ← wr data pos e; pure (data, upd d e.item pos)) (do let data ← wr (data.map (ent f)) pos (ent f e); pure (data, upd d' (ent f e).item pos)) := by
  rw [wr_map]
  refine Sim2.bind (Sim2.map _ _) fun x y hy => ?_
  subst hy
  exact ⟨rfl, h.upd hf _ _⟩

theorem siftdownLoop_ren (hf : Function.Injective f) (start : Nat) (e : Entry K T) : ∀ fuel (data : List (Entry K T)) (d : T → Option Nat) (d' : T' → Option Nat) pos, IRen f d d' →
    Sim2 (PRen f) (siftdownLoop start e fuel data d pos) (siftdownLoop start (ent f e) fuel (data.map (ent f)) d' pos) := by
  intro fuel
  induction fuel with
  | zero => intro data d d' pos h; rfl
  | succ fuel ih =>
    intro data d d' pos h
    simp only [siftdownLoop]
    split
    · refine Sim2.bind (Sim2.rd _ _ _) fun p p' hp => ?_
      subst hp
      rw [entLt_ren]
      refine Sim2.same fun b => ?_
      cases b with
      | true =>
        simp only [if_true]
        rw [wr_map]
        refine Sim2.bind (Sim2.map _ _) fun x y hy => ?_
        subst hy
        exact ih _ _ _ _ (h.upd hf _ _)
      | false => exact write_ren hf _ _ _ h
    · exact write_ren hf _ _ _ h

theorem siftdown_ren (hf : Function.Injective f) {h : Heap K T} {h' : Heap K T'} (hh : HRen f h h') (start pos : Nat) : Sim2 (HRen f) (h.siftdown start pos) (h'.siftdown start pos) := by
  unfold siftdown
  rw [hh.data]
  refine Sim2.bind (Sim2.rd _ _ _) fun e e' he => ?_
  subst he
  refine Sim2.bind (siftdownLoop_ren hf start e (pos + 1) h.data _ _ pos hh.index) fun p p' hp => ?_
  exact ⟨hp.1, hp.2, hh.ctr⟩

theorem siftupLoop_ren (hf : Function.Injective f) (stop : Nat) : ∀ fuel (data : List (Entry K T)) (d : T → Option Nat) (d' : T' → Option Nat) pos, IRen f d d' →
    Sim2 (fun p p' => p'.1 = p.1.map (ent f) ∧ IRen f p.2.1 p'.2.1 ∧ p'.2.2 = p.2.2) (siftupLoop stop fuel data d pos) (siftupLoop stop fuel (data.map (ent f)) d' pos) := by
  intro fuel
  induction fuel with
  | zero => intro data d d' pos h; rfl
  | succ fuel ih =>
    intro data d d' pos h
    simp only [siftupLoop]
    split
    · refine Sim2.bind (R := fun a b => b = a) ?_ fun c c' hc => ?_
      · split
        · refine Sim2.bind (Sim2.rd _ _ _) fun a a' ha => ?_
          subst ha
          refine Sim2.bind (Sim2.rd _ _ _) fun b b' hb => ?_
          subst hb
          rw [entLt_ren]
          refine Sim2.same fun t => ?_
          cases t <;> rfl
        · rfl
      subst hc
      refine Sim2.bind (Sim2.rd _ _ _) fun a a' ha => ?_
      subst ha
      rw [wr_map]
      refine Sim2.bind (Sim2.map _ _) fun x y hy => ?_
      subst hy
      exact ih _ _ _ _ (h.upd hf _ _)
    · exact ⟨rfl, h, rfl⟩

theorem siftup_ren (hf : Function.Injective f) {h : Heap K T} {h' : Heap K T'} (hh : HRen f h h') (pos : Nat) : Sim2 (HRen f) (h.siftup pos) (h'.siftup pos) := by
  unfold siftup
  simp only
  rw [hh.data, List.length_map]
  refine Sim2.bind (Sim2.rd _ _ _) fun e e' he => ?_
  subst he
  refine Sim2.bind (siftupLoop_ren hf _ _ h.data _ _ pos hh.index) fun p p' hp => ?_
  obtain ⟨a, b, c⟩ := p
  obtain ⟨a', b', c'⟩ := p'
  obtain ⟨h1, h2, h3⟩ := hp
  simp only at h1 h2 h3
  subst h1; subst h3
  simp only
  rw [wr_map]
  refine Sim2.bind (Sim2.map _ _) fun x y hy => ?_
  subst hy
  refine siftdown_ren hf ?_ _ _
  exact ⟨rfl, h2.upd hf _ _, hh.ctr⟩

theorem heapifyLoop_ren (hf : Function.Injective f) : ∀ n {h : Heap K T} {h' : Heap K T'}, HRen f h h' → Sim2 (HRen f) (heapifyLoop n h) (heapifyLoop n h') := by
  intro n
  induction n with
  | zero => intro h h' hh; exact hh
  | succ n ih => intro h h' hh; exact Sim2.bind (siftup_ren hf hh n) fun _ _ h => ih h

theorem enumDict_ren (hf : Function.Injective f) : ∀ (l : List (Entry K T)) i {d : T → Option Nat} {d' : T' → Option Nat}, IRen f d d' → IRen f (enumDict i l d) (enumDict i (l.map (ent f)) d') := by
  intro l
  induction l with
  | nil => intro i d d' h; exact h
  | cons e l ih => intro i d d' h; exact ih _ (h.upd hf _ _)

theorem ofList_ren (hf : Function.Injective f) (l : List (T × K)) : Sim2 (HRen f) (ofList l) (ofList (l.map (fun p => (f p.1, p.2)))) := by
  unfold ofList
  by_cases hl : l = []
  · subst hl
    exact ⟨rfl, fun _ => rfl, rfl⟩
  · rw [if_neg hl, if_neg (by simpa using hl)]
    simp only
    have e : (l.map (fun p => (f p.1, p.2))).zipIdx.map (fun p => (⟨p.1.2, (p.2 : Int), p.1.1⟩ : Entry K T')) = (l.zipIdx.map (fun p => (⟨p.1.2, (p.2 : Int), p.1.1⟩ : Entry K T))).map (ent f) := by
      rw [List.zipIdx_map, List.map_map, List.map_map]; rfl
    rw [e]
    simp only [List.length_map]
    refine Sim2.bind (R := HRen f) ?_ fun h h' hh => ?_
    · exact heapifyLoop_ren hf _ (by exact ⟨rfl, fun _ => rfl, rfl⟩)
    refine ⟨hh.data, ?_, hh.ctr⟩
    simp only
    rw [hh.data]
    exact enumDict_ren hf _ _ (fun _ => rfl)

theorem push_ren (hf : Function.Injective f) {h : Heap K T} {h' : Heap K T'} (hh : HRen f h h') (x : T) (k : K) : Sim2 (HRen f) (h.push x k) (h'.push (f x) k) := by
  unfold Heap.push
  rw [hh.index x]
  refine Sim2.same fun _ => ?_
  simp only
  have e : h'.data ++ [(⟨k, (h'.ctr : Int), f x⟩ : Entry K T')] = (h.data ++ [(⟨k, (h.ctr : Int), x⟩ : Entry K T)]).map (ent f) := by rw [hh.data, hh.ctr, List.map_append]; rfl
  rw [e, List.length_map]
  refine Sim2.bind (R := HRen f) ?_ fun a a' ha => ?_
  · refine siftdown_ren hf ?_ _ _
    exact ⟨rfl, hh.index.upd hf _ _, hh.ctr⟩
  exact ⟨ha.data, ha.index, by simp only [ha.ctr]⟩

theorem pop_ren (hf : Function.Injective f) {h : Heap K T} {h' : Heap K T'} (hh : HRen f h h') : Sim2 (fun p p' => HRen f p.1 p'.1 ∧ p'.2 = f p.2) h.pop h'.pop := by
  unfold pop
  rw [hh.data, rdLast_map]
  refine Sim2.bind (Sim2.map _ _) fun e e' he => ?_
  subst he
  have hdl : (h.data.map (ent f)).dropLast = h.data.dropLast.map (ent f) := (List.map_dropLast).symm
  simp only [hdl]
  refine Sim2.bind (dpop_ren hf hh.index e.item) fun d d' hd => ?_
  by_cases hl : h.data.dropLast = []
  · rw [hl]
    exact ⟨⟨rfl, hd, hh.ctr⟩, rfl⟩
  · rw [if_pos hl, if_pos (show h.data.dropLast.map (ent f) ≠ [] from fun h0 => hl (List.map_eq_nil_iff.mp h0))]
    refine Sim2.bind (Sim2.rd _ _ _) fun r r' hr => ?_
    subst hr
    refine Sim2.bind (dpop_ren hf hd r.item) fun d2 d2' hd2 => ?_
    rw [wr_map]
    refine Sim2.bind (Sim2.map _ _) fun x y hy => ?_
    subst hy
    refine Sim2.bind (R := HRen f) ?_ fun a a' ha => ?_
    · refine siftup_ren hf ?_ _
      exact ⟨rfl, hd2.upd hf _ _, hh.ctr⟩
    exact ⟨ha, rfl⟩

theorem has_ren {h : Heap K T} {h' : Heap K T'} (hh : HRen f h h') (x : T) : h'.has (f x) = h.has x := by unfold has; rw [hh.index x]

theorem keyOf_ren {h : Heap K T} {h' : Heap K T'} (hh : HRen f h h') (x : T) : h'.keyOf (f x) = h.keyOf x := by
  unfold keyOf
  rw [hh.index x, hh.data]
  cases h.index x with
  | none => rfl
  | some i =>
    simp only [rd_map]
    cases rd h.data i <;> rfl

theorem dget_ren {d : T → Option Nat} {d' : T' → Option Nat} (h : IRen f d d') (x : T) : dget d' (f x) = dget d x := by unfold dget; rw [h x]

theorem decreaseKey_ren (hf : Function.Injective f) {h : Heap K T} {h' : Heap K T'} (hh : HRen f h h') (x : T) (k : K) : Sim2 (HRen f) (h.decreaseKey x k) (h'.decreaseKey (f x) k) := by
  unfold decreaseKey
  rw [hh.index x, dget_ren hh.index x]
  refine Sim2.same fun _ => Sim2.same fun pos => ?_
  rw [hh.data]
  refine Sim2.bind (Sim2.rd _ _ _) fun e e' he => ?_
  subst he
  have := wr_map (ent f) h.data pos ⟨k, e.ctr, x⟩
  change wr _ pos (⟨k, e.ctr, f x⟩ : Entry K T') = _ at this
  change Sim2 _ _ (wr (h.data.map (ent f)) pos (⟨k, e.ctr, f x⟩ : Entry K T') >>= _)
  rw [this]
  refine Sim2.bind (Sim2.map _ _) fun y z hz => ?_
  subst hz
  refine siftdown_ren hf ?_ _ _
  exact ⟨rfl, hh.index, hh.ctr⟩

theorem minKey_ren [OrderTop K] {h : Heap K T} {h' : Heap K T'} (hh : HRen f h h') : h'.minKey = h.minKey := by
  unfold minKey
  rw [hh.data, List.length_map]
  split
  · rfl
  · rw [rd_map]
    cases rd h.data 0 <;> rfl

theorem len_ren {h : Heap K T} {h' : Heap K T'} (hh : HRen f h h') : h'.len = h.len := by unfold len; rw [hh.data, List.length_map]

end Heap
end Verif
