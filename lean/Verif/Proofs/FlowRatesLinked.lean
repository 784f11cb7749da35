import Verif.Model.FlowRatesLinked
import Verif.Proofs.FlowRates

/-! The pointer-level event list refines the list model. -/

namespace Verif

/-- The item stored in a node. -/
def FRNode.item (n : FRNode) : FRItem := ⟨n.time, n.values⟩

namespace FRList

/-- The list `q` is what the references reach. -/
def Rep (l : FRList) (q : List FRItem) : Prop :=
  (l.store = [] ∧ l.head = none ∧ l.tail = none ∧ q = []) ∨
  ∃ h, h < l.store.length ∧ l.head = some h ∧ l.tail = some (l.store.length - 1) ∧
    (∀ k nd, l.store[k]? = some nd → nd.next = if k + 1 < l.store.length then some (k + 1) else none) ∧
    q = (l.store.drop h).map FRNode.item

theorem rep_append {l : FRList} {q : List FRItem} (h : l.Rep q) (i : FRItem) : (l.append i).Rep (q ++ [i]) := by
  rcases h with ⟨h1, h2, h3, h4⟩ | ⟨h, hlt, h1, h2, h3, h4⟩
  · right
    unfold append
    rw [h3]
    refine ⟨0, by simp, by simp [h1], by simp, ?_, ?_⟩
    · intro k nd hk
      rw [h1] at hk ⊢
      cases k with
      | zero => simp at hk; rw [← hk]; simp
      | succ k => simp at hk
    · rw [h4, h1]; simp [FRNode.item]
  · right
    unfold append
    rw [h2]
    have hlen : l.store.length - 1 + 1 = l.store.length := by omega
    refine ⟨h, by simp; omega, h1, by simp, ?_, ?_⟩
    · intro k nd hk
      simp only [List.length_append, List.length_modify, List.length_singleton] at *
      by_cases hkl : k < l.store.length
      · rw [List.getElem?_append_left (by simpa using hkl), List.getElem?_modify] at hk
        rw [if_pos (by omega)]
        have hs := List.getElem?_eq_getElem hkl
        rw [hs] at hk
        by_cases he : l.store.length - 1 = k
        · simp [he] at hk
          rw [← hk]; simp; omega
        · simp [he] at hk
          subst hk
          rw [h3 k _ hs, if_pos (by omega)]
      · have : k = l.store.length := by
          have := (List.getElem?_eq_some_iff.mp hk).1
          simp at this; omega
        subst this
        rw [List.getElem?_append_right (by simp)] at hk
        simp at hk
        rw [← hk]; simp
    · rw [h4, List.drop_append_of_le_length (by simp; omega), List.map_append]
      congr 1
      apply List.ext_getElem?
      intro k
      simp only [List.getElem?_map, List.getElem?_drop, List.getElem?_modify]
      cases l.store[h + k]? with
      | none => simp
      | some nd =>
        simp only [Option.map_some]
        split <;> rfl

theorem unroll_eq {l : FRList} (hn : ∀ k nd, l.store[k]? = some nd → nd.next = if k + 1 < l.store.length then some (k + 1) else none) :
    ∀ (fuel k : Nat), k < l.store.length → l.store.length - k ≤ fuel →
      unroll l.store fuel (some k) = .ok ((l.store.drop k).map FRNode.item) := by
  intro fuel
  induction fuel with
  | zero => intro k h1 h2; omega
  | succ fuel ih =>
    intro k h1 h2
    have hs := List.getElem?_eq_getElem h1
    unfold unroll
    rw [hs]
    simp only
    rw [hn k _ hs, List.drop_eq_getElem_cons h1, List.map_cons]
    by_cases hk : k + 1 < l.store.length
    · rw [if_pos hk, ih (k + 1) hk (by omega), ok_bind]; rfl
    · rw [if_neg hk]
      have : unroll l.store fuel none = .ok [] := by cases fuel <;> rfl
      rw [this, ok_bind, List.drop_eq_nil_of_le (by omega)]; rfl

theorem advance_eq {l : FRList} (t : ℚ) (hn : ∀ k nd, l.store[k]? = some nd → nd.next = if k + 1 < l.store.length then some (k + 1) else none) :
    ∀ (fuel k : Nat), k < l.store.length → l.store.length - k ≤ fuel →
      ∃ k', k' < l.store.length ∧ advance l.store t fuel k = .ok k' ∧
        FRC.advanceHead t ((l.store.drop k).map FRNode.item) = (l.store.drop k').map FRNode.item := by
  intro fuel
  induction fuel with
  | zero => intro k h1 h2; omega
  | succ fuel ih =>
    intro k h1 h2
    have hs := List.getElem?_eq_getElem h1
    unfold advance
    rw [hs]
    simp only
    rw [hn k _ hs]
    by_cases hk : k + 1 < l.store.length
    · have hs2 := List.getElem?_eq_getElem hk
      have hd : (l.store.drop k).map FRNode.item = l.store[k].item :: l.store[k+1].item :: (l.store.drop (k+2)).map FRNode.item := by
        rw [List.drop_eq_getElem_cons h1, List.drop_eq_getElem_cons hk]; rfl
      have hd' : (l.store.drop (k+1)).map FRNode.item = l.store[k+1].item :: (l.store.drop (k+2)).map FRNode.item := by
        rw [List.drop_eq_getElem_cons hk]; rfl
      rw [if_pos hk]
      simp only
      rw [hs2]
      simp only
      by_cases ht : l.store[k+1].time ≤ t
      · rw [if_pos ht]
        obtain ⟨k', a, b, c⟩ := ih (k + 1) hk (by omega)
        refine ⟨k', a, b, ?_⟩
        rw [hd, FRC.advanceHead, if_pos (show l.store[k+1].item.time ≤ t from ht), ← hd', c]
      · rw [if_neg ht]
        refine ⟨k, h1, rfl, ?_⟩
        rw [hd, FRC.advanceHead, if_neg (show ¬ l.store[k+1].item.time ≤ t from ht)]
    · rw [if_neg hk]
      refine ⟨k, h1, rfl, ?_⟩
      rw [List.drop_eq_getElem_cons h1, List.drop_eq_nil_of_le (by omega)]; rfl

end FRList

namespace FRP

/-- The pointer-level collection stands for the list-level one. -/
structure Rep (c : FRP) (d : FRC) : Prop where
  funs : c.funs = d.funs
  acc : c.acc = d.acc
  list : c.list.Rep d.queue

theorem empty_rep : ∃ c d, FRP.empty = .ok c ∧ FRC.empty = .ok d ∧ c.Rep d := by
  obtain ⟨d, hd, _⟩ := FRC.empty_good
  unfold FRP.empty
  unfold FRC.empty at hd
  have e1 : FRItem.new 0 [] = .ok ⟨0, []⟩ := rfl
  rw [e1, ok_bind] at hd ⊢
  cases e2 : RC.sum [] ((0 : ℚ) : WithBot ℚ) ⊤ with
  | error e => rw [e2] at hd; cases hd
  | ok s =>
    rw [e2, ok_bind] at hd
    rw [ok_bind]
    cases e3 : s.integral with
    | error e => rw [e3] at hd; cases hd
    | ok a =>
      rw [e3, ok_bind] at hd
      rw [ok_bind]
      refine ⟨_, d, rfl, ?_, ?_⟩
      · unfold FRC.empty; rw [e1, ok_bind, e2, ok_bind, e3, ok_bind]; exact hd
      · injection hd with hd
        subst hd
        refine ⟨rfl, rfl, Or.inr ⟨0, by simp, rfl, rfl, ?_, rfl⟩⟩
        intro k nd hk
        cases k with
        | zero => simp at hk; rw [← hk]; simp
        | succ k => simp at hk

theorem getLast_rep {c : FRList} {q : List FRItem} (h : c.Rep q) :
    (c.tail = none ∧ q.getLast? = none) ∨
    ∃ p nd, c.tail = some p ∧ c.store[p]? = some nd ∧ q.getLast? = some nd.item := by
  rcases h with ⟨h1, h2, h3, h4⟩ | ⟨h, hlt, h1, h2, h3, h4⟩
  · left; exact ⟨h3, by rw [h4]; rfl⟩
  · right
    refine ⟨_, _, h2, List.getElem?_eq_getElem (by omega), ?_⟩
    rw [h4, List.getLast?_map, List.getLast?_drop]
    rw [if_neg (by omega), List.getLast?_eq_getElem?, List.getElem?_eq_getElem (by omega)]
    rfl

theorem extend_rep {c : FRP} {d : FRC} (h : c.Rep d) (t : ℚ) (v : Rates) (s : ℚ) :
    (∃ e, c.extend t v s = .error e ∧ d.extend t v s = .error e) ∨
    ∃ c' d', c.extend t v s = .ok c' ∧ d.extend t v s = .ok d' ∧ c'.Rep d' := by
  unfold FRP.extend FRC.extend
  cases e0 : FRItem.new t v with
  | error e => left; exact ⟨e, rfl, rfl⟩
  | ok item =>
    rw [ok_bind, ok_bind, h.funs, h.acc]
    have hap := FRList.rep_append h.list item
    rcases getLast_rep h.list with ⟨h1, h2⟩ | ⟨p, nd, h1, h2, h3⟩
    · rw [h1, h2]
      simp only
      cases e1 : FRC.freshLoop t v d.funs with
      | error e => left; exact ⟨e, rfl, rfl⟩
      | ok d1 =>
        rw [ok_bind, ok_bind]
        cases e2 : d.acc.extendWithSlope t s with
        | error e => left; exact ⟨e, rfl, rfl⟩
        | ok a =>
          right
          refine ⟨_, _, rfl, rfl, rfl, rfl, ?_⟩
          have : d.queue = [] := List.getLast?_eq_none_iff.mp h2
          rw [this] at hap; exact hap
    · rw [h1, h3]
      simp only
      rw [h2]
      simp only
      have hne : nd.item.time = nd.time := rfl
      have hnv : nd.item.values = nd.values := rfl
      rw [hne, hnv]
      by_cases ha : nd.time ≤ t + eps
      · rw [pyAssert_true ha, ok_bind, ok_bind]
        cases e1 : FRC.extendLoop t v d.funs with
        | error e => left; exact ⟨e, rfl, rfl⟩
        | ok d1 =>
          rw [ok_bind, ok_bind]
          cases e3 : FRC.dropLoop t v nd.values d1 with
          | error e => left; exact ⟨e, rfl, rfl⟩
          | ok d2 =>
            rw [ok_bind, ok_bind]
            cases e2 : d.acc.extendWithSlope t s with
            | error e => left; exact ⟨e, rfl, rfl⟩
            | ok a =>
              right
              exact ⟨_, _, rfl, rfl, rfl, rfl, hap⟩
      · left; rw [pyAssert_false ha]; exact ⟨_, rfl, rfl⟩

theorem query_rep {c : FRP} {d : FRC} (h : c.Rep d) (t : ℚ) :
    (∃ e, c.getValuesAtTime t = .error e ∧ d.getValuesAtTime t = .error e) ∨
    ∃ v c' d', c.getValuesAtTime t = .ok (v, c') ∧ d.getValuesAtTime t = .ok (v, d') ∧ c'.Rep d' := by
  unfold FRP.getValuesAtTime FRC.getValuesAtTime
  rcases h.list with ⟨h1, h2, h3, h4⟩ | ⟨k, hlt, h1, h2, h3, h4⟩
  · right
    rw [h2, h4]
    exact ⟨_, _, _, rfl, rfl, h⟩
  · rw [h1]
    simp only
    rw [List.getElem?_eq_getElem hlt]
    simp only
    have hq := h4
    rw [List.drop_eq_getElem_cons hlt, List.map_cons] at hq
    rw [hq]
    simp only
    have hnt : c.list.store[k].item.time = c.list.store[k].time := rfl
    rw [hnt]
    by_cases ht : c.list.store[k].time > t
    · left; rw [if_pos ht, if_pos ht]; exact ⟨_, rfl, rfl⟩
    · right
      rw [if_neg ht, if_neg ht]
      obtain ⟨k', a, b, cc⟩ := FRList.advance_eq t h3 c.list.store.length k hlt (by omega)
      rw [b, ok_bind, List.getElem?_eq_getElem a]
      simp only
      rw [← hq, h4, cc, List.drop_eq_getElem_cons a, List.map_cons]
      simp only
      refine ⟨_, _, _, rfl, rfl, h.funs, h.acc, Or.inr ⟨k', a, rfl, h2, h3, ?_⟩⟩
      rw [List.drop_eq_getElem_cons a]; rfl

theorem rebuild_rep : ∀ (is : List FRItem) (l : FRList) (q : List FRItem), l.Rep q →
    (∀ i ∈ is, ∀ p ∈ i.values, 0 < p.2) → ∃ l', rebuild is l = .ok l' ∧ l'.Rep (q ++ is) := by
  intro is
  induction is with
  | nil => intro l q h _; exact ⟨l, rfl, by simpa using h⟩
  | cons i is ih =>
    intro l q h hp
    obtain ⟨l', a, b⟩ := ih (l.append i) (q ++ [i]) (FRList.rep_append h i) (fun j hj => hp j (by simp [hj]))
    refine ⟨l', ?_, by simpa using b⟩
    unfold rebuild
    have : FRItem.new i.time i.values = .ok i := by
      unfold FRItem.new
      rw [pyAssert_true (hp i (by simp)), ok_bind]; rfl
    rw [this, ok_bind, a]

theorem pickle_rep {c : FRP} {d : FRC} (h : c.Rep d) (hp : ∀ i ∈ d.queue, ∀ p ∈ i.values, 0 < p.2) :
    ∃ s c', c.getstate = .ok s ∧ setstate s = .ok c' ∧ c'.Rep d := by
  have hu : FRList.unroll c.list.store (c.list.store.length + 1) c.list.head = .ok d.queue := by
    rcases h.list with ⟨h1, h2, h3, h4⟩ | ⟨k, hlt, h1, h2, h3, h4⟩
    · rw [h2, h4]; rfl
    · rw [h1, h4]; exact FRList.unroll_eq h3 _ k hlt (by omega)
  obtain ⟨l', a, b⟩ := rebuild_rep d.queue ⟨[], none, none⟩ [] (Or.inl ⟨rfl, rfl, rfl, rfl⟩) hp
  refine ⟨⟨c.funs, c.acc, d.queue⟩, ⟨c.funs, l', c.acc⟩, ?_, ?_, h.funs, h.acc, by simpa using b⟩
  · unfold getstate; rw [hu]; rfl
  · unfold setstate; rw [a]; rfl

end FRP
end Verif
