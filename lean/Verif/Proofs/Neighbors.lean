import Verif.Spec.Neighbors

namespace Verif
namespace Neighbors
open Spec

theorem visit_spec (endOf : Nat → Nat) : ∀ (es : List Nat) (s : St),
    (∀ r, r ∈ (visit endOf es s).result ↔ r ∈ s.result ∨ r ∈ es) ∧
    (∀ w, w ∈ (visit endOf es s).discovered ↔ w ∈ s.discovered ∨ ∃ e ∈ es, endOf e = w) ∧
    ∀ w, w ∈ (visit endOf es s).queue ↔ w ∈ s.queue ∨ (w ∉ s.discovered ∧ ∃ e ∈ es, endOf e = w) := by
  intro es
  induction es with
  | nil => intro s; simp [visit]
  | cons e es ih =>
    intro s
    unfold visit
    simp only
    split
    · rename_i hd
      obtain ⟨i1, i2, i3⟩ := ih { s with result := e :: s.result }
      refine ⟨fun r => ?_, fun w => ?_, fun w => ?_⟩
      · rw [i1]; simp only [List.mem_cons]; tauto
      · rw [i2]
        constructor
        · rintro (h | ⟨f, hf, h⟩)
          · exact .inl h
          · exact .inr ⟨f, by simp [hf], h⟩
        · rintro (h | ⟨f, hf, h⟩)
          · exact .inl h
          · rcases List.mem_cons.mp hf with rfl | hf
            · exact .inl (h ▸ hd)
            · exact .inr ⟨f, hf, h⟩
      · rw [i3]
        constructor
        · rintro (h | ⟨hn, f, hf, h⟩)
          · exact .inl h
          · exact .inr ⟨hn, f, by simp [hf], h⟩
        · rintro (h | ⟨hn, f, hf, h⟩)
          · exact .inl h
          · rcases List.mem_cons.mp hf with rfl | hf
            · exact absurd (h ▸ hd) hn
            · exact .inr ⟨hn, f, hf, h⟩
    · rename_i hd
      obtain ⟨i1, i2, i3⟩ := ih { { s with result := e :: s.result } with discovered := endOf e :: s.discovered, queue := s.queue ++ [endOf e] }
      refine ⟨fun r => ?_, fun w => ?_, fun w => ?_⟩
      · rw [i1]; simp only [List.mem_cons]; tauto
      · rw [i2]
        simp only [List.mem_cons]
        constructor
        · rintro ((h | h) | ⟨f, hf, h⟩)
          · exact .inr ⟨e, .inl rfl, h.symm⟩
          · exact .inl h
          · exact .inr ⟨f, .inr hf, h⟩
        · rintro (h | ⟨f, rfl | hf, h⟩)
          · exact .inl (.inr h)
          · exact .inl (.inl h.symm)
          · exact .inr ⟨f, hf, h⟩
      · rw [i3]
        simp only [List.mem_cons, List.mem_append, not_or, List.not_mem_nil, or_false]
        constructor
        · rintro ((h | h) | ⟨⟨_, hn⟩, f, hf, h⟩)
          · exact .inl h
          · exact .inr ⟨h ▸ hd, e, .inl rfl, h.symm⟩
          · exact .inr ⟨hn, f, .inr hf, h⟩
        · rintro (h | ⟨hn, f, rfl | hf, h⟩)
          · exact .inl (.inl h)
          · exact .inl (.inr h.symm)
          · by_cases hw : w = endOf e
            · exact .inl (.inr hw)
            · exact .inr ⟨⟨hw, hn⟩, f, hf, h⟩

theorem scanForward_spec (g : Graph) : ∀ (vs : List Nat) (s : St),
    (∀ r, r ∈ (scanForward g vs s).result ↔ r ∈ s.result ∨ ∃ v ∈ vs, r ∈ g.outgoing v) ∧
    (∀ w, w ∈ (scanForward g vs s).discovered ↔ w ∈ s.discovered ∨ ∃ v ∈ vs, ∃ e ∈ g.outgoing v, g.nodeTo e = w) ∧
    ∀ w, w ∈ (scanForward g vs s).queue ↔ w ∈ s.queue ∨ (w ∉ s.discovered ∧ ∃ v ∈ vs, ∃ e ∈ g.outgoing v, g.nodeTo e = w) := by
  intro vs
  induction vs with
  | nil => intro s; simp [scanForward]
  | cons v vs ih =>
    intro s
    obtain ⟨a1, a2, a3⟩ := visit_spec g.nodeTo (g.outgoing v) s
    obtain ⟨i1, i2, i3⟩ := ih (visit g.nodeTo (g.outgoing v) s)
    unfold scanForward
    refine ⟨fun r => ?_, fun w => ?_, fun w => ?_⟩
    · rw [i1, a1]; simp only [List.mem_cons, exists_eq_or_imp]; tauto
    · rw [i2, a2]; simp only [List.mem_cons, exists_eq_or_imp]
      generalize (∃ e ∈ g.outgoing v, g.nodeTo e = w) = A
      generalize (∃ v ∈ vs, ∃ e ∈ g.outgoing v, g.nodeTo e = w) = B
      tauto
    · rw [i3, a3, a2]; simp only [List.mem_cons, exists_eq_or_imp]
      generalize (∃ e ∈ g.outgoing v, g.nodeTo e = w) = A
      generalize (∃ v ∈ vs, ∃ e ∈ g.outgoing v, g.nodeTo e = w) = B
      tauto

theorem scanBackward_result (g : Graph) : ∀ (vs : List Nat) (s : St) (r : Nat),
    r ∈ (scanBackward g vs s).result ↔ r ∈ s.result ∨ ∃ v ∈ vs, r ∈ g.incoming v := by
  intro vs
  induction vs with
  | nil => intro s; simp [scanBackward]
  | cons v vs ih =>
    intro s r
    unfold scanBackward
    rw [ih, (visit_spec _ _ _).1]
    simp only [List.mem_cons, exists_eq_or_imp]; tauto

theorem scanBoth_result (g : Graph) : ∀ (vs : List Nat) (s : St) (r : Nat),
    r ∈ (scanBoth g vs s).result ↔ r ∈ s.result ∨ ∃ v ∈ vs, r ∈ g.incoming v ∨ r ∈ g.outgoing v := by
  intro vs
  induction vs with
  | nil => intro s; simp [scanBoth]
  | cons v vs ih =>
    intro s r
    unfold scanBoth
    rw [ih, (visit_spec _ _ _).1, (visit_spec _ _ _).1]
    simp only [List.mem_cons, exists_eq_or_imp]
    generalize (∃ v ∈ vs, r ∈ g.incoming v ∨ r ∈ g.outgoing v) = A
    tauto

theorem backwardLoop_result (g : Graph) (q : List Nat) : ∀ (n : Nat) (s : St) (r : Nat),
    r ∈ (backwardLoop g n q s).result ↔ r ∈ s.result ∨ (0 < n ∧ ∃ v ∈ q, r ∈ g.incoming v) := by
  intro n
  induction n with
  | zero => intro s; simp [backwardLoop]
  | succ n ih =>
    intro s r
    unfold backwardLoop
    rw [ih, scanBackward_result]
    simp only [Nat.succ_pos, true_and]
    generalize (∃ v ∈ q, r ∈ g.incoming v) = A
    tauto

theorem undirectedLoop_result (g : Graph) (q : List Nat) : ∀ (n : Nat) (s : St) (r : Nat),
    r ∈ (undirectedLoop g n q s).result ↔ r ∈ s.result ∨ (0 < n ∧ ∃ v ∈ q, r ∈ g.incoming v ∨ r ∈ g.outgoing v) := by
  intro n
  induction n with
  | zero => intro s; simp [undirectedLoop]
  | succ n ih =>
    intro s r
    unfold undirectedLoop
    rw [ih, scanBoth_result]
    simp only [Nat.succ_pos, true_and]
    generalize (∃ v ∈ q, r ∈ g.incoming v ∨ r ∈ g.outgoing v) = A
    tauto

theorem steps_nodes {g : Graph} (h : Consistent g) {n a b : Nat} (hs : Steps (Joins g) n a b) (ha : a ∈ g.nodes) : b ∈ g.nodes := by
  cases hs with
  | nil => exact ha
  | snoc _ hr => obtain ⟨r, h1, _, h3⟩ := hr; exact h3 ▸ (h.ends r h1).2

theorem mem_out {g : Graph} (h : Consistent g) {v r : Nat} (hv : v ∈ g.nodes) : r ∈ g.outgoing v ↔ r ∈ g.edges ∧ g.nodeFrom r = v := by
  rw [h.out v hv, List.mem_filter]; simp

theorem mem_inc {g : Graph} (h : Consistent g) {v r : Nat} (hv : v ∈ g.nodes) : r ∈ g.incoming v ↔ r ∈ g.edges ∧ g.nodeTo r = v := by
  rw [h.inc v hv, List.mem_filter]; simp

/-- The state after `k` rounds of the forward search from node `a`. -/
structure Round (g : Graph) (e a k : Nat) (q : List Nat) (s : St) : Prop where
  disc : ∀ v, v ∈ s.discovered ↔ ∃ j ≤ k, Steps (Joins g) j a v
  queue : ∀ v ∈ q, Steps (Joins g) k a v
  old : ∀ v ∈ s.discovered, v ∉ q → ∃ j < k, Steps (Joins g) j a v
  result : ∀ r, r ∈ s.result ↔ r = e ∨ (r ∈ g.edges ∧ ∃ j < k, Steps (Joins g) j a (g.nodeFrom r))

theorem round_step {g : Graph} (h : Consistent g) {e a k : Nat} (ha : a ∈ g.nodes) {q : List Nat} {s : St} (hr : Round g e a k q s) :
    Round g e a (k + 1) (scanForward g q { s with queue := [] }).queue (scanForward g q { s with queue := [] }) := by
  obtain ⟨s1, s2, s3⟩ := scanForward_spec g q { s with queue := [] }
  have hq : ∀ v ∈ q, v ∈ g.nodes := fun v hv => steps_nodes h (hr.queue v hv) ha
  have hdisc : ∀ v, v ∈ (scanForward g q { s with queue := [] }).discovered ↔ ∃ j ≤ k + 1, Steps (Joins g) j a v := by
    intro v
    rw [s2]
    constructor
    · rintro (hv | ⟨u, hu, f, hf, rfl⟩)
      · obtain ⟨j, hj, hs⟩ := (hr.disc v).mp hv
        exact ⟨j, by omega, hs⟩
      · obtain ⟨h1, h2⟩ := (mem_out h (hq u hu)).mp hf
        exact ⟨k + 1, le_rfl, .snoc (hr.queue u hu) ⟨f, h1, h2, rfl⟩⟩
    · rintro ⟨j, hj, hs⟩
      by_cases hjk : j ≤ k
      · exact .inl ((hr.disc v).mpr ⟨j, hjk, hs⟩)
      · have : j = k + 1 := by omega
        subst this
        cases hs with
        | snoc hs hj' =>
          rename_i u
          obtain ⟨f, f1, f2, f3⟩ := hj'
          by_cases hu : u ∈ q
          · exact .inr ⟨u, hu, f, (mem_out h (hq u hu)).mpr ⟨f1, f2⟩, f3⟩
          · obtain ⟨i, hi, hs'⟩ := hr.old u ((hr.disc u).mpr ⟨k, le_rfl, hs⟩) hu
            exact .inl ((hr.disc v).mpr ⟨i + 1, by omega, .snoc hs' ⟨f, f1, f2, f3⟩⟩)
  refine ⟨hdisc, ?_, ?_, ?_⟩
  · intro v hv
    rcases (s3 v).mp hv with hv | ⟨_, u, hu, f, hf, rfl⟩
    · cases hv
    · obtain ⟨h1, h2⟩ := (mem_out h (hq u hu)).mp hf
      exact .snoc (hr.queue u hu) ⟨f, h1, h2, rfl⟩
  · intro v hv hn
    have hd : v ∈ s.discovered := by
      by_contra hc
      rcases (s2 v).mp hv with h1 | h1
      · exact hc h1
      · exact hn ((s3 v).mpr (.inr ⟨hc, h1⟩))
    obtain ⟨j, hj, hs⟩ := (hr.disc v).mp hd
    exact ⟨j, by omega, hs⟩
  · intro r
    rw [s1]
    constructor
    · rintro (h1 | ⟨v, hv, h1⟩)
      · rcases (hr.result r).mp h1 with h1 | ⟨h1, j, hj, hs⟩
        · exact .inl h1
        · exact .inr ⟨h1, j, by omega, hs⟩
      · obtain ⟨h1, h2⟩ := (mem_out h (hq v hv)).mp h1
        exact .inr ⟨h1, k, by omega, h2 ▸ hr.queue v hv⟩
    · rintro (h1 | ⟨h1, j, hj, hs⟩)
      · exact .inl ((hr.result r).mpr (.inl h1))
      · by_cases hv : g.nodeFrom r ∈ q
        · exact .inr ⟨_, hv, (mem_out h (hq _ hv)).mpr ⟨h1, rfl⟩⟩
        · obtain ⟨i, hi, hs'⟩ := hr.old _ ((hr.disc _).mpr ⟨j, by omega, hs⟩) hv
          exact .inl ((hr.result r).mpr (.inr ⟨h1, i, hi, hs'⟩))

theorem forwardLoop_spec {g : Graph} (h : Consistent g) {e a : Nat} (ha : a ∈ g.nodes) : ∀ (n k : Nat) (q : List Nat) (s : St), Round g e a k q s →
    ∀ r, r ∈ (forwardLoop g n q s).result ↔ r = e ∨ (r ∈ g.edges ∧ ∃ j < k + n, Steps (Joins g) j a (g.nodeFrom r)) := by
  intro n
  induction n with
  | zero => intro k q s hr; exact hr.result
  | succ n ih =>
    intro k q s hr r
    unfold forwardLoop
    rw [ih (k + 1) _ _ (round_step h ha hr), show k + 1 + n = k + (n + 1) by omega]

end Neighbors
end Verif
