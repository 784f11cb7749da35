import Verif.Model.ActiveEdges
import Verif.Spec.ActiveEdges
import Verif.Proofs.DijkstraDyn

/-! Lemmas about `backward_search`. -/

namespace Verif
namespace ActiveEdges
open Verif.Spec Verif.Dijkstra

/-- Leaving the tail of `e` at its label, the head is reached at its label at the latest. -/
def OnTimeEdge (g : Graph) (c : Nat → ℚ → ℚ) (arr : Nat → Option ℚ) (e : Nat) : Prop :=
  ∃ a b, arr (g.nodeFrom e) = some a ∧ arr (g.nodeTo e) = some b ∧ a + c e a ≤ b

/-- A route of such edges. -/
def OnTimePath (g : Graph) (c : Nat → ℚ → ℚ) (arr : Nat → Option ℚ) : Nat → Nat → Prop :=
  Relation.ReflTransGen (fun u v => ∃ e ∈ g.edges, g.nodeFrom e = u ∧ g.nodeTo e = v ∧ OnTimeEdge g c arr e)

variable {g : Graph} {c : Nat → ℚ → ℚ} {arr : Nat → Option ℚ} {costs : List (ℚ → Py ℚ)} {source sink : Nat}

open Classical in
theorem backScan_spec (hcall : ∀ e ∈ g.edges, ∀ a, arr (g.nodeFrom e) = some a → ∃ f, costs[(g.edge e).id]? = some f ∧ f a = .ok (c e a))
    {w : Nat} {aw : ℚ} (hw : arr w = some aw) (es : List Nat) : (∀ e ∈ es, e ∈ g.edges ∧ g.nodeTo e = w) →
    ∀ (active touched queue : List Nat), touched.Nodup →
    ∃ new, backScan g costs arr source w es active touched queue =
        .ok (active ++ es.filter (fun e => g.nodeFrom e = source ∧ OnTimeEdge g c arr e), new ++ touched, new ++ queue) ∧
      (new ++ touched).Nodup ∧ (∀ x ∈ new, ∃ e ∈ es, g.nodeFrom e = x ∧ OnTimeEdge g c arr e) ∧
      ∀ e ∈ es, OnTimeEdge g c arr e → g.nodeFrom e ∈ new ++ touched := by
  induction es with
  | nil => intro _ active touched queue hn; exact ⟨[], by simp [backScan], hn, by simp, by simp⟩
  | cons e es ih =>
    intro hes active touched queue hn
    have hto := (hes e (by simp)).2
    have hes' : ∀ e' ∈ es, e' ∈ g.edges ∧ g.nodeTo e' = w := fun e' he' => hes e' (by simp [he'])
    -- the edge is passed over
    have skip : ¬ OnTimeEdge g c arr e → backScan g costs arr source w (e :: es) active touched queue = backScan g costs arr source w es active touched queue →
        ∃ new, backScan g costs arr source w (e :: es) active touched queue =
          .ok (active ++ (e :: es).filter (fun e => g.nodeFrom e = source ∧ OnTimeEdge g c arr e), new ++ touched, new ++ queue) ∧
        (new ++ touched).Nodup ∧ (∀ x ∈ new, ∃ e' ∈ e :: es, g.nodeFrom e' = x ∧ OnTimeEdge g c arr e') ∧
        ∀ e' ∈ e :: es, OnTimeEdge g c arr e' → g.nodeFrom e' ∈ new ++ touched := by
      intro hnt heq
      obtain ⟨new, h1, h2, h3, h4⟩ := ih hes' active touched queue hn
      refine ⟨new, ?_, h2, fun x hx => ?_, fun e' he' ht => ?_⟩
      · rw [heq, h1, List.filter_cons_of_neg (by simp [hnt])]
      · obtain ⟨e', a, b⟩ := h3 x hx; exact ⟨e', by simp [a], b⟩
      · rcases List.mem_cons.mp he' with rfl | he'
        · exact absurd ht hnt
        · exact h4 e' he' ht
    cases hr : arr (g.nodeFrom e) with
    | none =>
      apply skip
      · rintro ⟨_, _, hx, _⟩; rw [hr] at hx; cases hx
      · rw [backScan, hr]
    | some a =>
      obtain ⟨f, hf1, hf2⟩ := hcall e (hes e (by simp)).1 a hr
      have hstep : backScan g costs arr source w (e :: es) active touched queue =
          if a + c e a ≤ aw then
            (if g.nodeFrom e ∈ touched then backScan g costs arr source w es (if g.nodeFrom e = source then active ++ [e] else active) touched queue
             else backScan g costs arr source w es (if g.nodeFrom e = source then active ++ [e] else active) (g.nodeFrom e :: touched) (g.nodeFrom e :: queue))
          else backScan g costs arr source w es active touched queue := by
        rw [backScan, hr]
        simp only
        rw [rd_eq_ok.mpr hf1, ok_bind, hf2, ok_bind, look_some hw, ok_bind]
      by_cases hle : a + c e a ≤ aw
      · have ht : OnTimeEdge g c arr e := ⟨a, aw, hr, by rw [hto]; exact hw, hle⟩
        rw [hstep, if_pos hle]
        have hact : (if g.nodeFrom e = source then active ++ [e] else active) ++ es.filter (fun e => g.nodeFrom e = source ∧ OnTimeEdge g c arr e) =
            active ++ (e :: es).filter (fun e => g.nodeFrom e = source ∧ OnTimeEdge g c arr e) := by
          by_cases hs : g.nodeFrom e = source
          · rw [if_pos hs, List.filter_cons_of_pos (by simp [hs, ht])]; simp
          · rw [if_neg hs, List.filter_cons_of_neg (by simp [hs])]
        by_cases hm : g.nodeFrom e ∈ touched
        · rw [if_pos hm]
          obtain ⟨new, h1, h2, h3, h4⟩ := ih hes' (if g.nodeFrom e = source then active ++ [e] else active) touched queue hn
          refine ⟨new, by rw [h1, hact], h2, fun y hy => ?_, fun e' he' ht' => ?_⟩
          · obtain ⟨e', a', b'⟩ := h3 y hy; exact ⟨e', by simp [a'], b'⟩
          · rcases List.mem_cons.mp he' with rfl | he'
            · exact List.mem_append_right _ hm
            · exact h4 e' he' ht'
        · rw [if_neg hm]
          obtain ⟨new, h1, h2, h3, h4⟩ := ih hes' (if g.nodeFrom e = source then active ++ [e] else active)
            (g.nodeFrom e :: touched) (g.nodeFrom e :: queue) (List.nodup_cons.mpr ⟨hm, hn⟩)
          refine ⟨new ++ [g.nodeFrom e], by rw [h1, hact]; simp, by simpa using h2, fun y hy => ?_, fun e' he' ht' => ?_⟩
          · rcases List.mem_append.mp hy with hy | hy
            · obtain ⟨e', a', b'⟩ := h3 y hy; exact ⟨e', by simp [a'], b'⟩
            · simp at hy; exact ⟨e, by simp, hy.symm, ht⟩
          · rcases List.mem_cons.mp he' with rfl | he'
            · simp
            · have := h4 e' he' ht'; simpa using this
      · apply skip
        · rintro ⟨a', b', h1, h3, h4⟩
          rw [hr] at h1; injection h1 with h1
          rw [hto, hw] at h3; injection h3 with h3
          subst h1 h3
          exact hle h4
        · rw [hstep, if_neg hle]

open Classical in
theorem backLoop_spec (hg : Consistent g) (hcall : ∀ e ∈ g.edges, ∀ a, arr (g.nodeFrom e) = some a → ∃ f, costs[(g.edge e).id]? = some f ∧ f a = .ok (c e a))
    (hs : ∃ b, arr sink = some b) (hsn : sink ∈ g.nodes) :
    ∀ (fuel : Nat) (active touched queue : List Nat), touched.Nodup → queue.Nodup → (∀ x ∈ queue, x ∈ touched) → sink ∈ touched →
      (∀ x ∈ touched, x ∈ g.nodes ∧ OnTimePath g c arr x sink ∧ ∃ a, arr x = some a) →
      (∀ x ∈ touched, x ∉ queue → ∀ e ∈ g.edges, g.nodeTo e = x → OnTimeEdge g c arr e → g.nodeFrom e ∈ touched) →
      active.Nodup → (∀ e, e ∈ active ↔ e ∈ g.edges ∧ g.nodeFrom e = source ∧ OnTimeEdge g c arr e ∧ g.nodeTo e ∈ touched ∧ g.nodeTo e ∉ queue) →
      g.nodes.length + queue.length ≤ fuel + touched.length →
      ∃ S, backLoop g costs arr source fuel active touched queue = .ok S ∧ S.Nodup ∧
        ∀ e, e ∈ S ↔ e ∈ g.edges ∧ g.nodeFrom e = source ∧ OnTimeEdge g c arr e ∧ OnTimePath g c arr (g.nodeTo e) sink := by
  intro fuel
  have fin : ∀ (active touched : List Nat), (∀ x ∈ touched, x ∈ g.nodes ∧ OnTimePath g c arr x sink ∧ ∃ a, arr x = some a) → sink ∈ touched →
      (∀ x ∈ touched, ∀ e ∈ g.edges, g.nodeTo e = x → OnTimeEdge g c arr e → g.nodeFrom e ∈ touched) →
      ∀ v, OnTimePath g c arr v sink → v ∈ touched := by
    intro active touched h1 h2 h3 v hv
    unfold OnTimePath at hv
    induction hv using Relation.ReflTransGen.head_induction_on with
    | refl => exact h2
    | head hstep _ ih => obtain ⟨e, he, rfl, rfl, ht⟩ := hstep; exact h3 _ ih e he rfl ht
  induction fuel with
  | zero =>
    intro active touched queue hn hq hqt hst ht hcl ha hact hf
    cases queue with
    | nil =>
      unfold backLoop
      refine ⟨active, rfl, ha, fun e => ?_⟩
      rw [hact]
      constructor
      · rintro ⟨h1, h2, h3, h4, _⟩; exact ⟨h1, h2, h3, (ht _ h4).2.1⟩
      · rintro ⟨h1, h2, h3, h4⟩
        exact ⟨h1, h2, h3, fin active touched ht hst (fun x hx => hcl x hx (by simp)) _ h4, by simp⟩
    | cons a q =>
      exfalso
      have : touched.length ≤ g.nodes.length := (List.Nodup.subperm hn (fun x hx => (ht x hx).1)).length_le
      simp at hf; omega
  | succ fuel ih =>
    intro active touched queue hn hq hqt hst ht hcl ha hact hf
    cases queue with
    | nil =>
      unfold backLoop
      refine ⟨active, rfl, ha, fun e => ?_⟩
      rw [hact]
      constructor
      · rintro ⟨h1, h2, h3, h4, _⟩; exact ⟨h1, h2, h3, (ht _ h4).2.1⟩
      · rintro ⟨h1, h2, h3, h4⟩
        exact ⟨h1, h2, h3, fin active touched ht hst (fun x hx => hcl x hx (by simp)) _ h4, by simp⟩
    | cons w q =>
      obtain ⟨hwn, hwp, aw, haw⟩ := ht w (hqt w (by simp))
      have hinc : ∀ e, e ∈ g.incoming w ↔ e ∈ g.edges ∧ g.nodeTo e = w := by
        intro e; rw [hg.inc w hwn, List.mem_filter]; simp
      obtain ⟨new, h1, h2, h3, h4⟩ := backScan_spec (source := source) hcall haw (g.incoming w) (fun e he => (hinc e).mp he) active touched q hn
      unfold backLoop
      rw [h1, ok_bind]
      rw [List.nodup_cons] at hq
      have hdisj : ∀ x ∈ new, x ∉ touched := by
        intro x hx hx'
        exact (List.nodup_append.mp h2).2.2 x hx x hx' rfl
      apply ih
      · exact h2
      · rw [List.nodup_append]
        exact ⟨(List.nodup_append.mp h2).1, hq.2, fun x hx y hy e => hdisj x hx (hqt x (by subst e; simp [hy]))⟩
      · intro x hx
        rcases List.mem_append.mp hx with hx | hx
        · exact List.mem_append_left _ hx
        · exact List.mem_append_right _ (hqt x (by simp [hx]))
      · exact List.mem_append_right _ hst
      · intro x hx
        rcases List.mem_append.mp hx with hx | hx
        · obtain ⟨e, he, rfl, hte⟩ := h3 x hx
          obtain ⟨he1, he2⟩ := (hinc e).mp he
          refine ⟨(hg.ends e he1).1, Relation.ReflTransGen.head ⟨e, he1, rfl, he2, hte⟩ hwp, ?_⟩
          obtain ⟨a, _, haa, _⟩ := hte
          exact ⟨a, haa⟩
        · exact ht x hx
      · intro x hx hxq e he hto hte
        rcases List.mem_append.mp hx with hx | hx
        · exact absurd (List.mem_append_left _ hx) hxq
        · by_cases hxa : x = w
          · subst hxa; exact h4 e ((hinc e).mpr ⟨he, hto⟩) hte
          · refine List.mem_append_right _ (hcl x hx ?_ e he hto hte)
            intro hm
            rcases List.mem_cons.mp hm with hm | hm
            · exact hxa hm
            · exact hxq (List.mem_append_right _ hm)
      · rw [List.nodup_append]
        refine ⟨ha, ?_, ?_⟩
        · apply List.Nodup.filter
          rw [hg.inc w hwn]; exact hg.edges.filter _
        · intro x hx y hy e
          subst e
          rw [List.mem_filter] at hy
          exact ((hact x).mp hx).2.2.2.2 (by rw [((hinc x).mp hy.1).2]; simp)
      · intro e
        rw [List.mem_append, hact, List.mem_filter, hinc]
        have hnw : w ∉ new := fun h => hdisj w h (hqt w (by simp))
        simp only [List.mem_cons, not_or, List.mem_append, decide_eq_true_eq]
        constructor
        · rintro (⟨x1, x2, x3, x4, x5, x6⟩ | ⟨⟨x1, x2⟩, x3, x4⟩)
          · exact ⟨x1, x2, x3, Or.inr x4, fun h => hdisj _ h x4, x6⟩
          · refine ⟨x1, x3, x4, Or.inr (by rw [x2]; exact hqt w (by simp)), by rw [x2]; exact hnw, by rw [x2]; exact hq.1⟩
        · rintro ⟨x1, x2, x3, x4, x5, x6⟩
          by_cases e' : g.nodeTo e = w
          · exact Or.inr ⟨⟨x1, e'⟩, x2, x3⟩
          · left
            rcases x4 with x4 | x4
            · exact absurd x4 x5
            · exact ⟨x1, x2, x3, x4, e', x6⟩
      · simp only [List.length_append, List.length_cons] at hf ⊢; omega


theorem backwardSearch_spec (hg : Consistent g) (hcall : ∀ e ∈ g.edges, ∀ a, arr (g.nodeFrom e) = some a → ∃ f, costs[(g.edge e).id]? = some f ∧ f a = .ok (c e a))
    (hs : ∃ b, arr sink = some b) (hsn : sink ∈ g.nodes) : ∃ S, backwardSearch g costs arr source sink = .ok S ∧ S.Nodup ∧
      ∀ e, e ∈ S ↔ e ∈ g.edges ∧ g.nodeFrom e = source ∧ OnTimeEdge g c arr e ∧ OnTimePath g c arr (g.nodeTo e) sink := by
  refine backLoop_spec (source := source) hg hcall hs hsn (g.nodes.length + 1) [] [sink] [sink] (by simp) (by simp) (by simp) (by simp)
    (by intro x hx; simp at hx; subst hx; exact ⟨hsn, Relation.ReflTransGen.refl, hs⟩)
    (by intro x hx hx'; simp at hx hx'; exact absurd hx hx')
    (by simp)
    (by
      intro e
      constructor
      · intro he; simp at he
      · rintro ⟨_, _, _, x1, x2⟩; exact absurd x1 x2)
    (by simp)

end ActiveEdges
end Verif
