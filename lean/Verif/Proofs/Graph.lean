import Verif.Spec.Graph
import Mathlib.Data.List.Nodup
import Mathlib.Data.List.Basic
import Mathlib.Data.List.Perm.Subperm
import Mathlib.Tactic.Linarith

/-! Consistency of graphs under the edge operations; searches. -/

namespace Verif
open Verif.Spec

namespace Graph

theorem empty_consistent : Consistent Graph.empty :=
  ⟨List.nodup_nil, List.nodup_nil, by simp [empty], by simp [empty], by simp [empty], by simp [empty], by simp [empty]⟩

theorem reverse_consistent {g : Graph} (h : Consistent g) : Consistent g.reverse := by
  have hf : ∀ r, g.reverse.nodeFrom r = g.nodeTo r := by
    intro r; unfold nodeFrom nodeTo reverse; cases g.reversed <;> rfl
  have ht : ∀ r, g.reverse.nodeTo r = g.nodeFrom r := by
    intro r; unfold nodeFrom nodeTo reverse; cases g.reversed <;> rfl
  have ho : ∀ v, g.reverse.outgoing v = g.incoming v := by
    intro v; unfold outgoing incoming reverse; cases g.reversed <;> rfl
  have hi : ∀ v, g.reverse.incoming v = g.outgoing v := by
    intro v; unfold outgoing incoming reverse; cases g.reversed <;> rfl
  refine ⟨h.nodes, h.edges, h.known, ?_, ?_, ?_, h.ids⟩
  · intro r hr; rw [hf, ht]; exact ⟨(h.ends r hr).2, (h.ends r hr).1⟩
  · intro v hv; rw [ho, h.inc v hv]; simp only [hf]; rfl
  · intro v hv; rw [hi, h.out v hv]; simp only [ht]; rfl

@[simp] theorem putAt_self {α : Type _} (d : Nat → α) (r : Nat) (x : α) : putAt d r x r = x := by simp [putAt]
theorem putAt_ne {α : Type _} (d : Nat → α) {r j : Nat} (x : α) (h : j ≠ r) : putAt d r x j = d j := by simp [putAt, h]

theorem incoming_setIncoming (g : Graph) (v u : Nat) (l : List Nat) :
    (g.setIncoming v l).incoming u = if u = v then l else g.incoming u := by
  unfold setIncoming incoming
  by_cases e : u = v
  · subst e; simp only [putAt_self, if_true]; cases g.reversed <;> rfl
  · rw [if_neg e]; simp only [putAt_ne _ _ e]

theorem outgoing_setIncoming (g : Graph) (v u : Nat) (l : List Nat) : (g.setIncoming v l).outgoing u = g.outgoing u := by
  unfold setIncoming outgoing
  by_cases e : u = v
  · subst e; simp only [putAt_self]; cases g.reversed <;> rfl
  · simp only [putAt_ne _ _ e]

theorem outgoing_setOutgoing (g : Graph) (v u : Nat) (l : List Nat) :
    (g.setOutgoing v l).outgoing u = if u = v then l else g.outgoing u := by
  unfold setOutgoing outgoing
  by_cases e : u = v
  · subst e; simp only [putAt_self, if_true]; cases g.reversed <;> rfl
  · rw [if_neg e]; simp only [putAt_ne _ _ e]

theorem incoming_setOutgoing (g : Graph) (v u : Nat) (l : List Nat) : (g.setOutgoing v l).incoming u = g.incoming u := by
  unfold setOutgoing incoming
  by_cases e : u = v
  · subst e; simp only [putAt_self]; cases g.reversed <;> rfl
  · simp only [putAt_ne _ _ e]

theorem ensureNode_spec {g : Graph} (h : Consistent g) (v : Nat) :
    Consistent (g.ensureNode v) ∧ v ∈ (g.ensureNode v).nodes ∧ (∀ u ∈ g.nodes, u ∈ (g.ensureNode v).nodes) ∧
      (g.ensureNode v).edges = g.edges ∧ (g.ensureNode v).edge = g.edge ∧ (g.ensureNode v).reversed = g.reversed ∧
      (g.ensureNode v).fresh = g.fresh ∧ ∀ u, u ∈ (g.ensureNode v).nodes ↔ u ∈ g.nodes ∨ u = v := by
  unfold ensureNode
  by_cases hv : v ∈ g.nodes
  · rw [if_pos hv]
    exact ⟨h, hv, fun _ hu => hu, rfl, rfl, rfl, rfl, fun u => ⟨Or.inl, fun hu => hu.elim id (fun e => e ▸ hv)⟩⟩
  · rw [if_neg hv]
    have hempty : ∀ (f : Nat → Nat), (∀ r ∈ g.edges, f r ∈ g.nodes) → g.edges.filter (fun r => f r = v) = [] := by
      intro f hf
      rw [List.filter_eq_nil_iff]
      intro r hr hc
      have : f r = v := by simpa using hc
      exact hv (this ▸ hf r hr)
    refine ⟨⟨?_, h.edges, h.known, ?_, ?_, ?_, h.ids⟩, by simp, fun u hu => by simp [hu], rfl, rfl, rfl, rfl, fun u => by simp⟩
    · simp only [List.nodup_append, h.nodes, true_and]
      exact ⟨by simp, by intro a ha b hb; simp at hb; subst hb; intro e; exact hv (e ▸ ha)⟩
    · intro r hr
      have := h.ends r hr
      exact ⟨List.mem_append_left _ this.1, List.mem_append_left _ this.2⟩
    · intro u hu
      by_cases e : u = v
      · subst e
        show outgoing _ u = List.filter (fun r => decide (g.nodeFrom r = u)) g.edges
        rw [hempty g.nodeFrom (fun r hr => (h.ends r hr).1)]
        simp [outgoing]
      · have hu' : u ∈ g.nodes := by simpa [e] using hu
        show outgoing _ u = List.filter (fun r => decide (g.nodeFrom r = u)) g.edges
        rw [← h.out u hu']
        simp [outgoing, putAt_ne _ _ e]
    · intro u hu
      by_cases e : u = v
      · subst e
        show incoming _ u = List.filter (fun r => decide (g.nodeTo r = u)) g.edges
        rw [hempty g.nodeTo (fun r hr => (h.ends r hr).2)]
        simp [incoming]
      · have hu' : u ∈ g.nodes := by simpa [e] using hu
        show incoming _ u = List.filter (fun r => decide (g.nodeTo r = u)) g.edges
        rw [← h.inc u hu']
        simp [incoming, putAt_ne _ _ e]

/-- Adding an edge to a graph that is not reversed. -/
theorem addEdge_spec {g : Graph} (h : Consistent g) (hr : g.reversed = false) (u v : Nat) :
    Consistent (g.addEdge u v) ∧ (g.addEdge u v).reversed = false ∧ (g.addEdge u v).edges = g.edges ++ [g.fresh] ∧
      (∀ r ∈ g.edges, (g.addEdge u v).edge r = g.edge r) ∧
      (g.addEdge u v).edge g.fresh = ⟨u, v, g.edges.length⟩ ∧
      ∀ w, w ∈ (g.addEdge u v).nodes ↔ w ∈ g.nodes ∨ w = u ∨ w = v := by
  obtain ⟨h1, a1, a2, a3, a4, a5, a6, a7⟩ := ensureNode_spec h u
  obtain ⟨h2, b1, b2, b3, b4, b5, b6, b7⟩ := ensureNode_spec h1 v
  have hdef : ∃ g3, g3 = g.addEdge u v ∧ g3.edges = g.edges ++ [g.fresh] ∧ g3.edge = putAt g.edge g.fresh ⟨u, v, g.edges.length⟩ ∧
      g3.reversed = false ∧ g3.fresh = g.fresh + 1 ∧ g3.nodes = ((g.ensureNode u).ensureNode v).nodes ∧
      (∀ w, g3.outgoing w = if w = u then ((g.ensureNode u).ensureNode v).outgoing w ++ [g.fresh] else ((g.ensureNode u).ensureNode v).outgoing w) ∧
      (∀ w, g3.incoming w = if w = v then ((g.ensureNode u).ensureNode v).incoming w ++ [g.fresh] else ((g.ensureNode u).ensureNode v).incoming w) := by
    refine ⟨_, rfl, ?_, ?_, ?_, ?_, rfl, ?_, ?_⟩
    · show ((g.ensureNode u).ensureNode v).edges ++ [((g.ensureNode u).ensureNode v).fresh] = _
      rw [b3, a3, b6, a6]
    · show putAt ((g.ensureNode u).ensureNode v).edge ((g.ensureNode u).ensureNode v).fresh ⟨u, v, ((g.ensureNode u).ensureNode v).edges.length⟩ = _
      rw [b3, a3, b4, a4, b6, a6]
    · show ((g.ensureNode u).ensureNode v).reversed = false
      rw [b5, a5, hr]
    · show ((g.ensureNode u).ensureNode v).fresh + 1 = _
      rw [b6, a6]
    · intro w
      unfold addEdge
      simp only
      rw [outgoing_setIncoming, outgoing_setOutgoing, b6, a6]
      split
      · rename_i e; subst e; rfl
      · rfl
    · intro w
      unfold addEdge
      simp only
      rw [incoming_setIncoming, incoming_setOutgoing, incoming_setOutgoing, b6, a6]
      split
      · rename_i e; subst e; rfl
      · rfl
  obtain ⟨g3, hg, c1, c2, c3, c4, c5, c6, c7⟩ := hdef
  rw [← hg]
  generalize (g.ensureNode u).ensureNode v = g2 at *
  rw [a3] at b3; rw [a4] at b4; rw [a5, hr] at b5; rw [a6] at b6
  have hfresh : ∀ r ∈ g.edges, r ≠ g.fresh := fun r hr e => absurd (h.known r hr) (by rw [e]; exact lt_irrefl _)
  have hold : ∀ r ∈ g.edges, g3.nodeFrom r = g2.nodeFrom r ∧ g3.nodeTo r = g2.nodeTo r := by
    intro r hr'
    unfold nodeFrom nodeTo
    rw [c2, c3, b4, b5, putAt_ne _ _ (hfresh r hr')]
    exact ⟨rfl, rfl⟩
  have hnew : g3.nodeFrom g.fresh = u ∧ g3.nodeTo g.fresh = v := by
    unfold nodeFrom nodeTo; rw [c2, c3, putAt_self]; exact ⟨rfl, rfl⟩
  refine ⟨⟨by rw [c5]; exact h2.nodes, ?_, ?_, ?_, ?_, ?_, ?_⟩, c3, c1, ?_, ?_, ?_⟩
  · rw [c1, List.nodup_append]
    refine ⟨h.edges, by simp, ?_⟩
    intro a ha b hb
    simp at hb; subst hb
    exact hfresh a ha
  · intro r hr'
    rw [c1, List.mem_append, List.mem_singleton] at hr'
    rw [c4]
    rcases hr' with hr' | hr'
    · have := h.known r hr'; omega
    · omega
  · intro r hr'
    rw [c1, List.mem_append, List.mem_singleton] at hr'
    rw [c5]
    rcases hr' with hr' | hr'
    · rw [(hold r hr').1, (hold r hr').2]; exact h2.ends r (by rw [b3]; exact hr')
    · subst hr'; rw [hnew.1, hnew.2]; exact ⟨b2 u a1, b1⟩
  · intro w hw
    rw [c5] at hw
    rw [c6, h2.out w hw, c1, List.filter_append, b3]
    have : g.edges.filter (fun r => decide (g3.nodeFrom r = w)) = g.edges.filter (fun r => decide (g2.nodeFrom r = w)) :=
      List.filter_congr (fun r hr' => by rw [(hold r hr').1])
    rw [this]
    by_cases e : w = u
    · subst e; simp [hnew.1]
    · simp [e, hnew.1, Ne.symm e]
  · intro w hw
    rw [c5] at hw
    rw [c7, h2.inc w hw, c1, List.filter_append, b3]
    have : g.edges.filter (fun r => decide (g3.nodeTo r = w)) = g.edges.filter (fun r => decide (g2.nodeTo r = w)) :=
      List.filter_congr (fun r hr' => by rw [(hold r hr').2])
    rw [this]
    by_cases e : w = v
    · subst e; simp [hnew.2]
    · simp [e, hnew.2, Ne.symm e]
  · intro i hi
    have hget : g3.edges[i] = (g.edges ++ [g.fresh])[i]'(by rw [← c1]; exact hi) := by simp only [c1]
    rw [hget, c2, List.getElem_append]
    by_cases c : i < g.edges.length
    · rw [dif_pos c, putAt_ne _ _ (hfresh _ (List.getElem_mem c))]
      exact h.ids i c
    · rw [dif_neg c]
      rw [c1, List.length_append, List.length_singleton] at hi
      have : i = g.edges.length := by omega
      subst this
      simp
  · intro r hr'
    rw [c2, putAt_ne _ _ (hfresh r hr')]
  · rw [c2, putAt_self]
  · intro w
    rw [c5, b7, a7]; tauto

/-- One `for` loop of a search adds exactly the far ends not found before, each once, also to the stack. -/
theorem scan_spec (far : Nat → Nat) : ∀ (es found queue : List Nat), found.Nodup →
    ∃ new, scan far es found queue = (new ++ found, new ++ queue) ∧ (new ++ found).Nodup ∧
      (∀ x ∈ new, ∃ e ∈ es, far e = x) ∧ ∀ e ∈ es, far e ∈ new ++ found := by
  intro es
  induction es with
  | nil => intro found queue hn; exact ⟨[], rfl, hn, by simp, by simp⟩
  | cons e es ih =>
    intro found queue hn
    unfold scan
    by_cases hc : far e ∈ found
    · rw [if_pos hc]
      obtain ⟨new, h1, h2, h3, h4⟩ := ih found queue hn
      refine ⟨new, h1, h2, fun x hx => ?_, fun e' he => ?_⟩
      · obtain ⟨e', a, b⟩ := h3 x hx; exact ⟨e', List.mem_cons_of_mem _ a, b⟩
      · rcases List.mem_cons.mp he with rfl | he
        · exact List.mem_append_right _ hc
        · exact h4 e' he
    · rw [if_neg hc]
      obtain ⟨new, h1, h2, h3, h4⟩ := ih (far e :: found) (far e :: queue) (List.nodup_cons.mpr ⟨hc, hn⟩)
      refine ⟨new ++ [far e], by rw [h1]; simp, by simpa using h2, fun x hx => ?_, fun e' he => ?_⟩
      · rcases List.mem_append.mp hx with hx | hx
        · obtain ⟨e', a, b⟩ := h3 x hx; exact ⟨e', List.mem_cons_of_mem _ a, b⟩
        · simp at hx; exact ⟨e, by simp, hx.symm⟩
      · rcases List.mem_cons.mp he with rfl | he
        · simp
        · have := h4 e' he; simpa using this

/-- The `while` loop of a search finds exactly what can be reached. -/
theorem search_spec (far : Nat → Nat) (adj : Nat → List Nat) (U : List Nat) (s : Nat)
    (hU : ∀ v, Relation.ReflTransGen (fun a b => ∃ e ∈ adj a, far e = b) s v → v ∈ U) :
    ∀ (fuel : Nat) (found queue : List Nat), found.Nodup → queue.Nodup → (∀ x ∈ queue, x ∈ found) → s ∈ found →
      (∀ x ∈ found, Relation.ReflTransGen (fun a b => ∃ e ∈ adj a, far e = b) s x) →
      (∀ x ∈ found, x ∉ queue → ∀ e ∈ adj x, far e ∈ found) → U.length + queue.length ≤ fuel + found.length →
      ∃ S, search far adj fuel found queue = .ok S ∧ S.Nodup ∧
        ∀ v, v ∈ S ↔ Relation.ReflTransGen (fun a b => ∃ e ∈ adj a, far e = b) s v := by
  intro fuel
  induction fuel with
  | zero =>
    intro found queue hn hq hqf hs hreach hclosed hf
    cases queue with
    | nil =>
      unfold search
      refine ⟨found, rfl, hn, fun v => ⟨hreach v, fun hv => ?_⟩⟩
      induction hv with
      | refl => exact hs
      | tail _ hstep ih => obtain ⟨e, he, rfl⟩ := hstep; exact hclosed _ ih (by simp) e he
    | cons a q =>
      exfalso
      have : found.length ≤ U.length :=
        (List.Nodup.subperm hn (fun x hx => hU x (hreach x hx))).length_le
      simp at hf; omega
  | succ fuel ih =>
    intro found queue hn hq hqf hs hreach hclosed hf
    cases queue with
    | nil =>
      unfold search
      refine ⟨found, rfl, hn, fun v => ⟨hreach v, fun hv => ?_⟩⟩
      induction hv with
      | refl => exact hs
      | tail _ hstep ih => obtain ⟨e, he, rfl⟩ := hstep; exact hclosed _ ih (by simp) e he
    | cons a q =>
      unfold search
      obtain ⟨new, h1, h2, h3, h4⟩ := scan_spec far (adj a) found q hn
      simp only [h1]
      rw [List.nodup_cons] at hq
      have hdisj : ∀ x ∈ new, x ∉ found := by
        intro x hx hx'
        exact (List.nodup_append.mp h2).2.2 x hx x hx' rfl
      apply ih
      · exact h2
      · rw [List.nodup_append]
        exact ⟨(List.nodup_append.mp h2).1, hq.2, fun x hx y hy e => hdisj x hx (hqf x (by subst e; simp [hy]))⟩
      · intro x hx
        rcases List.mem_append.mp hx with hx | hx
        · exact List.mem_append_left _ hx
        · exact List.mem_append_right _ (hqf x (by simp [hx]))
      · exact List.mem_append_right _ hs
      · intro x hx
        rcases List.mem_append.mp hx with hx | hx
        · exact Relation.ReflTransGen.tail (hreach a (hqf a (by simp))) (h3 x hx)
        · exact hreach x hx
      · intro x hx hxq e he
        rcases List.mem_append.mp hx with hx | hx
        · exact absurd (List.mem_append_left _ hx) hxq
        · by_cases hxa : x = a
          · subst hxa; exact h4 e he
          · refine List.mem_append_right _ (hclosed x hx ?_ e he)
            intro hm
            rcases List.mem_cons.mp hm with hm | hm
            · exact hxa hm
            · exact hxq (List.mem_append_right _ hm)
      · simp only [List.length_append, List.length_cons] at hf ⊢; omega

end Graph

namespace Network
open Graph

theorem renumber_tail (rs : List Nat) : ∀ (k : Nat) (d : Nat → Edge) (r : Nat),
    (renumber k rs d r).tail = (d r).tail ∧ (renumber k rs d r).head = (d r).head := by
  induction rs with
  | nil => intro k d r; exact ⟨rfl, rfl⟩
  | cons a rs ih =>
    intro k d r
    unfold renumber
    obtain ⟨h1, h2⟩ := ih (k + 1) (putAt d a { d a with id := k }) r
    rw [h1, h2]
    by_cases e : r = a
    · subst e; simp
    · rw [putAt_ne _ _ e]; exact ⟨rfl, rfl⟩

theorem renumber_other (rs : List Nat) : ∀ (k : Nat) (d : Nat → Edge) (r : Nat), r ∉ rs → renumber k rs d r = d r := by
  induction rs with
  | nil => intros; rfl
  | cons a rs ih =>
    intro k d r hr
    simp only [List.mem_cons, not_or] at hr
    unfold renumber
    rw [ih _ _ _ hr.2, putAt_ne _ _ hr.1]

theorem renumber_id (rs : List Nat) : ∀ (k : Nat) (d : Nat → Edge), rs.Nodup → ∀ (i : Nat) (h : i < rs.length),
    (renumber k rs d rs[i]).id = k + i := by
  induction rs with
  | nil => intro k d _ i h; simp at h
  | cons a rs ih =>
    intro k d hn i h
    rw [List.nodup_cons] at hn
    unfold renumber
    cases i with
    | zero => simp only [List.getElem_cons_zero]; rw [renumber_other _ _ _ _ hn.1]; simp
    | succ i =>
      simp only [List.getElem_cons_succ]
      rw [ih (k + 1) _ hn.2 i (by simpa using h)]; omega

theorem filter_eraseIdx {l : List Nat} (hn : l.Nodup) {i : Nat} (hi : i < l.length) (p : Nat → Bool) :
    (l.eraseIdx i).filter p = if p l[i] then (l.filter p).erase l[i] else l.filter p := by
  rw [← hn.erase_getElem i hi, hn.erase_eq_filter, (hn.filter p).erase_eq_filter, List.filter_filter, List.filter_filter]
  split
  · apply List.filter_congr; intro x _; rw [Bool.and_comm]
  · rename_i hc
    apply List.filter_congr; intro x _
    by_cases e : x = l[i]
    · subst e; simp [hc]
    · simp [e]

theorem removeEdge_spec {P : Type} {n : Network P} (h : Consistent n.graph) (hc : n.capacity.length = n.graph.edges.length)
    (ht : n.travelTime.length = n.graph.edges.length) {i : Nat} (hi : i < n.graph.edges.length) :
    ∃ n', n.removeEdge n.graph.edges[i] = .ok n' ∧ Consistent n'.graph ∧ n'.graph.edges = n.graph.edges.eraseIdx i ∧
      n'.capacity = n.capacity.eraseIdx i ∧ n'.travelTime = n.travelTime.eraseIdx i ∧ n'.graph.reversed = n.graph.reversed ∧
      (∀ r, n'.graph.nodeFrom r = n.graph.nodeFrom r ∧ n'.graph.nodeTo r = n.graph.nodeTo r) ∧
      n'.graph.nodes = n.graph.nodes ∧ n'.commodities = n.commodities ∧ n'.graph.fresh = n.graph.fresh ∧
      (∀ r, (n'.graph.edge r).tail = (n.graph.edge r).tail ∧ (n'.graph.edge r).head = (n.graph.edge r).head) := by
  generalize hr : n.graph.edges[i] = r
  have hmem : r ∈ n.graph.edges := hr ▸ List.getElem_mem hi
  obtain ⟨m1, m2⟩ := h.ends r hmem
  have e1 := h.inc _ m2
  have e2 := h.out _ m1
  have hid : (n.graph.edge r).id = i := by rw [← hr]; exact h.ids i hi
  have r1 : r ∈ n.graph.incoming (n.graph.nodeTo r) := by rw [e1]; simp [hmem]
  have r2 : r ∈ n.graph.outgoing (n.graph.nodeFrom r) := by rw [e2]; simp [hmem]
  have hperm : ∀ x ∈ n.graph.edges.eraseIdx i, x ∈ n.graph.edges := fun x hx => List.mem_of_mem_eraseIdx hx
  have hends : ∀ r', (renumber 0 (n.graph.edges.eraseIdx i) n.graph.edge r').tail = (n.graph.edge r').tail ∧
    (renumber 0 (n.graph.edges.eraseIdx i) n.graph.edge r').head = (n.graph.edge r').head := fun r' => renumber_tail _ _ _ _
  have hnod := h.edges.eraseIdx i
  have fo := fun v => filter_eraseIdx h.edges hi (fun r' => decide (n.graph.nodeFrom r' = v))
  have fi := fun v => filter_eraseIdx h.edges hi (fun r' => decide (n.graph.nodeTo r' = v))
  rw [hr] at fo fi
  have hout' : ∀ v ∈ n.graph.nodes, (if v = n.graph.nodeFrom r then (n.graph.outgoing (n.graph.nodeFrom r)).erase r else n.graph.outgoing v) =
      (n.graph.edges.eraseIdx i).filter (fun r' => n.graph.nodeFrom r' = v) := by
    intro v hv
    rw [fo v]
    by_cases e : v = n.graph.nodeFrom r
    · subst e; simp [h.out _ hv]
    · simp only [if_neg e, Ne.symm e, decide_false, Bool.false_eq_true, if_false, h.out _ hv]
  have hinc' : ∀ v ∈ n.graph.nodes, (if v = n.graph.nodeTo r then (n.graph.incoming (n.graph.nodeTo r)).erase r else n.graph.incoming v) =
      (n.graph.edges.eraseIdx i).filter (fun r' => n.graph.nodeTo r' = v) := by
    intro v hv
    rw [fi v]
    by_cases e : v = n.graph.nodeTo r
    · subst e; simp [h.inc _ hv]
    · simp only [if_neg e, Ne.symm e, decide_false, Bool.false_eq_true, if_false, h.inc _ hv]
  have q2 : ∀ l, (n.graph.setIncoming (n.graph.nodeTo r) l).outgoing (n.graph.nodeFrom r) = n.graph.outgoing (n.graph.nodeFrom r) :=
    fun l => outgoing_setIncoming _ _ _ _
  have hf : ∀ v l, (n.graph.setIncoming v l).nodeFrom r = n.graph.nodeFrom r := fun _ _ => rfl
  unfold removeEdge listRemove
  simp only
  rw [if_pos r1, ok_bind, hf, q2, if_pos r2, ok_bind]
  have hid' : ∀ v l w k, (((n.graph.setIncoming v l).setOutgoing w k).edge r).id = i := fun _ _ _ _ => hid
  unfold listDel
  rw [hid']
  have hed : ∀ v l w k, ((n.graph.setIncoming v l).setOutgoing w k).edges = n.graph.edges := fun _ _ _ _ => rfl
  rw [hed, if_pos hi, ok_bind, if_pos (by rw [hc]; exact hi), ok_bind, if_pos (by rw [ht]; exact hi), ok_bind]
  have hnf : ∀ r', (renumber 0 (n.graph.edges.eraseIdx i) n.graph.edge r').tail = (n.graph.edge r').tail := fun r' => (hends r').1
  have hnt : ∀ r', (renumber 0 (n.graph.edges.eraseIdx i) n.graph.edge r').head = (n.graph.edge r').head := fun r' => (hends r').2
  have hdef : ∃ g3 : Graph, g3 = { (n.graph.setIncoming (n.graph.nodeTo r) ((n.graph.incoming (n.graph.nodeTo r)).erase r)).setOutgoing
      (n.graph.nodeFrom r) ((n.graph.outgoing (n.graph.nodeFrom r)).erase r) with
      edges := n.graph.edges.eraseIdx i, edge := renumber 0 (n.graph.edges.eraseIdx i) n.graph.edge } ∧
      g3.edges = n.graph.edges.eraseIdx i ∧ g3.nodes = n.graph.nodes ∧ g3.fresh = n.graph.fresh ∧ g3.reversed = n.graph.reversed ∧
      g3.edge = renumber 0 (n.graph.edges.eraseIdx i) n.graph.edge ∧
      (∀ r', g3.nodeFrom r' = n.graph.nodeFrom r' ∧ g3.nodeTo r' = n.graph.nodeTo r') ∧
      (∀ w, g3.outgoing w = if w = n.graph.nodeFrom r then (n.graph.outgoing (n.graph.nodeFrom r)).erase r else n.graph.outgoing w) ∧
      (∀ w, g3.incoming w = if w = n.graph.nodeTo r then (n.graph.incoming (n.graph.nodeTo r)).erase r else n.graph.incoming w) := by
    refine ⟨_, rfl, rfl, rfl, rfl, rfl, rfl, ?_, ?_, ?_⟩
    · intro r'
      constructor
      · show (if n.graph.reversed then (renumber 0 _ n.graph.edge r').head else (renumber 0 _ n.graph.edge r').tail) = _
        rw [hnf, hnt]; rfl
      · show (if n.graph.reversed then (renumber 0 _ n.graph.edge r').tail else (renumber 0 _ n.graph.edge r').head) = _
        rw [hnf, hnt]; rfl
    · intro w
      show ((n.graph.setIncoming (n.graph.nodeTo r) ((n.graph.incoming (n.graph.nodeTo r)).erase r)).setOutgoing
        (n.graph.nodeFrom r) ((n.graph.outgoing (n.graph.nodeFrom r)).erase r)).outgoing w = _
      rw [outgoing_setOutgoing, outgoing_setIncoming]
    · intro w
      show ((n.graph.setIncoming (n.graph.nodeTo r) ((n.graph.incoming (n.graph.nodeTo r)).erase r)).setOutgoing
        (n.graph.nodeFrom r) ((n.graph.outgoing (n.graph.nodeFrom r)).erase r)).incoming w = _
      rw [incoming_setOutgoing, incoming_setIncoming]
  obtain ⟨g3, hg, c1, c2, c3, c4, c5, c6, c7, c8⟩ := hdef
  refine ⟨{ n with graph := g3, capacity := n.capacity.eraseIdx i, travelTime := n.travelTime.eraseIdx i }, by rw [hg]; rfl, ?_, c1, rfl, rfl, c4, c6, c2, rfl, c3, fun r' => by
    rw [c5]; exact hends r'⟩
  refine ⟨by rw [c2]; exact h.nodes, by rw [c1]; exact hnod, ?_, ?_, ?_, ?_, ?_⟩
  · intro r' hr'
    rw [c1] at hr'; rw [c3]; exact h.known r' (hperm r' hr')
  · intro r' hr'
    rw [c1] at hr'
    rw [(c6 r').1, (c6 r').2, c2]
    exact h.ends r' (hperm r' hr')
  · intro v hv
    rw [c2] at hv
    rw [c7, c1, hout' v hv]
    exact List.filter_congr (fun r' _ => by rw [(c6 r').1])
  · intro v hv
    rw [c2] at hv
    rw [c8, c1, hinc' v hv]
    exact List.filter_congr (fun r' _ => by rw [(c6 r').2])
  · intro j hj
    have hget : g3.edges[j] = (n.graph.edges.eraseIdx i)[j]'(by rw [← c1]; exact hj) := by simp only [c1]
    have := renumber_id _ 0 n.graph.edge hnod j (by rw [← c1]; exact hj)
    rw [hget, c5, this]; omega

end Network
end Verif
