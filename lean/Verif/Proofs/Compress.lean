import Verif.Proofs.GraphRun
import Mathlib.Algebra.Order.Ring.Rat

/-! The clean-up functions of networks without commodities. -/

namespace Verif
open Verif.Spec
namespace Network
open Graph
variable {P : Type}

theorem holds_get {n : Network P} {l : List Road} {b : Bool} (h : Holds n l b) {i : Nat} (hi : i < l.length) :
    ∃ he : i < n.graph.edges.length, (n.graph.edge n.graph.edges[i]).tail = l[i].tail ∧
      (n.graph.edge n.graph.edges[i]).head = l[i].head ∧ rd n.capacity i = .ok l[i].capacity ∧
      rd n.travelTime i = .ok l[i].travelTime ∧ (n.graph.edge n.graph.edges[i]).id = i := by
  have he : i < n.graph.edges.length := by rw [holds_len h]; exact hi
  have hp : (pairs n.graph)[i]? = (l.map (fun r => (r.tail, r.head)))[i]? := by rw [h.pairs]
  unfold Spec.pairs at hp
  rw [List.getElem?_map, List.getElem?_map, List.getElem?_eq_getElem he, List.getElem?_eq_getElem hi] at hp
  simp only [Option.map_some, Option.some.injEq, Prod.mk.injEq] at hp
  refine ⟨he, hp.1, hp.2, ?_, ?_, h.graph.ids i he⟩
  · rw [rd_eq_ok, h.cap, List.getElem?_map, List.getElem?_eq_getElem hi]; rfl
  · rw [rd_eq_ok, h.time, List.getElem?_map, List.getElem?_eq_getElem hi]; rfl

theorem remove_holds {n : Network P} {l : List Road} {b : Bool} (h : Holds n l b) {i : Nat} (hi : i < l.length) :
    ∃ (he : i < n.graph.edges.length) (n' : Network P), n.removeEdge n.graph.edges[i] = .ok n' ∧
      Holds n' (l.eraseIdx i) b ∧ n'.graph.nodes = n.graph.nodes ∧ n'.commodities = n.commodities ∧
      n'.graph.edges = n.graph.edges.eraseIdx i ∧
      (∀ r, n'.graph.nodeFrom r = n.graph.nodeFrom r ∧ n'.graph.nodeTo r = n.graph.nodeTo r) := by
  have he : i < n.graph.edges.length := by rw [holds_len h]; exact hi
  obtain ⟨n', h1, h2, h3, h4, h5, h6, h7, h8, h9, h10, h11⟩ := removeEdge_spec h.graph
      (by rw [h.cap, (holds_len h)]; simp) (by rw [h.time, (holds_len h)]; simp) he
  refine ⟨he, n', h1, ⟨h2, by rw [h6, h.rev], ?_, ?_, ?_⟩, h8, h9, h3, h7⟩
  · unfold Spec.pairs
    rw [h3]
    simp only [h11]
    rw [map_eraseIdx', map_eraseIdx', ← h.pairs]; rfl
  · rw [h4, h.cap]; simp only [map_eraseIdx']
  · rw [h5, h.time]; simp only [map_eraseIdx']

theorem add_holds {n : Network P} {l : List Road} (h : Holds n l false) (r : Road) :
    Holds (n.addEdge r.tail r.head r.travelTime r.capacity) (l ++ [r]) false := by
  obtain ⟨n', h1, h2, _⟩ := step_spec (os := []) h (o := .add r) ⟨rfl, trivial⟩
  simp only [stepNet, Except.ok.injEq] at h1
  rw [h1]; exact h2

theorem mem_eraseIdx_of {l : List Road} {i : Nat} (hi : i < l.length) {r : Road} (hr : r ∈ l) (hne : r ≠ l[i]) :
    r ∈ l.eraseIdx i := by
  rw [List.mem_eraseIdx_iff_getElem]
  obtain ⟨j, hj, rfl⟩ := List.getElem_of_mem hr
  exact ⟨j, hj, fun e => hne (by subst e; rfl), rfl⟩

/-- Replacing the roads through one node. -/
structure Bypass (l l' : List Road) (v : Nat) : Prop where
  old : ∀ r ∈ l', (r ∈ l ∧ r.tail ≠ v ∧ r.head ≠ v) ∨ ∃ r1 ∈ l, ∃ r2 ∈ l, r1.head = v ∧ r2.tail = v ∧ r1.tail ≠ r2.head ∧
    r = ⟨r1.tail, r2.head, r1.travelTime + r2.travelTime, min r1.capacity r2.capacity⟩
  keep : ∀ r ∈ l, r.tail ≠ v → r.head ≠ v → r ∈ l'
  thru : ∀ r1 ∈ l, ∀ r2 ∈ l, r1.head = v → r2.tail = v → r1.tail = r2.head ∨
    (⟨r1.tail, r2.head, r1.travelTime + r2.travelTime, min r1.capacity r2.capacity⟩ : Road) ∈ l'

theorem Bypass.expand {l l' : List Road} {v : Nat} (h : Bypass l l' v) {c t : ℚ} {a b : Nat} (w : Walk l' c a b t) : Walk l c a b t := by
  induction w with
  | nil a => exact .nil a
  | cons r hr hc _ ih =>
    rcases h.old r hr with ⟨h1, _⟩ | ⟨r1, h1, r2, h2, e1, e2, _, rfl⟩
    · exact .cons r h1 hc ih
    · simp only [le_min_iff] at hc
      have w2 := Walk.cons r2 h2 hc.2 ih
      rw [e2, ← e1] at w2
      have := Walk.cons r1 h1 hc.1 w2
      rw [← add_assoc] at this
      exact this

theorem Bypass.shrink {l l' : List Road} {v : Nat} (h : Bypass l l' v) (hloop : ∀ r ∈ l, r.tail ≠ r.head)
    (hpos : ∀ r ∈ l, 0 ≤ r.travelTime) {c t : ℚ} {a b : Nat} (w : Walk l c a b t) : b ≠ v →
    (a ≠ v → ∃ t' ≤ t, Walk l' c a b t') ∧
    (a = v → ∀ r1 ∈ l, r1.head = v → c ≤ r1.capacity → ∃ t' ≤ r1.travelTime + t, Walk l' c r1.tail b t') := by
  induction w with
  | nil a => intro hb; exact ⟨fun _ => ⟨0, le_refl _, .nil a⟩, fun ha => absurd ha hb⟩
  | cons r hr hc _ ih =>
    intro hb
    obtain ⟨ih1, ih2⟩ := ih hb
    constructor
    · intro ha
      by_cases hv : r.head = v
      · exact ih2 hv r hr hv hc
      · obtain ⟨t', h1, h2⟩ := ih1 hv
        exact ⟨_, by linarith, .cons r (h.keep r hr ha hv) hc h2⟩
    · intro ha r1 hr1 e1 c1
      have hv : r.head ≠ v := fun e => hloop r hr (ha.trans e.symm)
      obtain ⟨t', h1, h2⟩ := ih1 hv
      rcases h.thru r1 hr1 r hr e1 ha with e | hm
      · exact ⟨t', by have := hpos r1 hr1; have := hpos r hr; linarith, by rw [e]; exact h2⟩
      · have w := Walk.cons (c := c) _ hm (le_min c1 hc) h2
        exact ⟨r1.travelTime + r.travelTime + t', by linarith, w⟩

theorem Bypass.away {l l' : List Road} {v : Nat} (h : Bypass l l' v) (hloop : ∀ r ∈ l, r.tail ≠ r.head) :
    ∀ r ∈ l', r.tail ≠ v ∧ r.head ≠ v := by
  intro r hr
  rcases h.old r hr with ⟨_, h1⟩ | ⟨r1, h1, r2, h2, e1, e2, _, rfl⟩
  · exact h1
  · exact ⟨fun e => hloop r1 h1 (e.trans e1.symm), fun e => hloop r2 h2 (e2.trans e.symm)⟩

theorem Bypass.props {l l' : List Road} {v : Nat} (h : Bypass l l' v) (hloop : ∀ r ∈ l, r.tail ≠ r.head)
    (hpos : ∀ r ∈ l, 0 ≤ r.travelTime) : (∀ r ∈ l', r.tail ≠ r.head) ∧ (∀ r ∈ l', 0 ≤ r.travelTime) := by
  constructor
  · intro r hr
    rcases h.old r hr with ⟨h1, _⟩ | ⟨r1, h1, r2, h2, e1, e2, e3, rfl⟩
    · exact hloop r h1
    · exact e3
  · intro r hr
    rcases h.old r hr with ⟨h1, _⟩ | ⟨r1, h1, r2, h2, e1, e2, e3, rfl⟩
    · exact hpos r h1
    · exact add_nonneg (hpos r1 h1) (hpos r2 h2)

theorem unique_index {n : Network P} {l : List Road} (h : Holds n l false) {f : Nat → Nat} {k : Road → Nat}
    (hf : ∀ (i : Nat) (hi : i < l.length) (he : i < n.graph.edges.length), f n.graph.edges[i] = k l[i]) {v : Nat}
    (hlen : (n.graph.edges.filter (fun r => f r = v)).length = 1) :
    ∃ (i : Nat) (hi : i < l.length) (he : i < n.graph.edges.length), n.graph.edges.filter (fun r => f r = v) = [n.graph.edges[i]] ∧
      k l[i] = v ∧ ∀ (j : Nat) (hj : j < l.length), k l[j] = v → j = i := by
  obtain ⟨e, he⟩ := List.length_eq_one_iff.mp hlen
  have hm : e ∈ n.graph.edges.filter (fun r => f r = v) := by rw [he]; simp
  rw [List.mem_filter] at hm
  obtain ⟨i, hi, hie⟩ := List.getElem_of_mem hm.1
  have hi' : i < l.length := by rw [← holds_len h]; exact hi
  have hfe : f e = v := by simpa using hm.2
  refine ⟨i, hi', hi, by rw [he, hie], by rw [← hf i hi' hi, hie, hfe], ?_⟩
  intro j hj hk
  have hj' : j < n.graph.edges.length := by rw [holds_len h]; exact hj
  have : n.graph.edges[j] ∈ n.graph.edges.filter (fun r => f r = v) := by
    rw [List.mem_filter]; exact ⟨List.getElem_mem hj', by simp [hf j hj hj', hk]⟩
  rw [he, List.mem_singleton, ← hie] at this
  exact (List.Nodup.getElem_inj_iff h.graph.edges).mp this

theorem compressStep_spec {n : Network P} {l : List Road} (h : Holds n l false) (hcom : n.commodities = [])
    (hloop : ∀ r ∈ l, r.tail ≠ r.head) {v : Nat} (hv : v ∈ n.graph.nodes) :
    (n.compressStep v = .ok (n, false)) ∨
    ∃ n' l', n.compressStep v = .ok (n', true) ∧ Holds n' l' false ∧ n'.commodities = [] ∧
      (∀ w, w ∈ n'.graph.nodes ↔ w ∈ n.graph.nodes) ∧ Bypass l l' v := by
  unfold compressStep
  by_cases hc : (n.graph.outgoing v).length = 1 ∧ (n.graph.incoming v).length = 1
  · right
    rw [if_pos hc, hcom]
    simp only [allDiffer, ok_bind, if_true]
    have hnf : ∀ r, n.graph.nodeFrom r = (n.graph.edge r).tail := by intro r; unfold nodeFrom; simp [h.rev]
    have hnt : ∀ r, n.graph.nodeTo r = (n.graph.edge r).head := by intro r; unfold nodeTo; simp [h.rev]
    obtain ⟨i1, l1, m1, f1, k1, u1⟩ := unique_index h (f := n.graph.nodeTo) (k := Road.head)
      (fun i hi he => by obtain ⟨_, _, a, _⟩ := holds_get h hi; rw [hnt, a]) (v := v) (by rw [← h.graph.inc v hv]; exact hc.2)
    obtain ⟨i2, l2, m2, f2, k2, u2⟩ := unique_index h (f := n.graph.nodeFrom) (k := Road.tail)
      (fun i hi he => by obtain ⟨_, a, _⟩ := holds_get h hi; rw [hnf, a]) (v := v) (by rw [← h.graph.out v hv]; exact hc.1)
    rw [h.graph.inc v hv, f1, h.graph.out v hv, f2]
    obtain ⟨_, a1, a2, a3, a4, a5⟩ := holds_get h l1
    obtain ⟨_, b1, b2, b3, b4, b5⟩ := holds_get h l2
    simp only [rd, List.getElem?_cons_zero, ok_bind]
    simp only [rd] at a3 a4 b3 b4
    rw [a5, b5, a4, ok_bind, b4, ok_bind, a3, ok_bind, b3, ok_bind]
    obtain ⟨_, n1, r1, r2, r3, r4, r5, r6⟩ := remove_holds h l1
    rw [r1, ok_bind]
    have hne : i1 ≠ i2 := by
      rintro rfl
      exact hloop l[i1] (List.getElem_mem l1) (k2.trans k1.symm)
    -- the second edge in the new list
    have hm2 : n.graph.edges[i2] ∈ n1.graph.edges := by
      rw [r5, List.mem_eraseIdx_iff_getElem]
      exact ⟨i2, m2, fun e => hne e.symm, rfl⟩
    obtain ⟨j, hj, hje⟩ := List.getElem_of_mem hm2
    have hj' : j < (l.eraseIdx i1).length := by rw [← holds_len r2]; exact hj
    obtain ⟨_, n2, s1, s2, s3, s4, s5, s6⟩ := remove_holds r2 hj'
    rw [hje] at s1
    rw [s1, ok_bind]
    have hjl : (l.eraseIdx i1)[j] = l[i2] := by
      have hp : n1.graph.edges[j] = n.graph.edges[i2] := hje
      have : ∀ (q : Nat) (hq : q < l.length) (hq' : q < n.graph.edges.length), n.graph.edges[q] = n.graph.edges[i2] → l[q] = l[i2] := by
        intro q hq hq' e
        have := (List.Nodup.getElem_inj_iff h.graph.edges).mp e
        subst this; rfl
      simp only [r5] at hp
      rw [List.getElem_eraseIdx] at hp ⊢
      split
      · rename_i c
        rw [dif_pos c] at hp
        exact this j _ _ hp
      · rename_i c
        rw [dif_neg c] at hp
        exact this (j + 1) _ _ hp
    have hl2 : ∀ r, r ∈ (l.eraseIdx i1).eraseIdx j ↔ r ∈ l ∧ r.tail ≠ v ∧ r.head ≠ v := by
      intro r
      constructor
      · intro hr
        have hr1 := List.mem_of_mem_eraseIdx hr
        have hr0 := List.mem_of_mem_eraseIdx hr1
        refine ⟨hr0, fun e => ?_, fun e => ?_⟩
        · -- position of r in l is i2, so in l.eraseIdx i1 it is j
          rw [List.mem_eraseIdx_iff_getElem] at hr
          obtain ⟨q, hq, hqj, hqe⟩ := hr
          have hpos : ∀ (x : Nat) (hx : x < (l.eraseIdx i1).length), (l.eraseIdx i1)[x].tail = v →
              (if x < i1 then x else x + 1) = i2 := by
            intro x hx ht
            have hx' : x < l.length - 1 := by rw [List.length_eraseIdx] at hx; simpa [l1] using hx
            rw [List.getElem_eraseIdx] at ht
            split
            · rename_i c; rw [dif_pos c] at ht; exact u2 _ _ ht
            · rename_i c; rw [dif_neg c] at ht; exact u2 _ _ ht
          have e1 := hpos q hq (by rw [hqe]; exact e)
          have e2 := hpos j hj' (by rw [hjl]; exact k2)
          apply hqj
          split at e1 <;> split at e2 <;> omega
        · rw [List.mem_eraseIdx_iff_getElem] at hr1
          obtain ⟨q, hq, hqj, hqe⟩ := hr1
          exact hqj (u1 q hq (by rw [hqe]; exact e))
      · rintro ⟨hr, ht, hh⟩
        have h1 : r ∈ l.eraseIdx i1 := mem_eraseIdx_of l1 hr (fun e => hh (by rw [e]; exact k1))
        exact mem_eraseIdx_of hj' h1 (fun e => ht (by rw [e, hjl]; exact k2))
    have hF : n2.graph.nodeFrom n.graph.edges[i1] = l[i1].tail := by rw [(s6 _).1, (r6 _).1, hnf, a1]
    have hT : n2.graph.nodeTo n.graph.edges[i2] = l[i2].head := by rw [(s6 _).2, (r6 _).2, hnt, b2]
    have only1 : ∀ r ∈ l, r.head = v → r = l[i1] := by
      intro r hr e
      obtain ⟨q, hq, rfl⟩ := List.getElem_of_mem hr
      have := u1 q hq e; subst this; rfl
    have only2 : ∀ r ∈ l, r.tail = v → r = l[i2] := by
      intro r hr e
      obtain ⟨q, hq, rfl⟩ := List.getElem_of_mem hr
      have := u2 q hq e; subst this; rfl
    rw [hF, hT]
    by_cases hd : l[i1].tail ≠ l[i2].head
    · rw [if_pos hd]
      refine ⟨_, _, rfl, add_holds s2 ⟨l[i1].tail, l[i2].head, l[i1].travelTime + l[i2].travelTime, min l[i1].capacity l[i2].capacity⟩,
        ?_, ?_, ⟨?_, ?_, ?_⟩⟩
      · show n2.commodities = []
        rw [s4, r4, hcom]
      · intro w
        show w ∈ (n2.graph.addEdge _ _).nodes ↔ _
        rw [(addEdge_spec s2.graph s2.rev _ _).2.2.2.2.2 w, s3, r3]
        have q1 := (h.graph.ends _ (List.getElem_mem m1)).1
        have q2 := (h.graph.ends _ (List.getElem_mem m2)).2
        rw [hnf, a1] at q1
        rw [hnt, b2] at q2
        constructor
        · rintro (hw | rfl | rfl)
          · exact hw
          · exact q1
          · exact q2
        · exact Or.inl
      · intro r hr
        rw [List.mem_append, List.mem_singleton] at hr
        rcases hr with hr | hr
        · exact Or.inl ((hl2 r).mp hr)
        · exact Or.inr ⟨_, List.getElem_mem l1, _, List.getElem_mem l2, k1, k2, hd, hr⟩
      · intro r hr ht hh
        exact List.mem_append_left _ ((hl2 r).mpr ⟨hr, ht, hh⟩)
      · intro r1 h1 r2 h2 e1 e2
        rw [only1 r1 h1 e1, only2 r2 h2 e2]
        right; simp
    · rw [if_neg hd]
      refine ⟨_, _, rfl, s2, by rw [s4, r4, hcom], fun w => by rw [s3, r3], ⟨?_, ?_, ?_⟩⟩
      · intro r hr
        exact Or.inl ((hl2 r).mp hr)
      · intro r hr ht hh
        exact (hl2 r).mpr ⟨hr, ht, hh⟩
      · intro r1 h1 r2 h2 e1 e2
        rw [only1 r1 h1 e1, only2 r2 h2 e2]
        left; simpa using hd
  · left
    rw [if_neg hc]; rfl

theorem compressLoop_spec (vs : List Nat) : ∀ {n : Network P} {l : List Road} (rem : List Nat), Holds n l false →
    n.commodities = [] → (∀ r ∈ l, r.tail ≠ r.head) → (∀ r ∈ l, 0 ≤ r.travelTime) → (∀ v ∈ vs, v ∈ n.graph.nodes) →
    vs.Nodup → rem.Nodup → (∀ v ∈ vs, v ∉ rem) → (∀ v ∈ rem, v ∈ n.graph.nodes ∧ ∀ r ∈ l, r.tail ≠ v ∧ r.head ≠ v) →
    ∃ n' l' rem', compressLoop vs n rem = .ok (n', rem') ∧ Holds n' l' false ∧ rem'.Nodup ∧ n'.commodities = [] ∧
      (∀ w, w ∈ n'.graph.nodes ↔ w ∈ n.graph.nodes) ∧ (∀ v ∈ rem, v ∈ rem') ∧
      (∀ v ∈ rem', v ∈ n'.graph.nodes ∧ ∀ r ∈ l', r.tail ≠ v ∧ r.head ≠ v) ∧
      ∀ c a b, a ∉ rem' → b ∉ rem' →
        (∀ t, Walk l' c a b t → Walk l c a b t) ∧ (∀ t, Walk l c a b t → ∃ t' ≤ t, Walk l' c a b t') := by
  induction vs with
  | nil =>
    intro n l rem h hcom hloop hpos hvs _ hrem _ hr
    exact ⟨n, l, rem, rfl, h, hrem, hcom, fun w => Iff.rfl, fun _ h => h, hr, fun c a b _ _ => ⟨fun t w => w, fun t w => ⟨t, le_refl _, w⟩⟩⟩
  | cons v vs ih =>
    intro n l rem h hcom hloop hpos hvs hnd hrem hdis hr
    rw [List.nodup_cons] at hnd
    rcases compressStep_spec h hcom hloop (hvs v (by simp)) with hs | ⟨n1, l1, hs, h1, c1, w1, by1⟩
    · obtain ⟨n', l', rem', k1, k2⟩ := ih rem h hcom hloop hpos (fun x hx => hvs x (by simp [hx])) hnd.2 hrem
        (fun x hx => hdis x (by simp [hx])) hr
      refine ⟨n', l', rem', ?_, k2⟩
      unfold compressLoop
      rw [hs, ok_bind]
      simpa using k1
    · obtain ⟨q1, q2⟩ := by1.props hloop hpos
      have hav := by1.away hloop
      obtain ⟨n', l', rem', k1, k2, k3, k4, k5, k6, k7, k8⟩ := ih (rem ++ [v]) h1 c1 q1 q2
        (fun x hx => (w1 x).mpr (hvs x (by simp [hx]))) hnd.2
        (by
          rw [List.nodup_append]
          refine ⟨hrem, by simp, ?_⟩
          intro a ha b hb e
          simp at hb; subst hb; subst e
          exact hdis _ (by simp) ha)
        (by
          intro x hx hm
          rw [List.mem_append, List.mem_singleton] at hm
          rcases hm with hm | rfl
          · exact hdis x (by simp [hx]) hm
          · exact hnd.1 hx)
        (by
          intro x hx
          rw [List.mem_append, List.mem_singleton] at hx
          rcases hx with hx | rfl
          · obtain ⟨p1, p2⟩ := hr x hx
            refine ⟨(w1 x).mpr p1, fun r hr' => ?_⟩
            rcases by1.old r hr' with ⟨m, _⟩ | ⟨r1, m1, r2, m2, _, _, _, rfl⟩
            · exact p2 r m
            · exact ⟨(p2 r1 m1).1, (p2 r2 m2).2⟩
          · exact ⟨(w1 x).mpr (hvs x (by simp)), fun r hr' => hav r hr'⟩)
      refine ⟨n', l', rem', ?_, k2, k3, k4, fun w => (k5 w).trans (w1 w), fun x hx => k6 x (by simp [hx]), k7, ?_⟩
      · unfold compressLoop
        rw [hs, ok_bind]
        simpa using k1
      · intro c a b ha hb
        obtain ⟨m1, m2⟩ := k8 c a b ha hb
        have hva : a ≠ v := fun e => ha (k6 a (by simp [e]))
        have hvb : b ≠ v := fun e => hb (k6 b (by simp [e]))
        refine ⟨fun t w => by1.expand (m1 t w), fun t w => ?_⟩
        obtain ⟨t1, e1, w1'⟩ := (by1.shrink hloop hpos w hvb).1 hva
        obtain ⟨t2, e2, w2'⟩ := m2 t1 w1'
        exact ⟨t2, le_trans e2 e1, w2'⟩

theorem consistent_pop {g : Graph} (h : Consistent g) {v : Nat} (hv : ∀ r ∈ g.edges, g.nodeFrom r ≠ v ∧ g.nodeTo r ≠ v) :
    Consistent { g with nodes := g.nodes.erase v } := by
  refine ⟨h.nodes.erase v, h.edges, h.known, ?_, fun w hw => h.out w (List.mem_of_mem_erase hw), fun w hw => h.inc w (List.mem_of_mem_erase hw), h.ids⟩
  intro r hr
  obtain ⟨a, b⟩ := h.ends r hr
  exact ⟨(List.mem_erase_of_ne (hv r hr).1).mpr a, (List.mem_erase_of_ne (hv r hr).2).mpr b⟩

theorem holds_pop {n : Network P} {l : List Road} {b : Bool} (h : Holds n l b) {v : Nat} (hv : ∀ r ∈ l, r.tail ≠ v ∧ r.head ≠ v) :
    Holds { n with graph := { n.graph with nodes := n.graph.nodes.erase v } } l b := by
  refine ⟨consistent_pop h.graph ?_, h.rev, h.pairs, h.cap, h.time⟩
  intro r hr
  have : ((n.graph.edge r).tail, (n.graph.edge r).head) ∈ pairs n.graph := List.mem_map.mpr ⟨r, hr, rfl⟩
  rw [h.pairs, List.mem_map] at this
  obtain ⟨q, hq, e⟩ := this
  simp only [Prod.mk.injEq] at e
  have hq' := hv q hq
  rw [e.1, e.2] at hq'
  unfold nodeFrom nodeTo
  cases n.graph.reversed
  · exact hq'
  · exact hq'.symm

theorem popNodes_spec (vs : List Nat) : ∀ {n : Network P} {l : List Road} {b : Bool}, Holds n l b → vs.Nodup →
    (∀ v ∈ vs, v ∈ n.graph.nodes ∧ ∀ r ∈ l, r.tail ≠ v ∧ r.head ≠ v) →
    ∃ n', popNodes vs n = .ok n' ∧ Holds n' l b ∧ n'.commodities = n.commodities ∧
      ∀ w, w ∈ n'.graph.nodes ↔ w ∈ n.graph.nodes ∧ w ∉ vs := by
  induction vs with
  | nil => intro n l b h _ _; exact ⟨n, rfl, h, rfl, fun w => by simp⟩
  | cons v vs ih =>
    intro n l b h hn hv
    rw [List.nodup_cons] at hn
    have hv0 := hv v (by simp)
    obtain ⟨n', k1, k2, k3, k4⟩ := ih (holds_pop h hv0.2) hn.2 (fun x hx =>
      ⟨(List.mem_erase_of_ne (fun e => hn.1 (by rw [← e]; exact hx))).mpr (hv x (by simp [hx])).1, (hv x (by simp [hx])).2⟩)
    refine ⟨n', ?_, k2, k3, fun w => ?_⟩
    · unfold popNodes popNode
      rw [if_pos hv0.1, ok_bind]; exact k1
    · rw [k4]
      show w ∈ n.graph.nodes.erase v ∧ _ ↔ _
      rw [h.graph.nodes.mem_erase_iff]
      simp only [List.mem_cons, not_or]
      tauto

theorem compress_spec {n : Network P} {l : List Road} (h : Holds n l false) (hcom : n.commodities = [])
    (hloop : ∀ r ∈ l, r.tail ≠ r.head) (hpos : ∀ r ∈ l, 0 ≤ r.travelTime) :
    ∃ n' l', n.compressLonelyNodes = .ok n' ∧ Holds n' l' false ∧ n'.commodities = [] ∧
      (∀ w ∈ n'.graph.nodes, w ∈ n.graph.nodes) ∧
      ∀ a ∈ n'.graph.nodes, ∀ b ∈ n'.graph.nodes, ∀ c,
        (∀ t, Walk l' c a b t → Walk l c a b t) ∧ (∀ t, Walk l c a b t → ∃ t' ≤ t, Walk l' c a b t') := by
  obtain ⟨n1, l', rem, k1, k2, k3, k4, k5, _, k7, k8⟩ := compressLoop_spec n.graph.nodes [] h hcom hloop hpos
    (fun _ h => h) h.graph.nodes (by simp) (by simp) (by simp)
  obtain ⟨n', p1, p2, p3, p4⟩ := popNodes_spec rem k2 k3 k7
  refine ⟨n', l', ?_, p2, p3.trans k4, fun w hw => (k5 w).mp ((p4 w).mp hw).1, fun a ha b hb c => ?_⟩
  · unfold compressLonelyNodes; rw [k1, ok_bind]; exact p1
  · exact k8 c a b ((p4 a).mp ha).2 ((p4 b).mp hb).2

/-- A list of edges is removed. -/
theorem removeEdges_spec (rs : List Nat) : ∀ {n : Network P} {l : List Road} {b : Bool}, Holds n l b → rs.Nodup →
    (∀ r ∈ rs, r ∈ n.graph.edges) →
    ∃ n' l', removeEdges rs n = .ok n' ∧ Holds n' l' b ∧ n'.commodities = n.commodities ∧ n'.graph.nodes = n.graph.nodes ∧
      (∀ r, r ∈ n'.graph.edges ↔ r ∈ n.graph.edges ∧ r ∉ rs) ∧ (∀ r ∈ l', r ∈ l) ∧
      (∀ r, n'.graph.nodeFrom r = n.graph.nodeFrom r ∧ n'.graph.nodeTo r = n.graph.nodeTo r) := by
  induction rs with
  | nil => intro n l b h _ _; exact ⟨n, l, rfl, h, rfl, rfl, fun r => by simp, fun _ h => h, fun _ => ⟨rfl, rfl⟩⟩
  | cons r rs ih =>
    intro n l b h hn hm
    rw [List.nodup_cons] at hn
    obtain ⟨i, hi, hie⟩ := List.getElem_of_mem (hm r (by simp))
    obtain ⟨_, n1, a1, a2, a3, a4, a5, a6⟩ := remove_holds h (i := i) (by rw [← holds_len h]; exact hi)
    rw [hie] at a1
    have hmem : ∀ x, x ∈ n1.graph.edges ↔ x ∈ n.graph.edges ∧ x ≠ r := by
      intro x
      rw [a5, ← h.graph.edges.erase_getElem i hi, hie, h.graph.edges.mem_erase_iff]
      tauto
    obtain ⟨n', l', k1, k2, k3, k4, k5, k6, k7⟩ := ih a2 hn.2 (fun x hx => (hmem x).mpr
      ⟨hm x (by simp [hx]), fun e => hn.1 (by rw [← e]; exact hx)⟩)
    refine ⟨n', l', ?_, k2, k3.trans a4, k4.trans a3, fun x => ?_, fun x hx => List.mem_of_mem_eraseIdx (k6 x hx), fun x => ?_⟩
    · unfold removeEdges; rw [a1, ok_bind]; exact k1
    · rw [k5, hmem]; simp only [List.mem_cons, not_or]; tauto
    · rw [(k7 x).1, (k7 x).2]; exact a6 x

theorem ends_roads {n : Network P} {l : List Road} {b : Bool} (h : Holds n l b) {v : Nat}
    (hv : ∀ r ∈ n.graph.edges, n.graph.nodeFrom r ≠ v ∧ n.graph.nodeTo r ≠ v) : ∀ r ∈ l, r.tail ≠ v ∧ r.head ≠ v := by
  intro r hr
  obtain ⟨i, hi, rfl⟩ := List.getElem_of_mem hr
  obtain ⟨he, a, b', _⟩ := holds_get h hi
  have := hv _ (List.getElem_mem he)
  unfold nodeFrom nodeTo at this
  rw [a, b'] at this
  cases hrev : n.graph.reversed
  · simpa [hrev] using this
  · have := this.symm; simpa [hrev] using this

theorem removeNodes_spec (vs : List Nat) : ∀ {n : Network P} {l : List Road} {b : Bool}, Holds n l b → vs.Nodup →
    (∀ v ∈ vs, v ∈ n.graph.nodes) →
    ∃ n' l', removeNodes vs n = .ok n' ∧ Holds n' l' b ∧ n'.commodities = n.commodities ∧
      (∀ w, w ∈ n'.graph.nodes ↔ w ∈ n.graph.nodes ∧ w ∉ vs) ∧ (∀ r ∈ l', r ∈ l) ∧
      (∀ r, r ∈ n'.graph.edges ↔ r ∈ n.graph.edges ∧ n.graph.nodeFrom r ∉ vs ∧ n.graph.nodeTo r ∉ vs) ∧
      (∀ r, n'.graph.nodeFrom r = n.graph.nodeFrom r ∧ n'.graph.nodeTo r = n.graph.nodeTo r) := by
  induction vs with
  | nil => intro n l b h _ _; exact ⟨n, l, rfl, h, rfl, fun w => by simp, fun _ h => h, fun r => by simp, fun _ => ⟨rfl, rfl⟩⟩
  | cons v vs ih =>
    intro n l b h hn hm
    rw [List.nodup_cons] at hn
    have hv := hm v (by simp)
    have ho := h.graph.out v hv
    obtain ⟨n1, l1, a1, a2, a3, a4, a5, a6, a7⟩ := removeEdges_spec (n.graph.outgoing v) h
      (by rw [ho]; exact h.graph.edges.filter _) (fun r hr => by rw [ho, List.mem_filter] at hr; exact hr.1)
    have hi := a2.graph.inc v (by rw [a4]; exact hv)
    obtain ⟨n2, l2, b1, b2, b3, b4, b5, b6, b7⟩ := removeEdges_spec (n1.graph.incoming v) a2
      (by rw [hi]; exact a2.graph.edges.filter _) (fun r hr => by rw [hi, List.mem_filter] at hr; exact hr.1)
    have hed : ∀ r, r ∈ n2.graph.edges ↔ r ∈ n.graph.edges ∧ n.graph.nodeFrom r ≠ v ∧ n.graph.nodeTo r ≠ v := by
      intro r
      rw [b5, hi, List.mem_filter, a5, ho, List.mem_filter]
      simp only [decide_eq_true_eq, not_and, (a7 r).2]
      tauto
    have hends : ∀ r, n2.graph.nodeFrom r = n.graph.nodeFrom r ∧ n2.graph.nodeTo r = n.graph.nodeTo r := by
      intro r; rw [(b7 r).1, (b7 r).2]; exact a7 r
    have haway : ∀ r ∈ n2.graph.edges, n2.graph.nodeFrom r ≠ v ∧ n2.graph.nodeTo r ≠ v := by
      intro r hr; rw [(hends r).1, (hends r).2]; exact ((hed r).mp hr).2
    have hp := holds_pop b2 (ends_roads b2 haway)
    obtain ⟨n', l', c1, c2, c3, c4, c5, c6, c7⟩ := ih hp hn.2 (fun x hx => by
      show x ∈ n2.graph.nodes.erase v
      rw [b4, a4]
      exact (List.mem_erase_of_ne (fun e => hn.1 (by rw [← e]; exact hx))).mpr (hm x (by simp [hx])))
    refine ⟨n', l', ?_, c2, by rw [c3]; exact b3.trans a3, fun w => ?_, fun r hr => a6 r (b6 r (c5 r hr)), fun r => ?_, fun r => ?_⟩
    · unfold removeNodes
      rw [a1, ok_bind, b1, ok_bind]
      unfold popNode
      rw [if_pos (by rw [b4, a4]; exact hv), ok_bind]; exact c1
    · rw [c4]
      show w ∈ n2.graph.nodes.erase v ∧ _ ↔ _
      rw [b4, a4, h.graph.nodes.mem_erase_iff]
      simp only [List.mem_cons, not_or]; tauto
    · rw [c6]
      show r ∈ n2.graph.edges ∧ n2.graph.nodeFrom r ∉ vs ∧ n2.graph.nodeTo r ∉ vs ↔ _
      rw [hed, (hends r).1, (hends r).2]
      simp only [List.mem_cons, not_or]; tauto
    · rw [(c7 r).1, (c7 r).2]; exact hends r

end Network
end Verif
