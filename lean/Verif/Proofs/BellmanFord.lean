import Verif.Model.BellmanFord
import Verif.Proofs.Trips
import Verif.Proofs.DijkstraBack

/-! `bellman_ford` over operations that are exact on a class of functions. -/

namespace Verif
open Verif.Spec

namespace Heap
variable {K T : Type} [LinearOrder K] [DecidableEq T]

theorem Rep.mem_sorted {h : Heap K T} {M : T → Option K} (hr : Rep h M) (x : T) : x ∈ h.sortedItems ↔ M x ≠ none := by
  obtain ⟨q, a, b⟩ := hr
  rw [a.sorted, ← b x, ← mem_iff_lookup, List.mem_map]
  have hp := (Props.C08_byKey_sorted_perm q).1
  unfold AQueue.mem
  constructor
  · rintro ⟨p, hp1, rfl⟩
    exact ⟨p.2, hp.subset hp1⟩
  · rintro ⟨k, hk⟩
    exact ⟨_, hp.symm.subset hk, rfl⟩

end Heap

namespace BF
open Dijkstra

/-- The value of `φ` at `t` is the arrival time of a trip with at most `n` edges. -/
def Short (g : Graph) (arr : Nat → ℚ → ℚ) (nodes : List Nat) (sink : Nat) (phi : ℚ) (H : WithTop ℚ) (n v : Nat) (φ : ℚ → WithTop ℚ) : Prop :=
  ∀ t (y : ℚ), phi ≤ t → φ t = (y : WithTop ℚ) → (y : WithTop ℚ) ≤ H ∧ ∃ l, l.length ≤ n ∧ Trip g arr nodes sink l v t y

/-- On the functions related to `WithTop ℚ`-valued functions by `K` (labels) and `R` (relaxations) whose values are arrival times of trips with few edges, the operations of the search are
exact from `phi` on. -/
structure Ops (g : Graph) (Ts : List PL) (nodes : List Nat) (sink : Nat) (phi : ℚ) (H : WithTop ℚ) (arr : Nat → ℚ → ℚ) (N : Nat) (K R : PL → (ℚ → WithTop ℚ) → Prop) : Prop where
  relax : ∀ p φ e, K p φ → e ∈ g.edges → g.nodeFrom e ∈ nodes → Short g arr nodes sink phi H (N - 1) (g.nodeTo e) φ →
    ∃ T h, rd Ts (g.edge e).id = .ok T ∧ relaxation T p = .ok (some h) ∧ R h (fun t => φ (arr e t))
  simp : ∀ v h φ, R h φ → Short g arr nodes sink phi H N v φ → ∃ p, h.simplify = .ok p ∧ K p φ
  cmp : ∀ v p φ h ψ, K p φ → R h ψ → Short g arr nodes sink phi H (N - 1) v φ → Short g arr nodes sink phi H N v ψ →
    ∃ b, p.smallerEquals h = .ok b ∧ (b = true ↔ ∀ t, phi ≤ t → φ t ≤ ψ t)
  least : ∀ v p φ h ψ, K p φ → R h ψ → Short g arr nodes sink phi H (N - 1) v φ → Short g arr nodes sink phi H N v ψ → ¬ (∀ t, phi ≤ t → φ t ≤ ψ t) →
    ∃ m, p.outerMinimum h = .ok m ∧ R m (fun t => min (φ t) (ψ t))
  fin : ∀ h φ, R h φ → φ phi ≠ ⊤

section
variable (g : Graph) (arr : Nat → ℚ → ℚ) (nodes : List Nat) (sink : Nat) (phi : ℚ) (H : WithTop ℚ) (K : PL → (ℚ → WithTop ℚ) → Prop)

/-- A trip such that the labels `F` of the nodes passed are not later than its arrival. -/
inductive Kept (g : Graph) (arr : Nat → ℚ → ℚ) (nodes : List Nat) (sink : Nat) (F : Nat → ℚ → WithTop ℚ) : List Nat → Nat → ℚ → ℚ → Prop
  | here (t : ℚ) : Kept g arr nodes sink F [] sink t t
  | drive {l : List Nat} {t y : ℚ} (e : Nat) (he : e ∈ g.edges) (hv : g.nodeFrom e ∈ nodes) (hF : F (g.nodeFrom e) t ≤ (y : WithTop ℚ)) (h : Kept g arr nodes sink F l (g.nodeTo e) (arr e t) y) :
      Kept g arr nodes sink F (g.nodeFrom e :: l) (g.nodeFrom e) t y

/-- State of the search: the labelled nodes are `L`, the labels stand for the functions `F`, `M` is the queue. -/
structure Inv (L : Finset Nat) (s : State) (F : Nat → ℚ → WithTop ℚ) (M : Nat → Option ℚ) : Prop where
  rep : Heap.Rep s.queue M
  sub : L ⊆ (sink :: nodes).toFinset
  sinkL : sink ∈ L
  sinkF : ∀ t : ℚ, phi ≤ t → (t : WithTop ℚ) ≤ H → F sink t ≤ (t : WithTop ℚ)
  out : ∀ v, v ∉ L → s.labels v = none ∧ ∀ t, F v t = ⊤
  lab : ∀ v ∈ L, ∃ p, s.labels v = some p ∧ K p (F v)
  dist : ∀ v ∈ L, ∃ d, s.dist v = some d
  real : ∀ v t (y : ℚ), phi ≤ t → F v t = (y : WithTop ℚ) → ∃ l, Kept g arr nodes sink F l v t y ∧ l.Nodup ∧ sink ∉ l
  mark : ∀ v, M v ≠ none → v ∈ L
  hor : ∀ v t (y : ℚ), phi ≤ t → F v t = (y : WithTop ℚ) → (y : WithTop ℚ) ≤ H
  incr : ∀ v s t, phi ≤ s → s ≤ t → F v s ≤ F v t

/-- The functions get smaller, changed nodes are marked, newly marked nodes have changed. -/
structure Prog (F : Nat → ℚ → WithTop ℚ) (M : Nat → Option ℚ) (F' : Nat → ℚ → WithTop ℚ) (M' : Nat → Option ℚ) : Prop where
  le : ∀ v t, phi ≤ t → F' v t ≤ F v t
  keep : ∀ v, M v ≠ none → M' v ≠ none
  same : ∀ v, M' v = none → ∀ t, phi ≤ t → F' v t = F v t
  new : ∀ v, M v = none → M' v ≠ none → ∃ t, phi ≤ t ∧ F' v t < F v t

variable {g arr nodes sink phi H K}

theorem Kept.trip {F : Nat → ℚ → WithTop ℚ} {l : List Nat} {v : Nat} {t y : ℚ} (h : Kept g arr nodes sink F l v t y) : Trip g arr nodes sink l v t y := by
  induction h with
  | here t => exact .here t
  | drive e he hv _ _ ih => exact .drive e he hv ih

theorem Kept.mono (hf : Fifo g phi arr) {F F' : Nat → ℚ → WithTop ℚ} {l : List Nat} {v : Nat} {t y : ℚ} (h : Kept g arr nodes sink F l v t y) (ht : phi ≤ t)
    (hle : ∀ v t, phi ≤ t → F' v t ≤ F v t) : Kept g arr nodes sink F' l v t y := by
  induction h with
  | here t => exact .here t
  | drive e he hv hF _ ih => exact .drive e he hv (le_trans (hle _ _ ht) hF) (ih (le_trans ht (hf.later e he _ ht)))

theorem Kept.mem (hf : Fifo g phi arr) {F : Nat → ℚ → WithTop ℚ} {l : List Nat} {v : Nat} {t y : ℚ} (h : Kept g arr nodes sink F l v t y) (ht : phi ≤ t) :
    ∀ u ∈ l, ∃ s, t ≤ s ∧ F u s ≤ (y : WithTop ℚ) := by
  induction h with
  | here t => intro u hu; cases hu
  | @drive l t y e he hv hF h ih =>
    intro u hu
    rcases List.mem_cons.mp hu with rfl | hu
    · exact ⟨t, le_refl _, hF⟩
    · have h1 := hf.later e he t ht
      obtain ⟨s, a, b⟩ := ih (le_trans ht h1) u hu
      exact ⟨s, le_trans h1 a, b⟩

theorem trip_nodes {l : List Nat} {v : Nat} {t y : ℚ} (h : Trip g arr nodes sink l v t y) : ∀ u ∈ l, u ∈ nodes := by
  induction h with
  | here t => intro u hu; cases hu
  | drive e he hv _ ih =>
    intro u hu
    rcases List.mem_cons.mp hu with rfl | hu
    · exact hv
    · exact ih u hu

theorem simple_length {l : List Nat} {v : Nat} {t y : ℚ} (h : Trip g arr nodes sink l v t y) (hnd : l.Nodup) (hs : sink ∉ l) : l.length < (sink :: nodes).toFinset.card := by
  have h1 : (sink :: l).Nodup := List.nodup_cons.mpr ⟨hs, hnd⟩
  have h2 : (sink :: l).toFinset ⊆ (sink :: nodes).toFinset := by
    intro u hu
    simp only [List.mem_toFinset, List.mem_cons] at hu ⊢
    exact hu.imp id (trip_nodes h u)
  have := Finset.card_le_card h2
  rw [List.toFinset_card_of_nodup h1, List.length_cons] at this
  omega

theorem Inv.short {L : Finset Nat} {s : State} {F : Nat → ℚ → WithTop ℚ} {M : Nat → Option ℚ} (h : Inv g arr nodes sink phi H K L s F M) {N : Nat} (hN : N = (sink :: nodes).toFinset.card) (v : Nat) :
    Short g arr nodes sink phi H (N - 1) v (F v) := by
  intro t y ht hy
  obtain ⟨l, h1, h2, h3⟩ := h.real v t y ht hy
  have := simple_length h1.trip h2 h3
  exact ⟨h.hor v t y ht hy, l, by omega, h1.trip⟩

theorem Prog.refl (F : Nat → ℚ → WithTop ℚ) (M : Nat → Option ℚ) : Prog phi F M F M :=
  ⟨fun _ _ _ => le_refl _, fun _ h => h, fun _ _ _ _ => rfl, fun _ h h' => absurd h h'⟩

theorem Prog.trans {F F' F'' : Nat → ℚ → WithTop ℚ} {M M' M'' : Nat → Option ℚ} (h : Prog phi F M F' M') (h' : Prog phi F' M' F'' M'') : Prog phi F M F'' M'' where
  le := fun v t ht => le_trans (h'.le v t ht) (h.le v t ht)
  keep := fun v hv => h'.keep v (h.keep v hv)
  same := fun v hv t ht => by
    have h1 : M' v = none := by
      by_contra hc
      exact h'.keep v hc hv
    rw [h'.same v hv t ht, h.same v h1 t ht]
  new := fun v h1 h2 => by
    by_cases hm : M' v = none
    · obtain ⟨t, a, b⟩ := h'.new v hm h2
      exact ⟨t, a, lt_of_lt_of_le b (h.le v t a)⟩
    · obtain ⟨t, a, b⟩ := h.new v h1 hm
      exact ⟨t, a, lt_of_le_of_lt (h'.le v t a) b⟩

theorem mark_ok {s : State} {M : Nat → Option ℚ} (hr : Heap.Rep s.queue M) {v : Nat} {d : ℚ} (hd : s.dist v = some d) :
    ∃ q M', mark s v = .ok { s with queue := q } ∧ Heap.Rep q M' ∧ M' v ≠ none ∧ ∀ u, u ≠ v → M' u = M u := by
  unfold mark
  rw [hr.has v]
  by_cases hv : M v = none
  · rw [hv]
    obtain ⟨q, h1, h2⟩ := hr.push d hv
    refine ⟨q, _, ?_, h2, by simp, fun u hu => by simp [hu]⟩
    simp only [Option.isSome_none, Bool.false_eq_true, if_false]
    rw [look_some hd, ok_bind, h1, ok_bind]
    rfl
  · have : (M v).isSome = true := by rw [Option.isSome_iff_ne_none]; exact hv
    rw [if_pos this]
    exact ⟨s.queue, M, rfl, hr, hv, fun u _ => rfl⟩

variable {Ts : List PL} {N : Nat} {R : PL → (ℚ → WithTop ℚ) → Prop}

/-- One edge. -/
theorem relaxEdge_ok (ops : Ops g Ts nodes sink phi H arr N K R) (hf : Fifo g phi arr) (hN : N = (sink :: nodes).toFinset.card) {L : Finset Nat} {s : State} {F : Nat → ℚ → WithTop ℚ} {M : Nat → Option ℚ}
    (h : Inv g arr nodes sink phi H K L s F M) {w e : Nat} (hw : w ∈ L) (he : e ∈ g.edges) (hto : g.nodeTo e = w) :
    ∃ L' s' F' M', relaxEdge g Ts nodes w e s = .ok s' ∧ Inv g arr nodes sink phi H K L' s' F' M' ∧ Prog phi F M F' M' ∧ L ⊆ L' ∧
      (g.nodeFrom e ∈ nodes → ∀ t, phi ≤ t → F' (g.nodeFrom e) t ≤ F w (arr e t)) := by
  unfold relaxEdge
  simp only
  by_cases hv : g.nodeFrom e ∈ nodes
  swap
  · rw [if_neg hv]
    exact ⟨L, s, F, M, rfl, h, Prog.refl F M, Finset.Subset.refl _, fun h => absurd h hv⟩
  rw [if_pos hv]
  have hNp : 0 < N := by rw [hN]; exact Finset.card_pos.mpr ⟨sink, by simp⟩
  obtain ⟨p, hp1, hp2⟩ := h.lab w hw
  obtain ⟨T, r, hT, hr1, hr2⟩ := ops.relax p _ e hp2 he hv (by rw [hto]; exact h.short hN w)
  rw [hT, ok_bind, look_some hp1, ok_bind, hr1, ok_bind]
  generalize hvv : g.nodeFrom e = v at *
  have hlater : ∀ t, phi ≤ t → t ≤ arr e t ∧ phi ≤ arr e t := fun t ht => ⟨hf.later e he t ht, le_trans ht (hf.later e he t ht)⟩
  have hshort : Short g arr nodes sink phi H N v (fun t => F w (arr e t)) := by
    intro t y ht hy
    obtain ⟨h1, l, h2, h3⟩ := h.short hN w _ y (hlater t ht).2 hy
    subst hvv; subst hto
    exact ⟨h1, _, by simp only [List.length_cons]; omega, .drive e he hv h3⟩
  -- the trips of the new label
  have hreal : ∀ F' : Nat → ℚ → WithTop ℚ, (∀ u t, phi ≤ t → F' u t ≤ F u t) → (∀ t, phi ≤ t → F' v t ≤ F w (arr e t)) → ∀ t (y : ℚ), phi ≤ t → F w (arr e t) = (y : WithTop ℚ) →
      F v t ≤ (y : WithTop ℚ) ∨ ∃ l, Kept g arr nodes sink F' l v t y ∧ l.Nodup ∧ sink ∉ l := by
    intro F' hle hle' t y ht hy
    obtain ⟨l, h1, h2, h3⟩ := h.real w _ y (hlater t ht).2 hy
    by_cases hs : v = sink
    · left
      have h4 : t ≤ y := le_trans (hlater t ht).1 (h1.trip.later hf (hlater t ht).2)
      have h4' : (t : WithTop ℚ) ≤ (y : WithTop ℚ) := WithTop.coe_le_coe.mpr h4
      rw [hs]
      exact le_trans (h.sinkF t ht (le_trans h4' (h.hor w _ y (hlater t ht).2 hy))) h4'
    by_cases hm : v ∈ l
    · left
      obtain ⟨s', h4, h5⟩ := h1.mem hf (hlater t ht).2 v hm
      exact le_trans (h.incr v t s' ht (le_trans (hlater t ht).1 h4)) h5
    · right
      refine ⟨v :: l, ?_, List.nodup_cons.mpr ⟨hm, h2⟩, ?_⟩
      · have h6 := h1.mono hf (hlater t ht).2 hle
        have h7 : F' v t ≤ (y : WithTop ℚ) := by rw [← hy]; exact hle' t ht
        subst hvv; subst hto
        exact .drive e he hv h7 h6
      · intro hc
        rcases List.mem_cons.mp hc with hc | hc
        · exact hs hc.symm
        · exact h3 hc
  show ∃ L' s' F' M', improve s w v r = .ok s' ∧ _
  unfold improve
  by_cases hL : v ∈ L
  · obtain ⟨gv, hgv, hK⟩ := h.lab v hL
    rw [hgv]
    simp only
    obtain ⟨b, hb1, hb2⟩ := ops.cmp v _ _ _ _ hK hr2 (h.short hN v) hshort
    rw [hb1, ok_bind]
    cases b with
    | true =>
      rw [if_pos rfl]
      exact ⟨L, s, F, M, rfl, h, Prog.refl F M, Finset.Subset.refl _, fun _ => hb2.mp rfl⟩
    | false =>
      have hnle : ¬ (∀ t, phi ≤ t → F v t ≤ F w (arr e t)) := fun hc => Bool.false_ne_true (hb2.mpr hc)
      rw [if_neg (by simp)]
      obtain ⟨d, hd⟩ := h.dist v hL
      obtain ⟨q, M', hq1, hq2, hq3, hq4⟩ := mark_ok h.rep hd
      obtain ⟨m, hm1, hm2⟩ := ops.least v _ _ _ _ hK hr2 (h.short hN v) hshort hnle
      obtain ⟨p', hp', hp''⟩ := ops.simp v _ _ hm2 (by
        intro t y ht hy
        rcases min_choice (F v t) (F w (arr e t)) with hc | hc
        · obtain ⟨a1, l, a2, a3⟩ := h.short hN v t y ht (hc.symm.trans hy)
          exact ⟨a1, l, by omega, a3⟩
        · exact hshort t y ht (hc.symm.trans hy))
      rw [hq1, ok_bind, hm1, ok_bind, hp', ok_bind]
      refine ⟨L, _, fun u => if u = v then (fun t => min (F v t) (F w (arr e t))) else F u, M', rfl, ?_, ?_, Finset.Subset.refl _, ?_⟩
      · have hle : ∀ u t, phi ≤ t → (fun u => if u = v then (fun t => min (F v t) (F w (arr e t))) else F u) u t ≤ F u t := by
          intro u t ht
          by_cases huv : u = v
          · subst huv; simp only [if_true]; exact min_le_left _ _
          · simp only [if_neg huv]; exact le_refl _
        refine ⟨hq2, h.sub, h.sinkL, fun t ht htH => le_trans (hle sink t ht) (h.sinkF t ht htH), ?_, ?_, h.dist, ?_, ?_, ?_, ?_⟩
        · intro u hu
          have huv : u ≠ v := fun e => hu (e ▸ hL)
          simp only [if_neg huv, put_ne _ _ huv]
          exact h.out u hu
        · intro u hu
          by_cases huv : u = v
          · subst huv
            simp only [if_true, put_self]
            exact ⟨p', rfl, hp''⟩
          · simp only [if_neg huv, put_ne _ _ huv]
            exact h.lab u hu
        · intro u t y ht hy
          have own : F u t = (y : WithTop ℚ) → ∃ l, Kept g arr nodes sink (fun u => if u = v then (fun t => min (F v t) (F w (arr e t))) else F u) l u t y ∧ l.Nodup ∧ sink ∉ l := by
            intro hy
            obtain ⟨l, h1, h2, h3⟩ := h.real u t y ht hy
            exact ⟨l, h1.mono hf ht hle, h2, h3⟩
          by_cases huv : u = v
          · subst huv
            simp only [if_true] at hy
            rcases le_total (F u t) (F w (arr e t)) with hc | hc
            · rw [min_eq_left hc] at hy
              exact own hy
            · rw [min_eq_right hc] at hy
              rcases hreal _ hle (fun t ht => by simp only [if_true]; exact min_le_right _ _) t y ht hy with h1 | h1
              · exact own (le_antisymm h1 (hy ▸ hc))
              · exact h1
          · simp only [if_neg huv] at hy
            exact own hy
        · intro u hu
          by_cases huv : u = v
          · subst huv; exact hL
          · rw [hq4 u huv] at hu; exact h.mark u hu
        · intro u t y ht hy
          by_cases huv : u = v
          · subst huv
            simp only [if_true] at hy
            rcases min_choice (F u t) (F w (arr e t)) with hc | hc
            · exact h.hor u t y ht (hc.symm.trans hy)
            · exact h.hor w _ y (hlater t ht).2 (hc.symm.trans hy)
          · simp only [if_neg huv] at hy
            exact h.hor u t y ht hy
        · intro u a b ha hab
          by_cases huv : u = v
          · subst huv
            simp only [if_true]
            exact min_le_min (h.incr u a b ha hab) (h.incr w _ _ (hlater a ha).2 (hf.order e he a b ha hab))
          · simp only [if_neg huv]
            exact h.incr u a b ha hab
      · refine ⟨?_, ?_, ?_, ?_⟩
        · intro u t ht
          by_cases huv : u = v
          · subst huv; simp only [if_true]; exact min_le_left _ _
          · simp only [if_neg huv]; exact le_refl _
        · intro u hu
          by_cases huv : u = v
          · subst huv; exact hq3
          · rw [hq4 u huv]; exact hu
        · intro u hu t ht
          by_cases huv : u = v
          · subst huv; exact absurd hu hq3
          · simp only [if_neg huv]
        · intro u h1 h2
          by_cases huv : u = v
          · subst huv
            simp only [if_true]
            push Not at hnle
            obtain ⟨t, ht, hlt⟩ := hnle
            exact ⟨t, ht, lt_of_le_of_lt (min_le_right _ _) hlt⟩
          · rw [hq4 u huv] at h2; exact absurd h1 h2
      · intro _ t ht
        simp only [if_true]
        exact min_le_right _ _
  · obtain ⟨hn, htop⟩ := h.out v hL
    rw [hn]
    simp only
    obtain ⟨d, hd⟩ := h.dist w hw
    rw [look_some hd, ok_bind]
    obtain ⟨q, M', hq1, hq2, hq3, hq4⟩ := mark_ok (s := { s with dist := put s.dist v (d + 1) }) h.rep (put_self _ _ _)
    obtain ⟨p', hp', hp''⟩ := ops.simp v _ _ hr2 hshort
    rw [hq1, ok_bind, hp', ok_bind]
    have hsub : insert v L ⊆ (sink :: nodes).toFinset := by
      intro u hu
      rcases Finset.mem_insert.mp hu with rfl | hu
      · simp [hv]
      · exact h.sub hu
    refine ⟨insert v L, _, fun u => if u = v then (fun t => F w (arr e t)) else F u, M', rfl, ?_, ?_, Finset.subset_insert _ _, ?_⟩
    · have hle : ∀ u t, phi ≤ t → (fun u => if u = v then (fun t => F w (arr e t)) else F u) u t ≤ F u t := by
        intro u t ht
        by_cases huv : u = v
        · subst huv; rw [htop]; exact le_top
        · simp only [if_neg huv]; exact le_refl _
      refine ⟨hq2, hsub, Finset.mem_insert_of_mem h.sinkL, fun t ht htH => le_trans (hle sink t ht) (h.sinkF t ht htH), ?_, ?_, ?_, ?_, ?_, ?_, ?_⟩
      · intro u hu
        rw [Finset.mem_insert, not_or] at hu
        simp only [if_neg hu.1, put_ne _ _ hu.1]
        exact h.out u hu.2
      · intro u hu
        by_cases huv : u = v
        · subst huv
          simp only [if_true, put_self]
          exact ⟨p', rfl, hp''⟩
        · simp only [if_neg huv, put_ne _ _ huv]
          exact h.lab u ((Finset.mem_insert.mp hu).resolve_left huv)
      · intro u hu
        by_cases huv : u = v
        · subst huv; exact ⟨_, put_self _ _ _⟩
        · obtain ⟨d', h1⟩ := h.dist u ((Finset.mem_insert.mp hu).resolve_left huv)
          exact ⟨d', by rw [← h1]; exact put_ne _ _ huv⟩
      · intro u t y ht hy
        by_cases huv : u = v
        · subst huv
          simp only [if_true] at hy
          rcases hreal _ hle (fun t ht => by simp only [if_true]; exact le_refl _) t y ht hy with h1 | h1
          · rw [htop] at h1; simp at h1
          · exact h1
        · simp only [if_neg huv] at hy
          obtain ⟨l, h1, h2, h3⟩ := h.real u t y ht hy
          exact ⟨l, h1.mono hf ht hle, h2, h3⟩
      · intro u hu
        by_cases huv : u = v
        · subst huv; exact Finset.mem_insert_self _ _
        · rw [hq4 u huv] at hu; exact Finset.mem_insert_of_mem (h.mark u hu)
      · intro u t y ht hy
        by_cases huv : u = v
        · subst huv
          simp only [if_true] at hy
          exact h.hor w _ y (hlater t ht).2 hy
        · simp only [if_neg huv] at hy
          exact h.hor u t y ht hy
      · intro u a b ha hab
        by_cases huv : u = v
        · subst huv
          simp only [if_true]
          exact h.incr w _ _ (hlater a ha).2 (hf.order e he a b ha hab)
        · simp only [if_neg huv]
          exact h.incr u a b ha hab
    · refine ⟨?_, ?_, ?_, ?_⟩
      · intro u t ht
        by_cases huv : u = v
        · subst huv; rw [htop]; exact le_top
        · simp only [if_neg huv]; exact le_refl _
      · intro u hu
        by_cases huv : u = v
        · subst huv; exact hq3
        · rw [hq4 u huv]; exact hu
      · intro u hu t ht
        by_cases huv : u = v
        · subst huv; exact absurd hu hq3
        · simp only [if_neg huv]
      · intro u h1 h2
        by_cases huv : u = v
        · subst huv
          simp only [if_true]
          exact ⟨phi, le_refl _, by rw [htop]; exact lt_top_iff_ne_top.mpr (ops.fin _ _ hr2)⟩
        · rw [hq4 u huv] at h2; exact absurd h1 h2
    · intro _ t ht
      simp only [if_true]
      exact le_refl _

/-- The edges into a node. -/
theorem relaxEdges_ok (ops : Ops g Ts nodes sink phi H arr N K R) (hf : Fifo g phi arr) (hN : N = (sink :: nodes).toFinset.card) {w : Nat} : ∀ (es : List Nat) {L : Finset Nat} {s : State}
    {F : Nat → ℚ → WithTop ℚ} {M : Nat → Option ℚ}, Inv g arr nodes sink phi H K L s F M → w ∈ L → (∀ e ∈ es, e ∈ g.edges ∧ g.nodeTo e = w) →
    ∃ L' s' F' M', relaxEdges g Ts nodes w es s = .ok s' ∧ Inv g arr nodes sink phi H K L' s' F' M' ∧ Prog phi F M F' M' ∧ L ⊆ L' ∧
      ∀ e ∈ es, g.nodeFrom e ∈ nodes → ∀ t, phi ≤ t → F' (g.nodeFrom e) t ≤ F w (arr e t) := by
  intro es
  induction es with
  | nil => intro L s F M h _ _; exact ⟨L, s, F, M, rfl, h, Prog.refl F M, Finset.Subset.refl _, by simp⟩
  | cons e es ih =>
    intro L s F M h hw he
    obtain ⟨he1, he2⟩ := he e (by simp)
    obtain ⟨L1, s1, F1, M1, a1, a2, a3, a4, a5⟩ := relaxEdge_ok ops hf hN h hw he1 he2
    obtain ⟨L2, s2, F2, M2, b1, b2, b3, b4, b5⟩ := ih a2 (a4 hw) (fun e' h' => he e' (List.mem_cons_of_mem _ h'))
    refine ⟨L2, s2, F2, M2, ?_, b2, a3.trans b3, a4.trans b4, ?_⟩
    · rw [relaxEdges, a1, ok_bind, b1]
    · intro e' h' hv t ht
      rcases List.mem_cons.mp h' with rfl | h'
      · exact le_trans (b3.le _ t ht) (a5 hv t ht)
      · exact le_trans (b5 e' h' hv t ht) (a3.le _ _ (le_trans ht (hf.later e' (he e' (List.mem_cons_of_mem _ h')).1 t ht)))

/-- The nodes of a round. -/
theorem relaxNodes_ok (ops : Ops g Ts nodes sink phi H arr N K R) (hf : Fifo g phi arr) (hN : N = (sink :: nodes).toFinset.card) (hg : ∀ w ∈ (sink :: nodes), g.incoming w = g.edges.filter (fun r => g.nodeTo r = w)) :
    ∀ (ws : List Nat) {L : Finset Nat} {s : State} {F : Nat → ℚ → WithTop ℚ} {M : Nat → Option ℚ}, Inv g arr nodes sink phi H K L s F M → (∀ w ∈ ws, w ∈ L) →
    ∃ L' s' F' M', relaxNodes g Ts nodes ws s = .ok s' ∧ Inv g arr nodes sink phi H K L' s' F' M' ∧ Prog phi F M F' M' ∧ L ⊆ L' ∧
      ∀ e ∈ g.edges, g.nodeTo e ∈ ws → g.nodeFrom e ∈ nodes → ∀ t, phi ≤ t → F' (g.nodeFrom e) t ≤ F (g.nodeTo e) (arr e t) := by
  intro ws
  induction ws with
  | nil => intro L s F M h _; exact ⟨L, s, F, M, rfl, h, Prog.refl F M, Finset.Subset.refl _, by simp⟩
  | cons w ws ih =>
    intro L s F M h hws
    have hw := hws w (by simp)
    have hin := hg w (by have := h.sub hw; simpa using this)
    obtain ⟨L1, s1, F1, M1, a1, a2, a3, a4, a5⟩ := relaxEdges_ok ops hf hN (w := w) (g.incoming w) h hw (by
      intro e he
      rw [hin, List.mem_filter] at he
      exact ⟨he.1, by simpa using he.2⟩)
    obtain ⟨L2, s2, F2, M2, b1, b2, b3, b4, b5⟩ := ih a2 (fun w' h' => a4 (hws w' (List.mem_cons_of_mem _ h')))
    refine ⟨L2, s2, F2, M2, ?_, b2, a3.trans b3, a4.trans b4, ?_⟩
    · rw [relaxNodes, a1, ok_bind, b1]
    · intro e he hto hv t ht
      rcases List.mem_cons.mp hto with hto | hto
      · have := a5 e (by rw [hin, List.mem_filter]; exact ⟨he, by simp [hto]⟩) hv t ht
        rw [← hto] at this
        exact le_trans (b3.le _ t ht) this
      · exact le_trans (b5 e he hto hv t ht) (a3.le _ _ (le_trans ht (hf.later e he t ht)))

/-- The rounds. -/
theorem rounds_ok (ops : Ops g Ts nodes sink phi H arr N K R) (hf : Fifo g phi arr) (hN : N = (sink :: nodes).toFinset.card) (hg : ∀ w ∈ (sink :: nodes), g.incoming w = g.edges.filter (fun r => g.nodeTo r = w)) :
    ∀ (fuel k : Nat) {L : Finset Nat} {s : State} {F : Nat → ℚ → WithTop ℚ} {M : Nat → Option ℚ}, Inv g arr nodes sink phi H K L s F M →
      (∀ e ∈ g.edges, g.nodeFrom e ∈ nodes → M (g.nodeTo e) = none → ∀ t, phi ≤ t → F (g.nodeFrom e) t ≤ F (g.nodeTo e) (arr e t)) →
      (∀ l v t (y : ℚ), phi ≤ t → Trip g arr nodes sink l v t y → l.length ≤ k → (y : WithTop ℚ) ≤ H → F v t ≤ (y : WithTop ℚ)) →
      (N ≤ k → ∀ v, M v = none) → N + 1 ≤ fuel + k → 0 < fuel →
      ∃ L' s' F' M', rounds g Ts nodes fuel s = .ok s'.labels ∧ Inv g arr nodes sink phi H K L' s' F' M' ∧
        ∀ l v t (y : ℚ), phi ≤ t → Trip g arr nodes sink l v t y → (y : WithTop ℚ) ≤ H → F' v t ≤ (y : WithTop ℚ) := by
  intro fuel
  induction fuel with
  | zero => intro k L s F M _ _ _ _ _ h; omega
  | succ fuel ih =>
    intro k L s F M h hclean hbound hdone hfuel _
    rw [rounds]
    by_cases hq : s.queue.len > 0
    · rw [if_pos hq]
      obtain ⟨x, hx⟩ := h.rep.len_pos.mp hq
      have hkN : k < N := by
        by_contra hc
        exact hx (hdone (by omega) x)
      have h0 : Inv g arr nodes sink phi H K L { s with queue := Heap.empty } F (fun _ => none) :=
        ⟨Heap.rep_empty, h.sub, h.sinkL, h.sinkF, h.out, h.lab, h.dist, h.real, fun v hv => absurd rfl hv, h.hor, h.incr⟩
      obtain ⟨L', s', F', M', a1, a2, a3, a4, a5⟩ := relaxNodes_ok ops hf hN hg s.queue.sortedItems h0 (fun w hw => h.mark w ((h.rep.mem_sorted w).mp hw))
      rw [a1, ok_bind]
      have hrel : ∀ e ∈ g.edges, g.nodeFrom e ∈ nodes → ∀ t, phi ≤ t → F' (g.nodeFrom e) t ≤ F (g.nodeTo e) (arr e t) := by
        intro e he hv t ht
        by_cases hm : M (g.nodeTo e) = none
        · exact le_trans (a3.le _ t ht) (hclean e he hv hm t ht)
        · exact a5 e he ((h.rep.mem_sorted _).mpr hm) hv t ht
      have hbound' : ∀ l v t (y : ℚ), phi ≤ t → Trip g arr nodes sink l v t y → l.length ≤ k + 1 → (y : WithTop ℚ) ≤ H → F' v t ≤ (y : WithTop ℚ) := by
        intro l v t y ht htr hl hy
        cases htr with
        | here t => exact le_trans (a3.le _ _ ht) (hbound [] _ _ _ ht (.here t) (by simp) hy)
        | @drive l t y e he hv htr =>
          exact le_trans (hrel e he hv t ht) (hbound l _ _ _ (le_trans ht (hf.later e he t ht)) htr (by simpa using hl) hy)
      refine ih (k + 1) a2 ?_ hbound' ?_ (by omega) (by omega)
      · intro e he hv hm t ht
        rw [a3.same _ hm _ (le_trans ht (hf.later e he t ht))]
        exact hrel e he hv t ht
      · intro hk v
        by_contra hm
        obtain ⟨t, ht, hlt⟩ := a3.new v rfl hm
        obtain ⟨y, hy⟩ := WithTop.ne_top_iff_exists.mp (ne_top_of_lt hlt)
        obtain ⟨l, hl⟩ := a2.real v t y ht hy.symm
        obtain ⟨l', y', b1, b2, b3⟩ := hl.1.trip.short hf ht
        have hyH := a2.hor v t y ht hy.symm
        have hy'y : (y' : WithTop ℚ) ≤ (y : WithTop ℚ) := WithTop.coe_le_coe.mpr b1
        have := hbound l' v t y' ht b2 (by omega) (le_trans hy'y hyH)
        exact absurd (lt_of_lt_of_le hlt this) (not_lt.mpr (by rw [← hy]; exact hy'y))
    · rw [if_neg hq]
      refine ⟨L, s, F, M, rfl, h, ?_⟩
      have hM : ∀ v, M v = none := by
        intro v
        by_contra hc
        exact hq (h.rep.len_pos.mpr ⟨v, hc⟩)
      intro l v t y ht htr hy
      induction htr with
      | here t => exact hbound [] _ _ _ ht (.here t) (by simp) hy
      | @drive l t y e he hv htr ih' =>
        exact le_trans (hclean e he hv (hM _) t ht) (ih' (le_trans ht (hf.later e he t ht)) hy)

/-- The whole search after the arrival times. -/
theorem search_ok (ops : Ops g Ts nodes sink phi H arr N K R) (hf : Fifo g phi arr) (hN : N = (sink :: nodes).toFinset.card) (hg : ∀ w ∈ (sink :: nodes), g.incoming w = g.edges.filter (fun r => g.nodeTo r = w))
    {ident : PL} (hid : K ident (fun (t : ℚ) => if (t : WithTop ℚ) ≤ H then (t : WithTop ℚ) else ⊤)) {queue : Heap ℚ Nat} (hq : Heap.ofList [(sink, (0 : ℚ))] = .ok queue) {fuel : Nat} (hfuel : N + 1 ≤ fuel) :
    ∃ labels, rounds g Ts nodes fuel ⟨put (fun _ => none) sink ident, put (fun _ => none) sink 0, queue⟩ = .ok labels ∧
      ∀ v, (labels v = none ∧ ∀ t (y : ℚ), phi ≤ t → (y : WithTop ℚ) ≤ H → ¬ GetsTo g arr nodes sink v t y) ∨
        ∃ p φ, labels v = some p ∧ K p φ ∧ ∀ t, phi ≤ t → (∀ y : ℚ, φ t = (y : WithTop ℚ) → (y : WithTop ℚ) ≤ H ∧ GetsTo g arr nodes sink v t y) ∧
          ∀ y, GetsTo g arr nodes sink v t y → (y : WithTop ℚ) ≤ H → φ t ≤ (y : WithTop ℚ) := by
  obtain ⟨q', hq1, hq2⟩ := Heap.rep_single sink (0 : ℚ)
  rw [hq] at hq1
  injection hq1 with hq1
  subst hq1
  let F0 : Nat → ℚ → WithTop ℚ := fun v t => if v = sink then (if (t : WithTop ℚ) ≤ H then (t : WithTop ℚ) else ⊤) else ⊤
  have hF0 : ∀ v t (y : ℚ), F0 v t = (y : WithTop ℚ) → v = sink ∧ t = y ∧ (y : WithTop ℚ) ≤ H := by
    intro v t y hy
    simp only [F0] at hy
    split_ifs at hy with h1 h2
    · have := WithTop.coe_inj.mp hy
      subst this
      exact ⟨h1, rfl, h2⟩
    · exact absurd hy (by simp)
    · exact absurd hy (by simp)
  have h0 : Inv g arr nodes sink phi H K {sink} ⟨put (fun _ => none) sink ident, put (fun _ => none) sink 0, queue⟩ F0 (fun y => if y = sink then some 0 else none) := by
    refine ⟨hq2, by simp, by simp, ?_, ?_, ?_, ?_, ?_, ?_, ?_, ?_⟩
    · intro t ht htH
      simp only [F0, if_true]
      rw [if_pos htH]
    · intro v hv
      have hv : v ≠ sink := by simpa using hv
      exact ⟨by simp [put, hv], fun t => if_neg hv⟩
    · intro v hv
      have hv : v = sink := by simpa using hv
      subst hv
      refine ⟨ident, by simp [put], ?_⟩
      have : F0 v = fun (t : ℚ) => if (t : WithTop ℚ) ≤ H then (t : WithTop ℚ) else ⊤ := by funext t; simp [F0]
      rw [this]
      exact hid
    · intro v hv
      have hv : v = sink := by simpa using hv
      subst hv
      exact ⟨0, by simp [put]⟩
    · intro v t y ht hy
      obtain ⟨rfl, rfl, _⟩ := hF0 v t y hy
      exact ⟨[], .here t, List.nodup_nil, by simp⟩
    · intro v hv
      by_contra hc
      have hc : v ≠ sink := by simpa using hc
      exact hv (if_neg hc)
    · intro v t y ht hy
      exact (hF0 v t y hy).2.2
    · intro v a b ha hab
      simp only [F0]
      have hab' : (a : WithTop ℚ) ≤ (b : WithTop ℚ) := WithTop.coe_le_coe.mpr hab
      split_ifs with h1 h2 h3 h3
      · exact hab'
      · exact le_top
      · exact absurd (le_trans hab' h3) h2
      · exact le_refl _
      · exact le_refl _
  have hNp : 0 < N := by rw [hN]; exact Finset.card_pos.mpr ⟨sink, by simp⟩
  obtain ⟨L, s, F, M, a1, a2, a3⟩ := rounds_ok ops hf hN hg fuel 0 h0 (by
      intro e he hv hm t ht
      have : g.nodeTo e ≠ sink := by
        intro hc
        simp [hc] at hm
      have h2 : F0 (g.nodeTo e) (arr e t) = ⊤ := if_neg this
      rw [h2]; exact le_top)
    (by
      intro l v t y ht htr hl hy
      cases htr with
      | here t =>
        have : F0 sink t = (t : WithTop ℚ) := by simp [F0, hy]
        rw [this]
      | drive e he hv htr => simp at hl)
    (by omega) (by omega) (by omega)
  refine ⟨s.labels, a1, fun v => ?_⟩
  by_cases hv : v ∈ L
  · right
    obtain ⟨p, h1, h2⟩ := a2.lab v hv
    refine ⟨p, F v, h1, h2, fun t ht => ⟨fun y hy => ?_, fun y hy hyH => ?_⟩⟩
    · obtain ⟨l, hl⟩ := a2.real v t y ht hy
      exact ⟨a2.hor v t y ht hy, hl.1.trip.gets⟩
    · obtain ⟨l, hl⟩ := gets_trip hy
      exact a3 l v t y ht hl hyH
  · left
    obtain ⟨h1, h2⟩ := a2.out v hv
    refine ⟨h1, fun t y ht hyH hy => ?_⟩
    obtain ⟨l, hl⟩ := gets_trip hy
    have := a3 l v t y ht hl hyH
    rw [h2] at this
    simp at this

end
end BF
end Verif
