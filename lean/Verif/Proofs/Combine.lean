import Verif.Spec.Combine
import Verif.Proofs.BuilderTime

namespace Verif
namespace Combine
open Spec

variable {P : Type} [DecidableEq P]

/-- A function that `RC.add` makes of two valid ones is valid. -/
theorem add_inflow {f g : RC} (hf : InflowOk f) (hg : InflowOk g) (hsep : Apart eps (f.times ++ g.times)) :
    ∃ s, f.add g = .ok s ∧ InflowOk s ∧ (∀ x, s.fn x = f.fn x + g.fn x) ∧ ∀ t, t ∈ s.times ↔ t ∈ f.times ∨ t ∈ g.times := by
  have wf := Builder.inflowOk_wf hf
  have wg := Builder.inflowOk_wf hg
  obtain ⟨s, e1, e2, e3, e4, e5, e6⟩ := RC.add_ok wf wg (by rw [hf.lo, hg.lo]) (by rw [hf.hi, hg.hi]) hsep
  have nn : ∀ {h : RC}, InflowOk h → ∀ x, 0 ≤ h.fn x := by
    intro h hh x
    have hw := Builder.inflowOk_wf hh
    unfold RC.fn
    by_cases hi : RC.idx h x < h.values.length
    · rw [List.getD_eq_getElem?_getD, List.getElem?_eq_getElem hi]; exact hh.vals _ (List.getElem_mem hi)
    · rw [List.getD_eq_getElem?_getD, List.getElem?_eq_none (by omega)]; rfl
  refine ⟨s, e1, ⟨e2.len, e2.ne, e2.lt, ?_, by rw [e3, hf.lo], by rw [e4, hf.hi], ?_⟩, e5, e6⟩
  · intro t ht
    rcases (e6 t).mp ht with h | h
    · exact hf.pos t h
    · exact hg.pos t h
  · intro v hv
    obtain ⟨i, hi, rfl⟩ := List.getElem_of_mem hv
    rw [← RC.fn_time e2 (by rw [← e2.len]; exact hi), e5]
    exact add_nonneg (nn hf _) (nn hg _)

/-- The rate of a dict of sources. -/
def srcFn (l : List (Nat × RC)) (v : Nat) (x : ℚ) : ℚ :=
  match l.lookup v with
  | none => 0
  | some f => f.fn x

/-- `x` is a break point at `v`. -/
def Brk (l : List (Nat × RC)) (v : Nat) (x : ℚ) : Prop := ∃ f, (v, f) ∈ l ∧ x ∈ f.times

/-- Valid sources with break points among `S`. -/
structure SrcOk (S : Nat → ℚ → Prop) (l : List (Nat × RC)) : Prop where
  keys : (l.map Prod.fst).Nodup
  ok : ∀ s ∈ l, InflowOk s.2
  brk : ∀ v x, Brk l v x → S v x

theorem lookup_mem' {l : List (Nat × RC)} {v : Nat} {f : RC} (h : l.lookup v = some f) : (v, f) ∈ l := by
  induction l with
  | nil => simp at h
  | cons p l ih =>
    obtain ⟨u, g⟩ := p
    rw [List.lookup_cons] at h
    by_cases hv : v = u
    · subst hv; simp at h; subst h; simp
    · have : (v == u) = false := by simpa using hv
      rw [this] at h; exact List.mem_cons_of_mem _ (ih h)

theorem addSource_spec {S : Nat → ℚ → Prop} (hS : ∀ v a b, S v a → S v b → a < b → eps < b - a) {v : Nat} {f : RC} (hf : InflowOk f)
    (hfS : ∀ x ∈ f.times, S v x) : ∀ {l : List (Nat × RC)}, SrcOk S l →
    ∃ l', addSource v f l = .ok l' ∧ SrcOk S l' ∧ (∀ u, u ∈ l'.map Prod.fst ↔ u ∈ l.map Prod.fst ∨ u = v) ∧
      (∀ u x, srcFn l' u x = srcFn l u x + if u = v then f.fn x else 0) ∧ ∀ u x, Brk l' u x ↔ Brk l u x ∨ (u = v ∧ x ∈ f.times) := by
  intro l
  induction l with
  | nil =>
    intro _
    refine ⟨[(v, f)], rfl, ⟨by simp, by simpa using hf, ?_⟩, by simp, ?_, ?_⟩
    · rintro u x ⟨g, hg, hx⟩
      simp only [List.mem_singleton, Prod.mk.injEq] at hg
      rw [hg.1]; rw [hg.2] at hx; exact hfS x hx
    · intro u x
      unfold srcFn
      rw [List.lookup_cons]
      by_cases h : u = v
      · subst h; simp
      · have : (u == v) = false := by simpa using h
        rw [this]; simp [h]
    · intro u x
      unfold Brk
      simp only [List.mem_singleton, Prod.mk.injEq, List.not_mem_nil, false_and, exists_false, false_or]
      constructor
      · rintro ⟨g, ⟨h1, rfl⟩, h2⟩; exact ⟨h1, h2⟩
      · rintro ⟨h1, h2⟩; exact ⟨f, ⟨h1, rfl⟩, h2⟩
  | cons p l ih =>
    obtain ⟨w, g⟩ := p
    intro h
    have hk := h.keys
    rw [List.map_cons, List.nodup_cons] at hk
    have hgS : ∀ x ∈ g.times, S w x := fun x hx => h.brk w x ⟨g, by simp, hx⟩
    have hg := h.ok (w, g) (by simp)
    by_cases hw : w = v
    · subst hw
      obtain ⟨s, s1, s2, s3, s4⟩ := add_inflow hg hf (by
        intro a ha b hb hab
        have : ∀ a ∈ g.times ++ f.times, S w a := by
          intro a ha
          rcases List.mem_append.mp ha with h | h
          · exact hgS a h
          · exact hfS a h
        exact hS w a b (this a ha) (this b hb) hab)
      have hb : ∀ u x, Brk ((w, s) :: l) u x ↔ Brk ((w, g) :: l) u x ∨ (u = w ∧ x ∈ f.times) := by
        intro u x
        unfold Brk
        simp only [List.mem_cons, Prod.mk.injEq]
        constructor
        · rintro ⟨k, ⟨rfl, rfl⟩ | hm, hx⟩
          · rcases (s4 x).mp hx with h | h
            · exact .inl ⟨g, .inl ⟨rfl, rfl⟩, h⟩
            · exact .inr ⟨rfl, h⟩
          · exact .inl ⟨k, .inr hm, hx⟩
        · rintro (⟨k, ⟨rfl, rfl⟩ | hm, hx⟩ | ⟨rfl, hx⟩)
          · exact ⟨s, .inl ⟨rfl, rfl⟩, (s4 x).mpr (.inl hx)⟩
          · exact ⟨k, .inr hm, hx⟩
          · exact ⟨s, .inl ⟨rfl, rfl⟩, (s4 x).mpr (.inr hx)⟩
      refine ⟨(w, s) :: l, ?_, ⟨by simpa using h.keys, ?_, ?_⟩, ?_, ?_, hb⟩
      · unfold addSource; rw [if_pos rfl, s1, ok_bind]; rfl
      · intro q hq
        rcases List.mem_cons.mp hq with rfl | hq
        · exact s2
        · exact h.ok q (by simp [hq])
      · intro u x hx
        rcases (hb u x).mp hx with h1 | ⟨rfl, h1⟩
        · exact h.brk u x h1
        · exact hfS x h1
      · intro u; simp only [List.map_cons, List.mem_cons]; tauto
      · intro u x
        unfold srcFn
        rw [List.lookup_cons, List.lookup_cons]
        by_cases hu : u = w
        · subst hu; simp [s3]
        · have : (u == w) = false := by simpa using hu
          rw [this]; simp [hu]
    · obtain ⟨l', e1, e2, e3, e4, e5⟩ := ih ⟨hk.2, fun s hs => h.ok s (by simp [hs]), fun u x ⟨k, hk, hx⟩ => h.brk u x ⟨k, by simp [hk], hx⟩⟩
      have hb : ∀ u x, Brk ((w, g) :: l') u x ↔ Brk ((w, g) :: l) u x ∨ (u = v ∧ x ∈ f.times) := by
        intro u x
        have h5 := e5 u x
        unfold Brk at h5 ⊢
        simp only [List.mem_cons, Prod.mk.injEq]
        constructor
        · rintro ⟨k, ⟨rfl, rfl⟩ | hm, hx⟩
          · exact .inl ⟨k, .inl ⟨rfl, rfl⟩, hx⟩
          · rcases h5.mp ⟨k, hm, hx⟩ with ⟨k', h1, h2⟩ | h1
            · exact .inl ⟨k', .inr h1, h2⟩
            · exact .inr h1
        · rintro (⟨k, ⟨rfl, rfl⟩ | hm, hx⟩ | h1)
          · exact ⟨k, .inl ⟨rfl, rfl⟩, hx⟩
          · obtain ⟨k', h1, h2⟩ := h5.mpr (.inl ⟨k, hm, hx⟩); exact ⟨k', .inr h1, h2⟩
          · obtain ⟨k', h1, h2⟩ := h5.mpr (.inr h1); exact ⟨k', .inr h1, h2⟩
      refine ⟨(w, g) :: l', ?_, ⟨?_, ?_, ?_⟩, ?_, ?_, hb⟩
      · unfold addSource; rw [if_neg hw, e1, ok_bind]; rfl
      · rw [List.map_cons, List.nodup_cons]
        refine ⟨fun hc => ?_, e2.keys⟩
        rcases (e3 w).mp hc with h1 | h1
        · exact hk.1 h1
        · exact hw h1
      · intro q hq
        rcases List.mem_cons.mp hq with rfl | hq
        · exact hg
        · exact e2.ok q hq
      · intro u x hx
        rcases (hb u x).mp hx with h1 | ⟨rfl, h1⟩
        · exact h.brk u x h1
        · exact hfS x h1
      · intro u; have := e3 u; simp only [List.map_cons, List.mem_cons]; tauto
      · intro u x
        have h4 := e4 u x
        unfold srcFn at h4 ⊢
        rw [List.lookup_cons, List.lookup_cons]
        by_cases hu : u = w
        · subst hu; simp [hw]
        · have : (u == w) = false := by simpa using hu
          rw [this]; exact h4

theorem addSources_spec {S : Nat → ℚ → Prop} (hS : ∀ v a b, S v a → S v b → a < b → eps < b - a) : ∀ {l acc : List (Nat × RC)}, SrcOk S l → SrcOk S acc →
    ∃ l', addSources l acc = .ok l' ∧ SrcOk S l' ∧ (∀ u, u ∈ l'.map Prod.fst ↔ u ∈ acc.map Prod.fst ∨ u ∈ l.map Prod.fst) ∧
      (∀ u x, srcFn l' u x = srcFn acc u x + srcFn l u x) ∧ ∀ u x, Brk l' u x ↔ Brk acc u x ∨ Brk l u x := by
  intro l
  induction l with
  | nil => intro acc _ h; exact ⟨acc, rfl, h, by simp, by simp [srcFn], by simp [Brk]⟩
  | cons p l ih =>
    obtain ⟨v, f⟩ := p
    intro acc hl h
    have hk := hl.keys
    rw [List.map_cons, List.nodup_cons] at hk
    obtain ⟨a, a1, a2, a3, a4, a5⟩ := addSource_spec hS (hl.ok (v, f) (by simp)) (fun x hx => hl.brk v x ⟨f, by simp, hx⟩) h
    obtain ⟨b, b1, b2, b3, b4, b5⟩ := ih ⟨hk.2, fun s hs => hl.ok s (by simp [hs]), fun u x ⟨k, hk, hx⟩ => hl.brk u x ⟨k, by simp [hk], hx⟩⟩ a2
    refine ⟨b, ?_, b2, ?_, ?_, ?_⟩
    · unfold addSources; rw [a1, ok_bind, b1]
    · intro u; rw [b3, a3]; simp only [List.map_cons, List.mem_cons]; tauto
    · intro u x
      rw [b4, a4]
      have hz : u = v → srcFn l u x = 0 := by
        rintro rfl
        unfold srcFn
        cases hl' : l.lookup u with
        | none => rfl
        | some g => exact absurd (List.mem_map.mpr ⟨(u, g), lookup_mem' hl', rfl⟩) hk.1
      unfold srcFn at hz ⊢
      rw [List.lookup_cons]
      by_cases hu : u = v
      · have := hz hu
        subst hu
        simp only [beq_self_eq_true, if_true]
        linarith
      · have : (u == v) = false := by simpa using hu
        rw [this]; simp [hu]
    · intro u x
      rw [b5, a5]
      unfold Brk
      simp only [List.mem_cons, Prod.mk.injEq]
      constructor
      · rintro ((h1 | ⟨rfl, h1⟩) | ⟨g, h1, h2⟩)
        · exact .inl h1
        · exact .inr ⟨f, .inl ⟨rfl, rfl⟩, h1⟩
        · exact .inr ⟨g, .inr h1, h2⟩
      · rintro (h1 | ⟨g, ⟨rfl, rfl⟩ | h1, h2⟩)
        · exact .inl (.inl h1)
        · exact .inl (.inr ⟨rfl, h2⟩)
        · exact .inr ⟨g, h1, h2⟩

theorem mergeGroup_spec {S : Nat → ℚ → Prop} (hS : ∀ v a b, S v a → S v b → a < b → eps < b - a) {obj : Nat → Commodity P} :
    ∀ {rs : List Nat} {acc : List (Nat × RC)}, (∀ r ∈ rs, SrcOk S (obj r).sources) → SrcOk S acc →
    ∃ l', mergeGroup obj rs acc = .ok l' ∧ SrcOk S l' ∧ (∀ u, u ∈ l'.map Prod.fst ↔ u ∈ acc.map Prod.fst ∨ ∃ r ∈ rs, u ∈ (obj r).sources.map Prod.fst) ∧
      (∀ u x, srcFn l' u x = srcFn acc u x + (rs.map (fun r => srcFn (obj r).sources u x)).sum) ∧
      ∀ u x, Brk l' u x ↔ Brk acc u x ∨ ∃ r ∈ rs, Brk (obj r).sources u x := by
  intro rs
  induction rs with
  | nil => intro acc _ h; exact ⟨acc, rfl, h, by simp, by simp, by simp⟩
  | cons r rs ih =>
    intro acc hr h
    obtain ⟨a, a1, a2, a3, a4, a5⟩ := addSources_spec hS (hr r (by simp)) h
    obtain ⟨b, b1, b2, b3, b4, b5⟩ := ih (fun q hq => hr q (by simp [hq])) a2
    refine ⟨b, ?_, b2, ?_, ?_, ?_⟩
    · unfold mergeGroup; rw [a1, ok_bind, b1]
    · intro u; rw [b3, a3, List.exists_mem_cons_iff]; tauto
    · intro u x; rw [b4, a4, List.map_cons, List.sum_cons]; ring
    · intro u x; rw [b5, a5, List.exists_mem_cons_iff]; tauto

/-- The refs in the group of a key. -/
def members (gs : List ((P × Nat) × List Nat)) (k : P × Nat) : List Nat := (gs.lookup k).getD []

theorem addTo_spec (key : P × Nat) (r : Nat) : ∀ {gs : List ((P × Nat) × List Nat)}, (gs.map Prod.fst).Nodup → (∀ g ∈ gs, g.2 ≠ []) →
    ((addTo key r gs).map Prod.fst).Nodup ∧ (∀ g ∈ addTo key r gs, g.2 ≠ []) ∧ (∀ k, k ∈ (addTo key r gs).map Prod.fst ↔ k ∈ gs.map Prod.fst ∨ k = key) ∧
      ∀ k, members (addTo key r gs) k = if k = key then members gs k ++ [r] else members gs k := by
  intro gs
  induction gs with
  | nil =>
    intro _ _
    refine ⟨by simp [addTo], by simp [addTo], by simp [addTo], fun k => ?_⟩
    unfold members addTo
    rw [List.lookup_cons]
    by_cases h : k = key
    · subst h; simp
    · have : (k == key) = false := by simpa using h
      rw [this]; simp [h]
  | cons p gs ih =>
    obtain ⟨k0, g⟩ := p
    intro hn hne
    rw [List.map_cons, List.nodup_cons] at hn
    by_cases hk : k0 = key
    · subst hk
      have e : addTo k0 r ((k0, g) :: gs) = (k0, g ++ [r]) :: gs := by rw [addTo, if_pos rfl]
      rw [e]
      refine ⟨by simpa using hn, ?_, by simp, fun k => ?_⟩
      · intro q hq
        rcases List.mem_cons.mp hq with rfl | hq
        · simp
        · exact hne q (by simp [hq])
      · unfold members
        rw [List.lookup_cons, List.lookup_cons]
        by_cases h : k = k0
        · subst h; simp
        · have : (k == k0) = false := by simpa using h
          rw [this]; simp [h]
    · have e : addTo key r ((k0, g) :: gs) = (k0, g) :: addTo key r gs := by rw [addTo, if_neg hk]
      obtain ⟨i1, i2, i3, i4⟩ := ih hn.2 (fun q hq => hne q (by simp [hq]))
      rw [e]
      refine ⟨?_, ?_, ?_, fun k => ?_⟩
      · rw [List.map_cons, List.nodup_cons]
        refine ⟨fun hc => ?_, i1⟩
        rcases (i3 k0).mp hc with h | h
        · exact hn.1 h
        · exact hk h
      · intro q hq
        rcases List.mem_cons.mp hq with rfl | hq
        · exact hne _ (by simp)
        · exact i2 q hq
      · intro k; have := i3 k; simp only [List.map_cons, List.mem_cons]; tauto
      · have h4 := i4 k
        unfold members at h4 ⊢
        rw [List.lookup_cons, List.lookup_cons]
        by_cases h : k = k0
        · subst h; simp [hk]
        · have : (k == k0) = false := by simpa using h
          rw [this]; exact h4

theorem group_spec (obj : Nat → Commodity P) (ex : List Nat) : ∀ {refs : List Nat} {gs : List ((P × Nat) × List Nat)}, (gs.map Prod.fst).Nodup → (∀ g ∈ gs, g.2 ≠ []) →
    ((group obj ex refs gs).map Prod.fst).Nodup ∧ (∀ g ∈ group obj ex refs gs, g.2 ≠ []) ∧
      ∀ k, members (group obj ex refs gs) k = members gs k ++ refs.filter (fun r => r ∉ ex ∧ ((obj r).predictor, (obj r).sink) = k) := by
  intro refs
  induction refs with
  | nil => intro gs h1 h2; exact ⟨h1, h2, by simp [group]⟩
  | cons r refs ih =>
    intro gs h1 h2
    by_cases hr : r ∈ ex
    · have e : group obj ex (r :: refs) gs = group obj ex refs gs := by rw [group, if_pos hr]
      rw [e]
      obtain ⟨i1, i2, i3⟩ := ih h1 h2
      refine ⟨i1, i2, fun k => ?_⟩
      rw [i3, List.filter_cons_of_neg (by simp [hr])]
    · have e : group obj ex (r :: refs) gs = group obj ex refs (addTo ((obj r).predictor, (obj r).sink) r gs) := by rw [group, if_neg hr]
      rw [e]
      obtain ⟨a1, a2, _, a4⟩ := addTo_spec ((obj r).predictor, (obj r).sink) r h1 h2
      obtain ⟨i1, i2, i3⟩ := ih a1 a2
      refine ⟨i1, i2, fun k => ?_⟩
      rw [i3, a4]
      by_cases hk : ((obj r).predictor, (obj r).sink) = k
      · rw [if_pos hk.symm, List.filter_cons_of_pos (by simpa [hr] using hk), List.append_assoc]; rfl
      · rw [if_neg (fun h => hk h.symm), List.filter_cons_of_neg (by simpa [hr] using hk)]

theorem mergeAll_spec {S : Nat → ℚ → Prop} (hS : ∀ v a b, S v a → S v b → a < b → eps < b - a) {ord : List Nat → List Nat} (ho : OrderOk ord)
    {obj : Nat → Commodity P} : ∀ {gs : List ((P × Nat) × List Nat)}, (∀ g ∈ gs, ∀ r ∈ g.2, SrcOk S (obj r).sources) →
    ∃ l, mergeAll ord obj gs = .ok l ∧ l.map (fun c => (c.predictor, c.sink)) = gs.map Prod.fst ∧
      ∀ (i : Nat) (g : (P × Nat) × List Nat), gs[i]? = some g → ∃ c, l[i]? = some c ∧ (c.predictor, c.sink) = g.1 ∧ SrcOk S c.sources ∧
        (∀ u, u ∈ c.sources.map Prod.fst ↔ ∃ r ∈ g.2, u ∈ (obj r).sources.map Prod.fst) ∧
        (∀ u x, srcFn c.sources u x = ((ord g.2).map (fun r => srcFn (obj r).sources u x)).sum) ∧
        ∀ u x, Brk c.sources u x ↔ ∃ r ∈ g.2, Brk (obj r).sources u x := by
  intro gs
  induction gs with
  | nil => intro _; exact ⟨[], rfl, rfl, by simp⟩
  | cons g gs ih =>
    obtain ⟨k, g⟩ := g
    intro hg
    obtain ⟨a, a1, a2, a3, a4, a5⟩ := mergeGroup_spec hS (obj := obj) (rs := ord g) (acc := []) (fun r hr => hg (k, g) (by simp) r (((ho g).2 r).mp hr))
      ⟨by simp, by simp, by rintro v x ⟨f, hf, _⟩; cases hf⟩
    obtain ⟨l, l1, l2, l3⟩ := ih (fun q hq => hg q (by simp [hq]))
    have hex : ∀ p : Nat → Prop, (∃ r ∈ ord g, p r) ↔ ∃ r ∈ g, p r := fun p => exists_congr fun r => by rw [(ho g).2 r]
    refine ⟨⟨a, k.2, k.1⟩ :: l, ?_, by simp [l2], ?_⟩
    · unfold mergeAll; rw [a1, ok_bind, l1, ok_bind]; rfl
    · intro i q hq
      cases i with
      | zero =>
        simp only [List.getElem?_cons_zero, Option.some.injEq] at hq
        subst hq
        refine ⟨_, rfl, rfl, a2, fun u => ?_, fun u x => ?_, fun u x => ?_⟩
        · rw [a3, hex]; simp
        · rw [a4]; simp [srcFn]
        · rw [a5, hex]; simp [Brk]
      | succ i =>
        rw [List.getElem?_cons_succ] at hq ⊢
        exact l3 i q hq

end Combine
end Verif
