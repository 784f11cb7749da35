import Verif.Spec.Merge
import Verif.Proofs.Combine
import Verif.Proofs.Reads

namespace Verif

namespace RC

theorem simplifyLoop_drift {t0 v0 : ℚ} {ts vs : List ℚ} {lo : WithBot ℚ} {hi : WithTop ℚ} (h : WF ⟨t0 :: ts, v0 :: vs, lo, hi⟩) :
    WF ⟨t0 :: (simplifyLoop (t0 :: ts) (v0 :: vs)).1, v0 :: (simplifyLoop (t0 :: ts) (v0 :: vs)).2, lo, hi⟩ ∧
    (simplifyLoop (t0 :: ts) (v0 :: vs)).1.Sublist ts ∧ (simplifyLoop (t0 :: ts) (v0 :: vs)).2.Sublist vs ∧
    ∀ x, |fn ⟨t0 :: (simplifyLoop (t0 :: ts) (v0 :: vs)).1, v0 :: (simplifyLoop (t0 :: ts) (v0 :: vs)).2, lo, hi⟩ x
      - fn ⟨t0 :: ts, v0 :: vs, lo, hi⟩ x| ≤ 1000 * eps * ts.length := by
  have hep := eps_pos
  induction ts generalizing t0 v0 vs with
  | nil =>
    cases vs with
    | nil => exact ⟨h, by simp [simplifyLoop], by simp [simplifyLoop], fun x => by simp [simplifyLoop]⟩
    | cons v1 vs => have := h.len; simp at this
  | cons t1 ts ih =>
    cases vs with
    | nil => have := h.len; simp at this
    | cons v1 vs =>
      have h01 : t0 < t1 := (List.pairwise_cons.mp h.lt).1 t1 (by simp)
      have d0 := h.dom t0 (by simp)
      obtain ⟨w, sub, sub2, eqf⟩ := ih h.tail
      simp only [simplifyLoop]
      generalize (simplifyLoop (t1 :: ts) (v1 :: vs)).1 = rt at *
      generalize (simplifyLoop (t1 :: ts) (v1 :: vs)).2 = rv at *
      have h1 := List.pairwise_cons.mp w.lt
      have hl : ((t1 :: ts).length : ℚ) = ts.length + 1 := by simp
      have hl0 : (0 : ℚ) ≤ ts.length := Nat.cast_nonneg _
      split
      · have w' : WF ⟨t0 :: t1 :: rt, v0 :: v1 :: rv, lo, hi⟩ := by
          refine ⟨by simpa using w.len, by simp, ?_, ?_⟩
          · rw [List.pairwise_cons]
            refine ⟨?_, w.lt⟩
            intro a ha
            rcases List.mem_cons.mp ha with rfl | ha
            · exact h01
            · exact lt_trans h01 (h1.1 a ha)
          · intro t ht
            rcases List.mem_cons.mp ht with rfl | ht
            · exact d0
            · exact w.dom t ht
        refine ⟨w', sub.cons_cons _, sub2.cons_cons _, ?_⟩
        intro x
        simp only
        rw [fn_cons2 w', fn_cons2 h, hl]
        split
        · rw [sub_self, abs_zero]; positivity
        · exact le_trans (eqf x) (by nlinarith)
      · rename_i hne
        have e01 : |v0 - v1| < 1000 * eps := not_le.mp hne
        have w' : WF ⟨t0 :: rt, v0 :: rv, lo, hi⟩ := by
          refine ⟨by simpa using w.len, by simp, ?_, ?_⟩
          · rw [List.pairwise_cons]
            exact ⟨fun a ha => lt_trans h01 (h1.1 a ha), h1.2⟩
          · intro t ht
            rcases List.mem_cons.mp ht with rfl | ht
            · exact d0
            · exact w.dom t (by simp [ht])
        refine ⟨w', sub.cons _, sub2.cons _, ?_⟩
        intro x
        simp only
        have hA : (x < t1 → fn ⟨t0 :: rt, v0 :: rv, lo, hi⟩ x = v0) ∧ |fn ⟨t0 :: rt, v0 :: rv, lo, hi⟩ x - fn ⟨t1 :: rt, v1 :: rv, lo, hi⟩ x| ≤ 1000 * eps := by
          cases rt with
          | nil =>
            cases rv with
            | nil =>
              have c1 : fn ⟨[t0], [v0], lo, hi⟩ x = v0 := by simp [fn, idx, cnt]; split <;> simp_all
              have c2 : fn ⟨[t1], [v1], lo, hi⟩ x = v1 := by simp [fn, idx, cnt]; split <;> simp_all
              rw [c1, c2]
              exact ⟨fun _ => rfl, e01.le⟩
            | cons => have := w.len; simp at this
          | cons r rt =>
            cases rv with
            | nil => have := w.len; simp at this
            | cons u rv =>
              have hr := h1.1 r (by simp)
              rw [fn_cons2 w', fn_cons2 w]
              constructor
              · intro hx; rw [if_pos (lt_trans hx hr)]
              · split
                · exact e01.le
                · rw [sub_self, abs_zero]; positivity
        rw [fn_cons2 h, hl]
        split
        · rename_i hx
          rw [hA.1 hx, sub_self, abs_zero]; positivity
        · have := abs_sub_le (fn ⟨t0 :: rt, v0 :: rv, lo, hi⟩ x) (fn ⟨t1 :: rt, v1 :: rv, lo, hi⟩ x) (fn ⟨t1 :: ts, v1 :: vs, lo, hi⟩ x)
          have := hA.2
          have := eqf x
          linarith

/-- `simplify` in general: the function drifts by at most `1000 * eps` per break point after the first. -/
theorem simplify_drift {f : RC} (h : f.WF) : ∃ g, f.simplify = .ok g ∧ g.WF ∧ g.lo = f.lo ∧ g.hi = f.hi ∧ g.times.Sublist f.times ∧
    g.values.Sublist f.values ∧ g.times.head? = f.times.head? ∧ ∀ x, |g.fn x - f.fn x| ≤ 1000 * eps * (f.times.length - 1 : Nat) := by
  obtain ⟨ts, vs, lo, hi⟩ := f
  cases ts with
  | nil => exact absurd rfl h.ne
  | cons t0 ts =>
    cases vs with
    | nil => have := h.len; simp at this
    | cons v0 vs =>
      obtain ⟨w, sub, sub2, e⟩ := simplifyLoop_drift h
      exact ⟨_, new_ok w, w, rfl, rfl, sub.cons_cons _, sub2.cons_cons _, rfl, by simpa using e⟩

end RC

namespace Merge
open Spec Combine

/-- Where the rates of `i` go. -/
def rep (cs : List Nat) (k i : Nat) : Nat := if i ∈ cs then k else i

theorem addSource_fresh {v : Nat} {f : RC} : ∀ {d : List (Nat × RC)}, v ∉ d.map Prod.fst → addSource v f d = .ok (setD v f d) := by
  intro d
  induction d with
  | nil => intro _; rfl
  | cons p d ih =>
    obtain ⟨u, g⟩ := p
    intro h
    rw [List.map_cons, List.mem_cons, not_or] at h
    unfold addSource setD
    rw [if_neg (Ne.symm h.1), if_neg (Ne.symm h.1), ih h.2]; rfl

theorem srcFn_cons {p : Nat × RC} {l : List (Nat × RC)} (h : p.1 ∉ l.map Prod.fst) (i : Nat) (x : ℚ) :
    srcFn (p :: l) i x = (if i = p.1 then p.2.fn x else 0) + srcFn l i x := by
  obtain ⟨j, f⟩ := p
  unfold srcFn
  rw [List.lookup_cons]
  by_cases hi : i = j
  · subst hi
    have : l.lookup i = none := List.lookup_eq_none_iff.mpr (fun q hq => by
      have : i ≠ q.1 := fun e => h (by rw [e]; exact List.mem_map.mpr ⟨q, hq, rfl⟩)
      simpa using this)
    rw [this]; simp
  · have : (i == j) = false := by simpa using hi
    rw [this]; simp [hi]

theorem sum_ite_mem {C : List Nat} (hC : C.Nodup) (a : Nat) (c : ℚ) : (C.map (fun i => if i = a then c else 0)).sum = if a ∈ C then c else 0 := by
  induction C with
  | nil => simp
  | cons b C ih =>
    rw [List.nodup_cons] at hC
    rw [List.map_cons, List.sum_cons, ih hC.2]
    by_cases h : b = a
    · subst h; simp [hC.1]
    · simp [h, Ne.symm h]

/-- The sum of the rates of the members, by items or by commodities. -/
theorem sum_items {C : List Nat} (hC : C.Nodup) (x : ℚ) : ∀ {l : List (Nat × RC)}, (l.map Prod.fst).Nodup →
    (l.map (fun p => if p.1 ∈ C then p.2.fn x else 0)).sum = (C.map (fun i => srcFn l i x)).sum := by
  intro l
  induction l with
  | nil =>
    intro _
    have : (C.map (fun i => srcFn [] i x)) = C.map (fun _ => (0 : ℚ)) := List.map_congr_left (fun i _ => rfl)
    rw [this]; simp
  | cons p l ih =>
    intro h
    rw [List.map_cons, List.nodup_cons] at h
    rw [List.map_cons, List.sum_cons, ih h.2]
    have : (C.map (fun i => srcFn (p :: l) i x)) = C.map (fun i => (if i = p.1 then p.2.fn x else 0) + srcFn l i x) :=
      List.map_congr_left (fun i _ => srcFn_cons h.1 i x)
    rw [this, List.sum_map_add, sum_ite_mem hC]

theorem sum_single {l : List (Nat × RC)} (h : (l.map Prod.fst).Nodup) (u : Nat) (x : ℚ) :
    (l.map (fun p => if u = p.1 then p.2.fn x else 0)).sum = srcFn l u x := by
  induction l with
  | nil => rfl
  | cons p l ih =>
    rw [List.map_cons, List.nodup_cons] at h
    rw [List.map_cons, List.sum_cons, ih h.2, srcFn_cons h.1]

/-- The invariant of the loop. -/
structure Inv (cs : List Nat) (k : Nat) (H : List ℚ) (done d : List (Nat × RC)) : Prop where
  src : SrcOk (fun _ x => x ∈ H) d
  keys : ∀ u, u ∈ d.map Prod.fst ↔ ∃ p ∈ done, rep cs k p.1 = u
  fn : ∀ u x, srcFn d u x = (done.map (fun p => if u = rep cs k p.1 then p.2.fn x else 0)).sum
  brk : ∀ u x, Brk d u x ↔ ∃ p ∈ done, rep cs k p.1 = u ∧ x ∈ p.2.times

theorem mergeLoop_spec {cs : List Nat} {k : Nat} (hk : k ∈ cs) {H : List ℚ} (hH : Apart eps H) : ∀ {l done d : List (Nat × RC)},
    ((done ++ l).map Prod.fst).Nodup → (∀ p ∈ l, InflowOk p.2 ∧ ∀ x ∈ p.2.times, x ∈ H) → Inv cs k H done d →
    ∃ d', mergeLoop cs k l d = .ok d' ∧ Inv cs k H (done ++ l) d' := by
  intro l
  induction l with
  | nil => intro done d _ _ h; exact ⟨d, rfl, by rwa [List.append_nil]⟩
  | cons p l ih =>
    obtain ⟨i, f⟩ := p
    intro done d hn hl h
    obtain ⟨hf, hfH⟩ := hl (i, f) (by simp)
    obtain ⟨d', a1, a2, a3, a4, a5⟩ := addSource_spec (S := fun _ x => x ∈ H) (fun _ a b ha hb hab => hH a ha b hb hab)
      (v := rep cs k i) hf hfH h.src
    have hd' : Inv cs k H (done ++ [(i, f)]) d' := by
      refine ⟨a2, fun u => ?_, fun u x => ?_, fun u x => ?_⟩
      · rw [a3, h.keys]
        constructor
        · rintro (⟨p, hp, e⟩ | rfl)
          · exact ⟨p, by simp [hp], e⟩
          · exact ⟨(i, f), by simp, rfl⟩
        · rintro ⟨p, hp, e⟩
          rcases List.mem_append.mp hp with hp | hp
          · exact .inl ⟨p, hp, e⟩
          · rw [List.mem_singleton.mp hp] at e; exact .inr e.symm
      · rw [a4, h.fn, List.map_append, List.sum_append]; simp
      · rw [a5, h.brk]
        constructor
        · rintro (⟨p, hp, e⟩ | ⟨rfl, e⟩)
          · exact ⟨p, by simp [hp], e⟩
          · exact ⟨(i, f), by simp, rfl, e⟩
        · rintro ⟨p, hp, e⟩
          rcases List.mem_append.mp hp with hp | hp
          · exact .inl ⟨p, hp, e⟩
          · rw [List.mem_singleton.mp hp] at e; exact .inr ⟨e.1.symm, e.2⟩
    have hn' : ((done ++ [(i, f)] ++ l).map Prod.fst).Nodup := by rwa [List.append_assoc, List.singleton_append]
    obtain ⟨d2, b1, b2⟩ := ih (done := done ++ [(i, f)]) (d := d') hn' (fun p hp => hl p (by simp [hp])) hd'
    refine ⟨d2, ?_, by rwa [List.append_assoc, List.singleton_append] at b2⟩
    unfold mergeLoop
    by_cases hi : i ∈ cs
    · rw [if_neg (by simpa using hi)]
      have : rep cs k i = k := if_pos hi
      rw [this] at a1
      rw [a1, ok_bind, b1]
    · have hr : rep cs k i = i := if_neg hi
      rw [if_pos hi]
      rw [hr] at a1
      have hfresh : i ∉ d.map Prod.fst := by
        rw [h.keys]
        rintro ⟨p, hp, e⟩
        unfold rep at e
        split at e
        · exact hi (e ▸ hk)
        · rw [List.map_append, List.nodup_append] at hn
          exact hn.2.2 p.1 (List.mem_map.mpr ⟨p, hp, rfl⟩) i (by simp) e
      rw [addSource_fresh hfresh] at a1
      injection a1 with a1
      rw [a1, b1]

theorem setD_lookup (k : Nat) (g : RC) : ∀ (d : List (Nat × RC)) (u : Nat), (setD k g d).lookup u = if u = k then some g else d.lookup u := by
  intro d
  induction d with
  | nil =>
    intro u
    unfold setD
    rw [List.lookup_cons]
    by_cases h : u = k
    · subst h; simp
    · have : (u == k) = false := by simpa using h
      rw [this]; simp [h]
  | cons p d ih =>
    obtain ⟨j, f⟩ := p
    intro u
    unfold setD
    by_cases hj : j = k
    · subst hj
      rw [if_pos rfl, List.lookup_cons, List.lookup_cons]
      by_cases h : u = j
      · subst h; simp
      · have : (u == j) = false := by simpa using h
        rw [this]; simp [h]
    · rw [if_neg hj, List.lookup_cons, List.lookup_cons, ih]
      by_cases h : u = j
      · subst h; simp [hj]
      · have : (u == j) = false := by simpa using h
        rw [this]

theorem setD_keys {k : Nat} {g : RC} : ∀ {d : List (Nat × RC)}, k ∈ d.map Prod.fst → (setD k g d).map Prod.fst = d.map Prod.fst := by
  intro d
  induction d with
  | nil => intro h; simp at h
  | cons p d ih =>
    obtain ⟨j, f⟩ := p
    intro h
    unfold setD
    by_cases hj : j = k
    · rw [if_pos hj]; rfl
    · rw [if_neg hj, List.map_cons, List.map_cons, ih]
      rcases List.mem_cons.mp h with h | h
      · exact absurd h.symm hj
      · exact h

theorem setD_mem {k : Nat} {g : RC} : ∀ {d : List (Nat × RC)} {p : Nat × RC}, p ∈ setD k g d → p = (k, g) ∨ p ∈ d := by
  intro d
  induction d with
  | nil => intro p h; left; simpa [setD] using h
  | cons q d ih =>
    obtain ⟨j, f⟩ := q
    intro p h
    unfold setD at h
    split at h
    · rename_i hj
      subst hj
      rcases List.mem_cons.mp h with h | h
      · exact .inl h
      · exact .inr (by simp [h])
    · rcases List.mem_cons.mp h with h | h
      · exact .inr (by simp [h])
      · rcases ih h with h | h
        · exact .inl h
        · exact .inr (by simp [h])

/-- What `simplifyAt` does. -/
theorem simplifyAt_spec {k : Nat} {H : List ℚ} {d : List (Nat × RC)} (hd : SrcOk (fun _ x => x ∈ H) d) (hz : ∀ u ∈ d.map Prod.fst, Brk d u 0) :
    ∃ d', simplifyAt k d = .ok d' ∧ SrcOk (fun _ x => x ∈ H) d' ∧ (∀ p ∈ d', (0 : ℚ) ∈ p.2.times) ∧ (∀ u, u ≠ k → ∀ x, srcFn d' u x = srcFn d u x) ∧
      (∀ x, |srcFn d' k x - srcFn d k x| ≤ 1000 * eps * ((match d.lookup k with | none => 0 | some f => f.times.length - 1 : Nat) : ℚ)) ∧
      ((∀ f, d.lookup k = some f → ∀ i (hi : i + 1 < f.values.length), f.values[i] = f.values[i + 1] ∨ 1000 * eps ≤ |f.values[i] - f.values[i + 1]|) →
        ∀ x, srcFn d' k x = srcFn d k x) := by
  have hz' : ∀ p ∈ d, (0 : ℚ) ∈ p.2.times := by
    intro p hp
    obtain ⟨f, hf, h0⟩ := hz p.1 (List.mem_map.mpr ⟨p, hp, rfl⟩)
    have : (p.1, f) = p := by
      by_contra hne
      exact hne (List.inj_on_of_nodup_map hd.keys hf hp rfl)
    rw [← this]; exact h0
  unfold simplifyAt
  cases hl : d.lookup k with
  | none =>
    refine ⟨d, rfl, hd, hz', fun _ _ _ => rfl, fun x => by simp, fun _ x => rfl⟩
  | some f =>
    have hm := lookup_mem' hl
    have hf := hd.ok _ hm
    have wf := Builder.inflowOk_wf hf
    obtain ⟨g, g1, g2, g3, g4, g5, g6, g7, g8⟩ := RC.simplify_drift wf
    have hkm : k ∈ d.map Prod.fst := List.mem_map.mpr ⟨_, hm, rfl⟩
    have hg : InflowOk g := ⟨g2.len, g2.ne, g2.lt, fun t ht => hf.pos t (g5.subset ht), by rw [g3, hf.lo], by rw [g4, hf.hi],
      fun v hv => hf.vals v (g6.subset hv)⟩
    have hg0 : (0 : ℚ) ∈ g.times := by
      have hf0 := hz' _ hm
      have h1 : f.times[0]'wf.pos = 0 := by
        apply le_antisymm
        · obtain ⟨j, hj, e⟩ := List.getElem_of_mem hf0
          have : f.times[0]'wf.pos ≤ f.times[j] := by
            rcases Nat.eq_zero_or_pos j with rfl | hp
            · exact le_rfl
            · exact le_of_lt (List.pairwise_iff_getElem.mp wf.lt 0 j wf.pos hj hp)
          rw [e] at this; exact this
        · exact hf.pos _ (List.getElem_mem _)
      have h2 : g.times[0]'g2.pos = 0 := by
        rw [List.head?_eq_getElem?, List.head?_eq_getElem?, List.getElem?_eq_getElem g2.pos, List.getElem?_eq_getElem wf.pos] at g7
        injection g7 with g7
        rw [g7, h1]
      rw [← h2]; exact List.getElem_mem _
    refine ⟨setD k g d, by simp only [g1, ok_bind]; rfl, ⟨by rw [setD_keys hkm]; exact hd.keys, ?_, ?_⟩, ?_, ?_, ?_, ?_⟩
    · intro p hp
      rcases setD_mem hp with rfl | hp
      · exact hg
      · exact hd.ok p hp
    · rintro v x ⟨f', hf', hx⟩
      rcases setD_mem hf' with e | hp
      · injection e with e1 e2; subst e2
        exact hd.brk k x ⟨f, hm, g5.subset hx⟩
      · exact hd.brk v x ⟨f', hp, hx⟩
    · intro p hp
      rcases setD_mem hp with rfl | hp
      · exact hg0
      · exact hz' p hp
    · intro u hu x
      unfold srcFn
      rw [setD_lookup, if_neg hu]
    · intro x
      have e1 : srcFn (setD k g d) k x = g.fn x := by unfold srcFn; rw [setD_lookup, if_pos rfl]
      have e2 : srcFn d k x = f.fn x := by unfold srcFn; rw [hl]
      rw [e1, e2]; exact g8 x
    · intro hE x
      obtain ⟨g', a1, _, _, _, _, _, a7⟩ := RC.simplify_ok wf (hE f rfl)
      rw [g1] at a1; injection a1 with a1; subst a1
      have e1 : srcFn (setD k g d) k x = g.fn x := by unfold srcFn; rw [setD_lookup, if_pos rfl]
      have e2 : srcFn d k x = f.fn x := by unfold srcFn; rw [hl]
      rw [e1, e2]; exact a7 x

theorem flatten_length (items : List (Nat × RC)) : (items.map (fun p => p.2.times)).flatten.length = breakPoints items := by
  unfold breakPoints
  rw [List.length_flatten, List.map_map]; rfl

/-- Merging the functions of one collection. -/
theorem mergeCollection_spec {cs : List Nat} {k : Nat} (hk : k ∈ cs) {c : FRC} {L R : ℚ} {V : Rates} (h : c.Good L V R) {items : List (Nat × RC)}
    (hi : Items c items) : ∃ c', mergeCollection cs k items = .ok c' ∧ (∀ i x, 0 ≤ x → c'.rateAt i x = .ok (FRC.rate c'.funs i x)) ∧
      MergedRates cs k (1000 * eps * breakPoints items) (FRC.rate c.funs) (FRC.rate c'.funs) ∧
      (SumApart cs (FRC.rate c.funs) → ∀ x, 0 ≤ x → FRC.rate c'.funs k x = (cs.dedup.map (fun i => FRC.rate c.funs i x)).sum) := by
  have hep := eps_pos
  obtain ⟨H, _, hH, _, hW⟩ := h.chain
  have hsrc : ∀ i x, srcFn items i x = FRC.rate c.funs i x := by
    intro i x
    unfold srcFn FRC.rate
    rw [hi.2]
    cases c.funs i <;> rfl
  have hlook : ∀ p ∈ items, c.funs p.1 = some p.2 := by
    intro p hp
    rw [← hi.2]
    cases hl : items.lookup p.1 with
    | none => have := List.lookup_eq_none_iff.mp hl p hp; simp at this
    | some f =>
      have := List.inj_on_of_nodup_map hi.1 (lookup_mem' hl) hp rfl
      rw [← this]
  have hok : ∀ p ∈ items, InflowOk p.2 ∧ ∀ x ∈ p.2.times, x ∈ H := by
    intro p hp
    have hg := (h.funs p.1).1 _ (hlook p hp)
    have hw := hW.2 _ _ (hlook p hp)
    refine ⟨⟨hg.wf.len, hg.wf.ne, hg.wf.lt, fun t ht => ?_, hg.lo, hg.hi, hw.2⟩, hw.1⟩
    have := (hg.wf.dom t ht).1
    rw [hg.lo] at this
    exact WithBot.coe_le_coe.mp this
  have h0 : ∀ p ∈ items, (0 : ℚ) ∈ p.2.times := by
    intro p hp
    have hg := (h.funs p.1).1 _ (hlook p hp)
    rw [← hg.head]; exact List.getElem_mem _
  obtain ⟨d, d1, d2⟩ := mergeLoop_spec hk hH (l := items) (done := []) (d := []) (by simpa using hi.1) hok
    ⟨⟨by simp, by simp, fun v x ⟨f, hf, _⟩ => by cases hf⟩, by simp, fun u x => rfl, fun u x => by simp [Brk]⟩
  rw [List.nil_append] at d2
  obtain ⟨d', s1, s2, s3, s4, s5, s6⟩ := simplifyAt_spec (k := k) d2.src (by
    intro u hu
    obtain ⟨p, hp, e⟩ := (d2.keys u).mp hu
    exact (d2.brk u 0).mpr ⟨p, hp, e, h0 p hp⟩)
  have hD : FRC.DictOk d' := by
    refine ⟨s2.keys, fun p hp => Builder.inflowOk_wf (s2.ok p hp), fun p hp => le_of_eq (s2.ok p hp).lo, fun p hp => (s2.ok p hp).hi,
      fun p hp => (s2.ok p hp).pos, ?_, ?_, fun p hp => (s2.ok p hp).vals⟩
    · intro hne
      obtain ⟨p, hp⟩ := List.exists_mem_of_ne_nil _ hne
      exact ⟨p, hp, s3 p hp⟩
    · have hm : ∀ a ∈ (d'.map (fun p => p.2.times)).flatten, a ∈ H := by
        intro a ha
        obtain ⟨l, hl, ha⟩ := List.mem_flatten.mp ha
        obtain ⟨p, hp, rfl⟩ := List.mem_map.mp hl
        exact s2.brk p.1 a ⟨p.2, hp, ha⟩
      intro a ha b hb hab
      exact hH a (hm a ha) b (hm b hb) hab
  obtain ⟨c', c1, _, c3⟩ := FRC.ofDict_reads hD
  have hrate : ∀ i x, FRC.rate c'.funs i x = srcFn d' i x := by
    intro i x
    unfold FRC.rate srcFn
    rw [c3]
    show (match d'.lookup i with | none => 0 | some f => f.fn x) = _
    cases d'.lookup i <;> rfl
  have hrk : ∀ i, rep cs k i = k ↔ i ∈ cs := by
    intro i
    unfold rep
    by_cases hc : i ∈ cs
    · simp [hc]
    · simp only [hc, if_false, iff_false]
      intro e; exact hc (e ▸ hk)
  have hsum : ∀ x, srcFn d k x = (cs.dedup.map (fun i => FRC.rate c.funs i x)).sum := by
    intro x
    rw [d2.fn]
    have e1 : (items.map (fun p => if k = rep cs k p.1 then p.2.fn x else 0)) = items.map (fun p => if p.1 ∈ cs.dedup then p.2.fn x else 0) := by
      refine List.map_congr_left fun p _ => ?_
      have : (k = rep cs k p.1) ↔ p.1 ∈ cs.dedup := by rw [List.mem_dedup, ← hrk]; exact eq_comm
      simp only [this]
    rw [e1, sum_items cs.nodup_dedup x hi.1]
    exact congrArg _ (List.map_congr_left fun i _ => hsrc i x)
  refine ⟨c', ?_, ?_, ⟨?_, ?_, ?_⟩, ?_⟩
  · unfold mergeCollection; rw [d1, ok_bind, s1, ok_bind, c1]
  · intro i x hx
    unfold FRC.rateAt FRC.rate
    cases hf : c'.funs i with
    | none => rfl
    | some f =>
      rw [c3] at hf
      have hf' := s2.ok _ (lookup_mem' hf)
      refine RC.eval_eq (Builder.inflowOk_wf hf') ?_
      unfold RC.inDom
      rw [hf'.lo, hf'.hi]
      exact ⟨WithBot.coe_le_coe.mpr hx, le_top⟩
  · intro i hic x _
    rw [hrate, s4 i (fun e => hic (e ▸ hk)), d2.fn, ← hsrc, ← sum_single hi.1]
    refine congrArg _ (List.map_congr_left fun p _ => ?_)
    have : (i = rep cs k p.1) ↔ i = p.1 := by
      unfold rep
      by_cases hc : p.1 ∈ cs
      · simp only [hc, if_true]
        exact ⟨fun e => absurd (e ▸ hk) hic, fun e => absurd (e ▸ hc) hic⟩
      · simp only [hc, if_false]
    simp only [this]
  · intro i hic hne x _
    rw [hrate, s4 i hne, d2.fn]
    have : (items.map (fun p => if i = rep cs k p.1 then p.2.fn x else 0)) = items.map (fun _ => (0 : ℚ)) := by
      refine List.map_congr_left fun p _ => if_neg ?_
      unfold rep
      by_cases hc : p.1 ∈ cs
      · simpa only [hc, if_true] using hne
      · simp only [hc, if_false]
        intro e; exact hc (e ▸ hic)
    rw [this]; simp
  · intro x _
    rw [hrate, ← hsum]
    refine le_trans (s5 x) (mul_le_mul_of_nonneg_left ?_ (by positivity))
    cases hl : d.lookup k with
    | none => simp
    | some f =>
      simp only
      have hw := Builder.inflowOk_wf (d2.src.ok _ (lookup_mem' hl))
      have hnd : f.times.Nodup := hw.lt.imp (fun h => ne_of_lt h)
      have hsub : f.times ⊆ (items.map (fun p => p.2.times)).flatten := by
        intro y hy
        obtain ⟨p, hp, _, hyp⟩ := (d2.brk k y).mp ⟨f, lookup_mem' hl, hy⟩
        exact List.mem_flatten.mpr ⟨_, List.mem_map.mpr ⟨p, hp, rfl⟩, hyp⟩
      have := (List.Nodup.subperm hnd hsub).length_le
      rw [flatten_length] at this
      exact_mod_cast (by omega : f.times.length - 1 ≤ breakPoints items)
  · intro hap x hx
    rw [hrate, s6 ?_ x, hsum]
    intro f hf i hi'
    have hfo : InflowOk f := d2.src.ok _ (lookup_mem' hf)
    have hw := Builder.inflowOk_wf hfo
    have e : ∀ y, f.fn y = (cs.dedup.map (fun i => FRC.rate c.funs i y)).sum := by
      intro y
      rw [← hsum]; unfold srcFn; rw [hf]
    have := hap (f.times[i]'(by rw [← hw.len]; omega)) (f.times[i + 1]'(by rw [← hw.len]; exact hi')) (hfo.pos _ (List.getElem_mem _)) (hfo.pos _ (List.getElem_mem _))
    rw [← e, ← e, RC.fn_time hw (by rw [← hw.len]; omega), RC.fn_time hw (by rw [← hw.len]; exact hi')] at this
    exact this

end Merge
end Verif
