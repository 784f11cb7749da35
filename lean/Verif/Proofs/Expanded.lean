import Verif.Spec.Expanded
import Verif.Proofs.Dataset

/-! Proofs about the older training data. -/

namespace Verif.Expanded
open Verif Verif.Builder Verif.Dataset Verif.Spec

theorem mem_intRange {a b i : Int} : i ∈ intRange a b ↔ a ≤ i ∧ i < b := by
  unfold intRange
  rw [List.mem_map]
  constructor
  · rintro ⟨k, hk, rfl⟩
    have := List.mem_range.mp hk
    omega
  · rintro ⟨h1, h2⟩
    exact ⟨(i - a).toNat, List.mem_range.mpr (by omega), by omega⟩

theorem intRange_nodup (a b : Int) : (intRange a b).Nodup := by
  unfold intRange
  refine List.Nodup.map (fun x y h => ?_) List.nodup_range
  simpa using h

theorem stepRange_spec {k b : Int} (hk : 0 < k) : ∃ l, stepRange 0 b k = .ok l ∧ Multiples k b l := by
  refine ⟨_, by unfold stepRange; rw [if_neg (by omega), if_pos hk], ?_, ?_⟩
  · rw [List.pairwise_map]
    refine List.Pairwise.imp ?_ List.pairwise_lt_range
    intro x y hxy
    have : (x : Int) * k < y * k := (Int.mul_lt_mul_right hk).mpr (by omega)
    omega
  · intro i
    rw [List.mem_map]
    constructor
    · rintro ⟨j, hj, rfl⟩
      have hj := List.mem_range.mp hj
      have h1 : (j : Int) + 1 ≤ (b - 0 + k - 1) / k := by omega
      have h2 := (Int.le_ediv_iff_mul_le hk).mp h1
      have h3 : ((j : Int) + 1) * k = j * k + k := by ring
      have h4 : 0 ≤ (j : Int) * k := Int.mul_nonneg (by omega) hk.le
      exact ⟨by omega, by omega, by rw [Int.zero_add]; exact Dvd.intro_left _ rfl⟩
    · rintro ⟨h1, h2, c, rfl⟩
      have hc : 0 ≤ c := by
        by_contra hc
        have : k * c < 0 := Int.mul_neg_of_pos_of_neg hk (by omega)
        omega
      refine ⟨c.toNat, List.mem_range.mpr ?_, ?_⟩
      · have h1 : c + 1 ≤ (b - 0 + k - 1) / k := (Int.le_ediv_iff_mul_le hk).mpr (by
          have : (c + 1) * k = k * c + k := by ring
          omega)
        omega
      · rw [Int.toNat_of_nonneg hc]; ring

theorem lookup_map {K : Type} [DecidableEq K] (F : K → ℚ) (keys : List K) (c : K) :
    (keys.map (fun k => (k, F k))).lookup c = if c ∈ keys then some (F c) else none := by
  induction keys with
  | nil => rfl
  | cons k ks ih =>
    by_cases h : c = k
    · subst h; simp [List.lookup]
    · have : (c == k) = false := by simpa using h
      rw [List.map_cons, List.lookup_cons, this, ih]
      simp [h]

/-! ### expanded queues -/

theorem fill_eq {K : Type} {s : DFlow} {step phi : ℚ} {key : Int → K} {i : Nat} {ts : List Int} {v : Int → ℚ}
    (h : ∀ t : Int, (s.queues i).eval (phi - step * t) = .ok (v t)) : fill s step phi key i ts = .ok (ts.map (fun t => (key t, v t))) := by
  unfold fill
  exact Predictors.mapPy_eq (fun t _ => by rw [h, ok_bind]; rfl)

/-- The keys of a row. -/
def rowKeys (g : Graph) (past future r : Nat) : List Col :=
  (g.incoming (g.nodeFrom r)).zipIdx.flatMap (fun p => (intRange (-past) 1).map (Col.inc p.2)) ++ (intRange (-past) (future + 1)).map Col.own

theorem mem_rowKeys {g : Graph} {past future r : Nat} {c : Col} : c ∈ rowKeys g past future r ↔
    (match c with
      | .own t => -(past : Int) ≤ t ∧ t ≤ future
      | .inc k t => k < (g.incoming (g.nodeFrom r)).length ∧ -(past : Int) ≤ t ∧ t ≤ 0) := by
  unfold rowKeys
  rw [List.mem_append]
  cases c with
  | own t =>
    simp only [List.mem_flatMap, List.mem_map, mem_intRange]
    constructor
    · rintro (⟨_, _, _, _, h⟩ | ⟨x, h1, h2⟩)
      · cases h
      · injection h2 with h2; subst h2; omega
    · rintro h
      exact Or.inr ⟨t, by omega, rfl⟩
  | inc k t =>
    simp only [List.mem_flatMap, List.mem_map, mem_intRange]
    constructor
    · rintro (⟨⟨p, i⟩, h, x, h1, h2⟩ | ⟨x, h1, h2⟩)
      · injection h2 with h2 h3
        subst h2; subst h3
        have := (List.mem_zipIdx' h).1
        exact ⟨this, by omega, by omega⟩
      · cases h2
    · rintro ⟨h1, h2, h3⟩
      refine Or.inl ⟨((g.incoming (g.nodeFrom r))[k], k), ?_, t, by omega, rfl⟩
      rw [List.mk_mem_zipIdx_iff_getElem?]
      exact List.getElem?_eq_getElem h1

/-- The value of a key. -/
def valueOf (g : Graph) (s : DFlow) (step : ℚ) (phi : Int) (r : Nat) (c : Col) : ℚ := (meant g s step phi r (mirror c)).getD 0

theorem row_eq {g : Graph} {past future : Nat} {step : ℚ} {s : DFlow} {phi : Int} {r : Nat}
    (h : ∀ e x, (s.queues e).eval x = .ok (queueAt s e x)) :
    expandedRow g past future step s phi r = .ok ((rowKeys g past future r).map (fun c => (c, valueOf g s step phi r c))) := by
  unfold expandedRow
  have h1 : mapPy (fun (p : Nat × Nat) => fill s step phi (Col.inc p.2) (g.edge p.1).id (intRange (-past) 1)) (g.incoming (g.nodeFrom r)).zipIdx =
      .ok ((g.incoming (g.nodeFrom r)).zipIdx.map (fun p => ((intRange (-past) 1).map (Col.inc p.2)).map (fun c => (c, valueOf g s step phi r c)))) := by
    refine Predictors.mapPy_eq (fun p hp => ?_)
    rw [fill_eq (fun t => h _ _), List.map_map]
    refine congrArg Except.ok (List.map_congr_left (fun t _ => ?_))
    have : (g.incoming (g.nodeFrom r))[p.2]? = some p.1 := by
      obtain ⟨a, b⟩ := p
      exact List.mk_mem_zipIdx_iff_getElem?.mp hp
    simp only [Function.comp, valueOf, mirror, meant, this, Option.map_some, Option.getD_some]
    push_cast
    congr 2
    ring
  rw [h1, ok_bind, fill_eq (fun t => h _ _), ok_bind, py_pure]
  unfold rowKeys
  rw [List.map_append, List.map_map, List.map_flatMap]
  refine congrArg Except.ok (congrArg₂ (· ++ ·) (by rw [List.flatMap_def]) (List.map_congr_left (fun t _ => ?_)))
  simp only [Function.comp, valueOf, mirror, meant, Option.getD_some]
  push_cast
  congr 2
  ring

theorem busy_iff {g : Graph} {past future : Nat} {step : ℚ} {s : DFlow} {phi : Int} {r : Nat} :
    ((rowKeys g past future r).map (fun c => (c, valueOf g s step phi r c))).any (fun p => decide (p.2 ≠ 0)) = true ↔ Busy g s past future step phi r := by
  rw [List.any_eq_true]
  have e1 : ∀ t : Int, valueOf g s step phi r (.own t) = queueAt s (g.edge r).id (phi - step * t) := by
    intro t
    simp only [valueOf, mirror, meant, Option.getD_some]
    push_cast; congr 1; ring
  have e2 : ∀ (k : Nat) (t : Int) (p : Nat), (g.incoming (g.nodeFrom r))[k]? = some p → valueOf g s step phi r (.inc k t) = queueAt s (g.edge p).id (phi - step * t) := by
    intro k t p hp
    simp only [valueOf, mirror, meant, hp, Option.map_some, Option.getD_some]
    push_cast; congr 1; ring
  constructor
  · rintro ⟨_, hx, hne⟩
    obtain ⟨c, hc, rfl⟩ := List.mem_map.mp hx
    simp only [decide_eq_true_eq] at hne
    have hc := mem_rowKeys.mp hc
    cases c with
    | own t => rw [e1] at hne; exact Or.inl ⟨t, hc.1, hc.2, hne⟩
    | inc k t =>
      rw [e2 k t _ (List.getElem?_eq_getElem hc.1)] at hne
      exact Or.inr ⟨_, List.getElem_mem hc.1, t, hc.2.1, hc.2.2, hne⟩
  · rintro (⟨t, h1, h2, h3⟩ | ⟨p, hp, t, h1, h2, h3⟩)
    · refine ⟨_, List.mem_map.mpr ⟨.own t, mem_rowKeys.mpr ⟨h1, h2⟩, rfl⟩, ?_⟩
      rw [decide_eq_true_eq, e1]; exact h3
    · obtain ⟨k, hk, hp⟩ := List.mem_iff_getElem.mp hp
      refine ⟨_, List.mem_map.mpr ⟨.inc k t, mem_rowKeys.mpr ⟨hk, h1, h2⟩, rfl⟩, ?_⟩
      rw [decide_eq_true_eq, e2 k t p (by rw [List.getElem?_eq_getElem hk, hp])]; exact h3

theorem header_ok (past future : Nat) : HeaderOk past future (expandedCols past future) := by
  unfold expandedCols
  refine ⟨?_, ?_, ?_⟩
  · rw [List.nodup_append]
    refine ⟨?_, (intRange_nodup _ _).map (fun x y h => by injection h), ?_⟩
    · rw [List.nodup_flatMap]
      refine ⟨fun k _ => (intRange_nodup _ _).map (fun x y h => by injection h), ?_⟩
      refine List.Pairwise.imp ?_ List.pairwise_lt_range
      intro a b hab c h1 h2
      obtain ⟨x, _, rfl⟩ := List.mem_map.mp h1
      obtain ⟨y, _, hy⟩ := List.mem_map.mp h2
      injection hy with hy _
      omega
    · intro a ha b hb hab
      subst hab
      obtain ⟨k, _, h1⟩ := List.mem_flatMap.mp ha
      obtain ⟨x, _, rfl⟩ := List.mem_map.mp h1
      obtain ⟨y, _, hy⟩ := List.mem_map.mp hb
      cases hy
  · intro t
    simp only [List.mem_append, List.mem_flatMap, List.mem_map, mem_intRange]
    constructor
    · rintro (⟨_, _, _, _, h⟩ | ⟨x, h1, h2⟩)
      · cases h
      · injection h2 with h2; subst h2; omega
    · intro h
      exact Or.inr ⟨t, by omega, rfl⟩
  · intro k t
    simp only [List.mem_append, List.mem_flatMap, List.mem_map, mem_intRange, List.mem_range]
    constructor
    · rintro (⟨i, hi, x, h1, h2⟩ | ⟨x, h1, h2⟩)
      · injection h2 with h2 h3
        subst h2; subst h3
        omega
      · cases h2
    · rintro ⟨h1, h2, h3⟩
      exact Or.inl ⟨k, h1, t, by omega, rfl⟩

theorem cell_eq {g : Graph} {past future : Nat} {step : ℚ} {s : DFlow} {phi : Int} {r : Nat} {c : Col} (hc : c ∈ expandedCols past future) :
    ((rowKeys g past future r).map (fun c => (c, valueOf g s step phi r c))).lookup c = meant g s step phi r (mirror c) := by
  rw [lookup_map]
  obtain ⟨_, h1, h2⟩ := header_ok past future
  cases c with
  | own t =>
    rw [if_pos (mem_rowKeys.mpr ((h1 t).mp hc))]
    rfl
  | inc k t =>
    have hk := (h2 k t).mp hc
    by_cases h : k < (g.incoming (g.nodeFrom r)).length
    · rw [if_pos (mem_rowKeys.mpr (show _ ∧ _ from ⟨h, hk.2⟩))]
      simp only [valueOf, mirror, meant, List.getElem?_eq_getElem h, Option.map_some, Option.getD_some]
    · rw [if_neg (fun hm => h (mem_rowKeys (c := .inc k t).mp hm).1)]
      simp only [mirror, meant, List.getElem?_eq_none (Nat.le_of_not_lt h), Option.map_none]

open Classical in
/-- The rows of the table. -/
noncomputable def tableRows (g : Graph) (past future : Nat) (step : ℚ) (times : List Int) (flows : List DFlow) : List (List (Option ℚ)) :=
  flows.flatMap (fun s => times.flatMap (fun phi => (g.edges.filter (fun r => decide (Busy g s past future step phi r))).map
    (fun r => (expandedCols past future).map (fun c => meant g s step phi r (mirror c)))))

theorem file_eq {g : Graph} {past future : Nat} {step : ℚ} {s : DFlow} {times : List Int} (h : ∀ e x, (s.queues e).eval x = .ok (queueAt s e x)) :
    expandedFile g past future step times (.plain s) = .ok ((times.flatMap (fun phi => g.edges.map (fun r =>
      (rowKeys g past future r).map (fun c => (c, valueOf g s step phi r c))))).filter (fun d => d.any (fun p => decide (p.2 ≠ 0)))) := by
  unfold expandedFile
  show (do
    let rows ← mapPy (fun phi => mapPy (expandedRow g past future step s phi) g.edges) times
    pure (rows.flatten.filter (fun d => d.any (fun p => decide (p.2 ≠ 0)))) : Py _) = _
  rw [Predictors.mapPy_eq (g := fun phi => g.edges.map (fun r => (rowKeys g past future r).map (fun c => (c, valueOf g s step phi r c))))
    (fun phi _ => Predictors.mapPy_eq (fun r _ => row_eq h)), ok_bind, py_pure, List.flatMap_def]

theorem table_eq {g : Graph} {past future : Nat} {step horizon : ℚ} {k : Int} {times : List Int} {flows : List DFlow}
    (ht : stepRange 0 ⌊horizon - step * future⌋ k = .ok times) (h : ∀ s ∈ flows, ∀ e x, (s.queues e).eval x = .ok (queueAt s e x)) :
    expandedTable g past future step horizon k (flows.map FlowFile.plain) = .ok (expandedCols past future, tableRows g past future step times flows) := by
  classical
  unfold expandedTable
  rw [ht, ok_bind]
  have h1 : mapPy (expandedFile g past future step times) (flows.map FlowFile.plain) = .ok (flows.map (fun s => (times.flatMap (fun phi => g.edges.map (fun r =>
      (rowKeys g past future r).map (fun c => (c, valueOf g s step phi r c))))).filter (fun d => d.any (fun p => decide (p.2 ≠ 0))))) := by
    clear ht
    induction flows with
    | nil => rfl
    | cons s ss ih =>
      rw [List.map_cons, mapPy, file_eq (h s List.mem_cons_self), ok_bind, ih (fun s' hs' => h s' (List.mem_cons_of_mem _ hs')), ok_bind]
      rfl
  rw [h1, ok_bind, py_pure]
  unfold tableRows frame
  refine congrArg Except.ok (congrArg (Prod.mk _) ?_)
  rw [← List.flatMap_def, List.map_flatMap]
  refine List.flatMap_congr (fun s _ => ?_)
  rw [List.filter_flatMap, List.map_flatMap]
  refine List.flatMap_congr (fun phi _ => ?_)
  rw [List.filter_map, List.map_map]
  have h2 : g.edges.filter ((fun d : List (Col × ℚ) => d.any (fun p => decide (p.2 ≠ 0))) ∘ fun r => (rowKeys g past future r).map (fun c => (c, valueOf g s step phi r c))) =
      g.edges.filter (fun r => decide (Busy g s past future step phi r)) := by
    refine List.filter_congr (fun r _ => ?_)
    rw [Bool.eq_iff_iff, decide_eq_true_eq]
    exact busy_iff
  rw [h2]
  refine List.map_congr_left (fun r _ => List.map_congr_left (fun c hc => ?_))
  exact cell_eq hc

/-! ### one table per edge -/

/-- The keys after `d[i, t] = …` for all `t`. -/
def addKeys (keys : List (Nat × Int)) (i : Nat) : List Int → List (Nat × Int)
  | [] => keys
  | t :: ts => addKeys (if (i, t) ∈ keys then keys else keys ++ [(i, t)]) i ts

theorem put_map {K : Type} [DecidableEq K] (F : K → ℚ) (keys : List K) (k : K) :
    put (keys.map (fun c => (c, F c))) k (F k) = (if k ∈ keys then keys else keys ++ [k]).map (fun c => (c, F c)) := by
  unfold put
  have : (keys.map (fun c => (c, F c))).any (fun p => decide (p.1 = k)) = decide (k ∈ keys) := by
    rw [Bool.eq_iff_iff, List.any_eq_true, decide_eq_true_eq]
    constructor
    · rintro ⟨_, h, h2⟩
      obtain ⟨c, hc, rfl⟩ := List.mem_map.mp h
      simp only [decide_eq_true_eq] at h2
      subst h2; exact hc
    · intro h
      exact ⟨_, List.mem_map.mpr ⟨k, h, rfl⟩, by simp⟩
  rw [this]
  by_cases h : k ∈ keys
  · rw [if_pos (by simpa using h), if_pos h, List.map_map]
    refine List.map_congr_left (fun c _ => ?_)
    simp only [Function.comp]
    by_cases hc : c = k
    · rw [if_pos hc, hc]
    · rw [if_neg hc]
  · rw [if_neg (by simpa using h), if_neg h, List.map_append]
    rfl

theorem addKeys_nodup {i : Nat} : ∀ (ts : List Int) {keys : List (Nat × Int)}, keys.Nodup → (addKeys keys i ts).Nodup
  | [], _, h => h
  | t :: ts, keys, h => by
    unfold addKeys
    refine addKeys_nodup ts ?_
    split
    · exact h
    · rename_i hn
      rw [List.nodup_append]
      refine ⟨h, by simp, ?_⟩
      intro a ha b hb
      rw [List.mem_singleton] at hb
      rintro rfl
      exact hn (hb ▸ ha)

theorem mem_addKeys {i : Nat} {x : Nat × Int} : ∀ (ts : List Int) {keys : List (Nat × Int)}, x ∈ addKeys keys i ts ↔ x ∈ keys ∨ (x.1 = i ∧ x.2 ∈ ts)
  | [], _ => by simp [addKeys]
  | t :: ts, keys => by
    unfold addKeys
    rw [mem_addKeys ts]
    obtain ⟨a, b⟩ := x
    by_cases h : (i, t) ∈ keys
    · rw [if_pos h]
      constructor
      · rintro (h1 | ⟨h1, h2⟩)
        · exact Or.inl h1
        · exact Or.inr ⟨h1, List.mem_cons_of_mem _ h2⟩
      · rintro (h1 | ⟨h1, h2⟩)
        · exact Or.inl h1
        · rcases List.mem_cons.mp h2 with h2 | h2
          · simp only at h1 h2; subst h1; subst h2; exact Or.inl h
          · exact Or.inr ⟨h1, h2⟩
    · rw [if_neg h, List.mem_append, List.mem_singleton, Prod.mk.injEq]
      simp only [List.mem_cons]
      tauto

theorem fillEdge_eq {average : Bool} {step phi : ℚ} {s : DFlow} {i : Nat} {F : Nat × Int → ℚ} :
    ∀ (ts : List Int) (_ : ∀ t ∈ ts, sampleOf average step phi (s.queues i) t = .ok (F (i, t))) (keys : List (Nat × Int)),
      fillEdge average step phi s i ts (keys.map (fun c => (c, F c))) = .ok ((addKeys keys i ts).map (fun c => (c, F c)))
  | [], _, keys => rfl
  | t :: ts, h, keys => by
    unfold fillEdge addKeys
    rw [h t List.mem_cons_self, ok_bind, put_map]
    convert fillEdge_eq ts (fun t' ht' => h t' (List.mem_cons_of_mem _ ht')) (if (i, t) ∈ keys then keys else keys ++ [(i, t)])

/-- The keys after `fillEdges`. -/
def addAll (ts : List Int) : List Nat → List (Nat × Int) → List (Nat × Int)
  | [], keys => keys
  | i :: is, keys => addAll ts is (addKeys keys i ts)

theorem fillEdges_eq {average : Bool} {step phi : ℚ} {s : DFlow} {F : Nat × Int → ℚ} {ts : List Int} (h : ∀ i, ∀ t ∈ ts, sampleOf average step phi (s.queues i) t = .ok (F (i, t))) :
    ∀ (is : List Nat) (keys : List (Nat × Int)), fillEdges average step phi s ts is (keys.map (fun c => (c, F c))) = .ok ((addAll ts is keys).map (fun c => (c, F c)))
  | [], keys => rfl
  | i :: is, keys => by
    unfold fillEdges addAll
    rw [fillEdge_eq ts (h i), ok_bind]
    exact fillEdges_eq h is _

theorem addAll_nodup {ts : List Int} : ∀ (is : List Nat) {keys : List (Nat × Int)}, keys.Nodup → (addAll ts is keys).Nodup
  | [], _, h => h
  | i :: is, _, h => by unfold addAll; exact addAll_nodup is (addKeys_nodup ts h)

theorem mem_addAll {ts : List Int} {x : Nat × Int} : ∀ (is : List Nat) {keys : List (Nat × Int)}, x ∈ addAll ts is keys ↔ x ∈ keys ∨ (x.1 ∈ is ∧ x.2 ∈ ts)
  | [], _ => by simp [addAll]
  | i :: is, keys => by
    unfold addAll
    rw [mem_addAll is, mem_addKeys, List.mem_cons]
    tauto

/-- The header of the table of an edge. -/
def edgeKeys (g : Graph) (past future r : Nat) : List (Nat × Int) :=
  addKeys (addAll (intRange (-past + 1) 1) ((g.outgoing (g.nodeTo r)).map (fun p => (g.edge p).id))
    (addAll (intRange (-past + 1) 1) ((g.incoming (g.nodeFrom r)).map (fun p => (g.edge p).id)) [])) (g.edge r).id (intRange (-past + 1) (future + 1))

theorem edgeKeys_ok (g : Graph) (past future r : Nat) : EdgeHeaderOk g past future r (edgeKeys g past future r) := by
  unfold edgeKeys
  refine ⟨addKeys_nodup _ (addAll_nodup _ (addAll_nodup _ List.nodup_nil)), fun j t => ?_⟩
  rw [mem_addKeys, mem_addAll, mem_addAll]
  simp only [mem_intRange, List.mem_map, List.not_mem_nil, false_or]
  constructor
  · rintro ((⟨⟨p, h1, rfl⟩, h2⟩ | ⟨⟨p, h1, rfl⟩, h2⟩) | ⟨rfl, h2⟩)
    · exact Or.inr ⟨p, Or.inl h1, rfl, by omega, by omega⟩
    · exact Or.inr ⟨p, Or.inr h1, rfl, by omega, by omega⟩
    · exact Or.inl ⟨rfl, by omega, by omega⟩
  · rintro (⟨rfl, h2, h3⟩ | ⟨p, h1 | h1, rfl, h2, h3⟩)
    · exact Or.inr ⟨rfl, by omega, by omega⟩
    · exact Or.inl (Or.inl ⟨⟨p, h1, rfl⟩, by omega, by omega⟩)
    · exact Or.inl (Or.inr ⟨⟨p, h1, rfl⟩, by omega, by omega⟩)

theorem edgeRow_eq {g : Graph} {average : Bool} {past future : Nat} {step : ℚ} {r : Nat} {s : DFlow} {phi : Int} {F : Nat × Int → ℚ}
    (h : ∀ (i : Nat) (t : Int), sampleOf average step phi (s.queues i) t = .ok (F (i, t))) :
    edgeRow g average past future step r s phi = .ok ((edgeKeys g past future r).map (fun c => (c, F c))) := by
  unfold edgeRow edgeKeys
  have h1 := fillEdges_eq (F := F) (ts := intRange (-past + 1) 1) (fun i t _ => h i t) ((g.incoming (g.nodeFrom r)).map (fun p => (g.edge p).id)) []
  rw [List.map_nil] at h1
  rw [h1, ok_bind, fillEdges_eq (F := F) (fun i t _ => h i t), ok_bind, fillEdge_eq (F := F) _ (fun t _ => h _ t)]

theorem edgeTable_eq {g : Graph} {average : Bool} {past future : Nat} {step horizon : ℚ} {k : Int} {times : List Int} {flows : List DFlow} {r : Nat}
    {F : DFlow → Int → Nat × Int → ℚ} (ht : stepRange 0 ⌊horizon - step * future⌋ k = .ok times)
    (h : ∀ s ∈ flows, ∀ (phi : Int) (i : Nat) (t : Int), sampleOf average step phi (s.queues i) t = .ok (F s phi (i, t))) (hf : flows ≠ []) (h0 : times ≠ []) :
    edgeTable g average past future step horizon k flows r = .ok (edgeKeys g past future r,
      flows.flatMap (fun s => times.map (fun phi => (edgeKeys g past future r).map (fun c => some (F s phi c))))) := by
  unfold edgeTable
  rw [ht, ok_bind, Predictors.mapPy_eq (g := fun s => times.map (fun phi => (edgeKeys g past future r).map (fun c => (c, F s phi c))))
    (fun s hs => Predictors.mapPy_eq (fun phi _ => edgeRow_eq (h s hs phi))), ok_bind, ← List.flatMap_def]
  obtain ⟨s, ss, rfl⟩ := List.exists_cons_of_ne_nil hf
  obtain ⟨phi, phis, rfl⟩ := List.exists_cons_of_ne_nil h0
  have h1 : rd ((s :: ss).flatMap (fun s => (phi :: phis).map (fun phi => (edgeKeys g past future r).map (fun c => (c, F s phi c))))) 0 =
      .ok ((edgeKeys g past future r).map (fun c => (c, F s phi c))) := rfl
  rw [h1, ok_bind, py_pure]
  have h2 : ((edgeKeys g past future r).map (fun c => (c, F s phi c))).map Prod.fst = edgeKeys g past future r := by
    rw [List.map_map]; exact List.map_id _
  rw [h2]
  refine congrArg Except.ok (congrArg (Prod.mk _) ?_)
  unfold frame
  rw [List.map_flatMap]
  refine List.flatMap_congr (fun s _ => ?_)
  rw [List.map_map]
  refine List.map_congr_left (fun phi _ => List.map_congr_left (fun c hc => ?_))
  rw [lookup_map, if_pos hc]

/-! ### training data -/

theorem intRange_before (t d : ℚ) (n : Nat) : (intRange (-n + 1) 1).map (fun (i : Int) => t + i * d) = before t d n := by
  unfold intRange before
  rw [List.map_map]
  have : ((1 : Int) - (-n + 1)).toNat = n := by omega
  rw [this]
  refine List.map_congr_left (fun a _ => ?_)
  simp only [Function.comp]
  push_cast
  ring

theorem intRange_after (t d : ℚ) (n : Nat) : (intRange 1 (n + 1)).map (fun (i : Int) => t + i * d) = after t d n := by
  unfold intRange after
  rw [List.map_map]
  have : ((n : Int) + 1 - 1).toNat = n := by omega
  rw [this]
  refine List.map_congr_left (fun a _ => ?_)
  simp only [Function.comp]
  push_cast
  ring

theorem trainingRow_eq {edges past future : Nat} {interval : ℚ} {s : DFlow} {L : Nat → PL} (hq : ∀ e x, (s.queues e).eval x = .ok (queueAt s e x))
    (hl : ∀ e < edges, ∀ x, (L e).eval x = .ok (loadAt s e x)) (t : ℚ) :
    trainingRow edges past future interval s ((List.range edges).map L) t = .ok (trainingMeant edges past future interval s t) := by
  unfold trainingRow
  simp only [intRange_before, intRange_after]
  have h1 : ∀ ts : List ℚ, mapPy (fun x => mapPy (fun e => (s.queues e).eval x) (List.range edges)) ts =
      .ok (ts.map (fun x => (List.range edges).map (fun e => queueAt s e x))) :=
    fun ts => Predictors.mapPy_eq (fun x _ => Predictors.mapPy_eq (fun e _ => hq e x))
  have h2 : ∀ ts : List ℚ, mapPy (fun x => mapPy (fun (l : PL) => l.eval x) ((List.range edges).map L)) ts =
      .ok (ts.map (fun x => (List.range edges).map (fun e => loadAt s e x))) := by
    refine fun ts => Predictors.mapPy_eq (fun x _ => ?_)
    have : ∀ es : List Nat, (∀ e ∈ es, e < edges) → mapPy (fun (l : PL) => l.eval x) (es.map L) = .ok (es.map (fun e => loadAt s e x)) := by
      intro es
      induction es with
      | nil => intro _; rfl
      | cons e es ih =>
        intro he
        rw [List.map_cons, mapPy, hl e (he e List.mem_cons_self), ok_bind, ih (fun e' h' => he e' (List.mem_cons_of_mem _ h')), ok_bind]
        rfl
    exact this _ (fun e he => List.mem_range.mp he)
  rw [h1, ok_bind, h2, ok_bind, h1, ok_bind, py_pure]
  unfold trainingMeant
  simp only [List.flatMap_def]

theorem meant_length (edges past future : Nat) (interval : ℚ) (s : DFlow) (t : ℚ) :
    (trainingMeant edges past future interval s t).length = edges * past + edges * past + edges * future := by
  unfold trainingMeant before after
  simp only [List.length_append, List.length_flatMap, List.length_map, List.length_range, List.map_map, Function.comp_def, List.map_const', List.sum_replicate, smul_eq_mul]
  ring

theorem trainingLoop_eq {edges past future : Nat} {interval : ℚ} {s : DFlow} {L : Nat → PL} (hq : ∀ e x, (s.queues e).eval x = .ok (queueAt s e x))
    (hl : ∀ e < edges, ∀ x, (L e).eval x = .ok (loadAt s e x)) : ∀ (ts : List ℚ) (last : ℚ) (x : List ℚ) (rest : List (List ℚ)),
      trainingLoop edges past future interval s ((List.range edges).map L) (ts ++ [last]) (x :: rest) = .ok (trainingMeant edges past future interval s last :: rest)
  | [], last, x, rest => by
    rw [List.nil_append]
    unfold trainingLoop
    rw [trainingRow_eq hq hl, ok_bind]
    unfold setRow
    rw [if_neg (by simp), if_pos (meant_length ..), ok_bind]
    rfl
  | t :: ts, last, x, rest => by
    rw [List.cons_append]
    unfold trainingLoop
    rw [trainingRow_eq hq hl, ok_bind]
    unfold setRow
    rw [if_neg (by simp), if_pos (meant_length ..), ok_bind]
    exact trainingLoop_eq hq hl ts last _ rest

end Verif.Expanded
