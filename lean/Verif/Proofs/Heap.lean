import Verif.Model.Heap
import Verif.Spec.Queue
import Verif.Proofs.HeapOrder
import Mathlib.Data.List.Nodup
import Mathlib.Data.List.Perm.Basic
import Mathlib.Data.Prod.Lex

set_option linter.unusedSimpArgs false
set_option linter.unusedSectionVars false

namespace Verif
open HeapOrder

namespace Heap
variable {K T : Type _} [LinearOrder K] [DecidableEq T]

/-- The dict holds exactly the positions of the items. -/
def Good (data : List (Entry K T)) (idx : T → Option Nat) : Prop :=
  ∀ x i, idx x = some i ↔ data[i]?.map Entry.item = some x

/-- Counters are pairwise different. -/
def Distinct (data : List (Entry K T)) : Prop := (data.map Entry.ctr).Nodup

/-- Rank at a position (with a default outside). -/
def rk (d0 : Entry K T) (data : List (Entry K T)) (i : Nat) : K ×ₗ Int := rank (data[i]?.getD d0)

theorem wr_lt {α : Type _} {l : List α} {i : Nat} {x : α} (h : i < l.length) :
    wr l i x = .ok (l.set i x) := by simp [wr, h]

theorem rank_lt_iff (a b : Entry K T) : rank a < rank b ↔ a.key < b.key ∨ (a.key = b.key ∧ a.ctr < b.ctr) := by
  simp [rank, Prod.Lex.toLex_lt_toLex]

theorem entLt_eq {a b : Entry K T} (h : a.ctr ≠ b.ctr) : entLt a b = .ok (decide (rank a < rank b)) := by
  unfold entLt
  rw [show decide (rank a < rank b) = decide (a.key < b.key ∨ (a.key = b.key ∧ a.ctr < b.ctr)) from
    decide_eq_decide.mpr (rank_lt_iff a b)]
  split
  · simp [*]
  · split
    · rename_i h1 h2
      simp [h1, ne_of_gt h2]
    · rename_i h1 h2
      have : a.key = b.key := le_antisymm (not_lt.mp h2) (not_lt.mp h1)
      split
      · simp [*]
      · split
        · rename_i h3 h4
          simp [this, h3]
        · omega

theorem Distinct.ne {data : List (Entry K T)} (h : Distinct data) {i j : Nat} {a b : Entry K T}
    (hi : data[i]? = some a) (hj : data[j]? = some b) (hij : i ≠ j) : a.ctr ≠ b.ctr := by
  intro e
  apply hij
  obtain ⟨hi', hi''⟩ := List.getElem?_eq_some_iff.mp hi
  refine (List.getElem?_inj (l := data.map Entry.ctr) (by simpa using hi') h).mp ?_
  simp [hi, hj, e]

theorem Distinct.perm {d d' : List (Entry K T)} (h : Distinct d) (hp : d'.Perm d) : Distinct d' := by
  unfold Distinct at *
  exact (hp.map Entry.ctr).nodup_iff.mpr h

theorem Good.inj {data : List (Entry K T)} {idx : T → Option Nat} (h : Good data idx) {i j : Nat}
    {a b : Entry K T} (hi : data[i]? = some a) (hj : data[j]? = some b) (e : a.item = b.item) : i = j := by
  have h1 := (h a.item i).mpr (by simp [hi])
  have h2 := (h a.item j).mpr (by simp [hj, e])
  rw [h1] at h2
  exact Option.some.inj h2

theorem Good.swap {V : List (Entry K T)} {I : T → Option Nat} (h : Good V I) {i j : Nat} {a b : Entry K T}
    (hi : V[i]? = some a) (hj : V[j]? = some b) (hij : i ≠ j) :
    Good ((V.set i b).set j a) (upd (upd I b.item i) a.item j) := by
  have hil : i < V.length := (List.getElem?_eq_some_iff.mp hi).1
  have hjl : j < V.length := (List.getElem?_eq_some_iff.mp hj).1
  have hab : a.item ≠ b.item := fun e => hij (h.inj hi hj e)
  have hI : ∀ y k, I y = some k → y ≠ a.item → y ≠ b.item → k ≠ i ∧ k ≠ j := by
    intro y k hy h1 h2
    have := (h y k).mp hy
    constructor
    · rintro rfl; rw [hi] at this; simp at this; exact h1 this.symm
    · rintro rfl; rw [hj] at this; simp at this; exact h2 this.symm
  intro x k
  unfold upd
  by_cases hxa : x = a.item
  · subst hxa
    rw [if_pos rfl]
    constructor
    · intro hk
      obtain rfl := Option.some.inj hk
      simp [List.getElem?_set, hjl]
    · intro hk
      by_cases hkj : j = k
      · rw [hkj]
      · rw [List.getElem?_set, if_neg hkj, List.getElem?_set] at hk
        by_cases hki : i = k
        · rw [if_pos hki, if_pos hil] at hk
          simp at hk; exact absurd hk.symm hab
        · rw [if_neg hki] at hk
          have h1 := (h a.item k).mpr hk
          have h2 := (h a.item i).mpr (by simp [hi])
          rw [h1] at h2
          exact absurd (Option.some.inj h2).symm hki
  · rw [if_neg hxa]
    by_cases hxb : x = b.item
    · subst hxb
      rw [if_pos rfl]
      constructor
      · intro hk
        obtain rfl := Option.some.inj hk
        rw [List.getElem?_set, if_neg (Ne.symm hij)]
        simp [List.getElem?_set, hil]
      · intro hk
        by_cases hkj : j = k
        · subst hkj
          rw [List.getElem?_set, if_pos rfl, List.length_set, if_pos hjl] at hk
          simp at hk; exact absurd hk hab
        · rw [List.getElem?_set, if_neg hkj, List.getElem?_set] at hk
          by_cases hki : i = k
          · rw [hki]
          · rw [if_neg hki] at hk
            have h1 := (h b.item k).mpr hk
            have h2 := (h b.item j).mpr (by simp [hj])
            rw [h1] at h2
            exact absurd (Option.some.inj h2).symm hkj
    · rw [if_neg hxb, h x k]
      by_cases hkj : j = k
      · subst hkj
        rw [List.getElem?_set, if_pos rfl, List.length_set, if_pos hjl, hj]
        simp only [Option.map_some, Option.some.injEq]
        exact ⟨fun e => absurd e.symm hxb, fun e => absurd e.symm hxa⟩
      · rw [List.getElem?_set, if_neg hkj, List.getElem?_set]
        by_cases hki : i = k
        · subst hki
          rw [if_pos rfl, if_pos hil, hi]
          simp only [Option.map_some, Option.some.injEq]
          exact ⟨fun e => absurd e.symm hxa, fun e => absurd e.symm hxb⟩
        · rw [if_neg hki]

theorem rk_swap (d0 : Entry K T) {V : List (Entry K T)} {i j : Nat} {a b : Entry K T}
    (hi : V[i]? = some a) (hj : V[j]? = some b) (hij : i ≠ j) :
    rk d0 ((V.set i b).set j a) = swp (rk d0 V) i j := by
  have hil : i < V.length := (List.getElem?_eq_some_iff.mp hi).1
  have hjl : j < V.length := (List.getElem?_eq_some_iff.mp hj).1
  funext k
  unfold rk swp
  by_cases hkj : j = k
  · subst hkj
    rw [List.getElem?_set, if_pos rfl, List.length_set, if_pos hjl, if_neg (Ne.symm hij), if_pos rfl]
    simp only [hi]
  · rw [List.getElem?_set, if_neg hkj, List.getElem?_set]
    by_cases hki : i = k
    · subst hki
      rw [if_pos rfl, if_pos hil, if_pos rfl]
      simp only [hj]
    · rw [if_neg hki, if_neg (Ne.symm hki), if_neg (Ne.symm hkj)]

theorem swap_perm {V : List (Entry K T)} {i j : Nat} {a b : Entry K T}
    (hi : V[i]? = some a) (hj : V[j]? = some b) : ((V.set i b).set j a).Perm V := by
  obtain ⟨hil, rfl⟩ := List.getElem?_eq_some_iff.mp hi
  obtain ⟨hjl, rfl⟩ := List.getElem?_eq_some_iff.mp hj
  exact List.set_set_perm hil hjl

theorem upd_upd_comm_hole {idx : T → Option Nat} {a b : T} {i j : Nat} :
    upd (upd (upd idx a i) b i) a j = upd (upd idx b i) a j := by
  funext y
  unfold upd
  by_cases h1 : y = a
  · simp [h1]
  · simp [h1]

theorem siftdownLoop_spec (start : Nat) (nw d0 : Entry K T) :
    ∀ (fuel : Nat) (data : List (Entry K T)) (idx : T → Option Nat) (pos : Nat),
      pos < fuel → pos < data.length → Anc start pos →
      Good (data.set pos nw) (upd idx nw.item pos) → Distinct (data.set pos nw) →
      ∃ data' idx', siftdownLoop start nw fuel data idx pos = .ok (data', idx') ∧
        data'.Perm (data.set pos nw) ∧ Good data' idx' ∧
        ∀ lo, (lo = 0 ∨ lo = start) → PUp lo data.length (rk d0 (data.set pos nw)) pos →
          (0 < start → lo ≤ par start → rk d0 (data.set pos nw) (par start) ≤ rank nw) →
          HeapFrom lo data.length (rk d0 data') := by
  intro fuel
  induction fuel with
  | zero => intro _ _ pos h; omega
  | succ fuel ih =>
    intro data idx pos hf hpos hanc hgood hdist
    have hVpos : (data.set pos nw)[pos]? = some nw := by simp [List.getElem?_set, hpos]
    have hrkpos : rk d0 (data.set pos nw) pos = rank nw := by simp [rk, hVpos]
    rw [siftdownLoop]
    by_cases hgt : pos > start
    · rw [if_pos hgt]
      have hp : par pos < pos := by simp only [par]; omega
      have hpl : par pos < data.length := by omega
      have hVp : (data.set pos nw)[par pos]? = some data[par pos] := by
        rw [List.getElem?_set, if_neg (by omega)]; simp [hpl]
      have hrkp : rk d0 (data.set pos nw) (par pos) = rank data[par pos] := by simp only [rk, hVp]; rfl
      have hne : nw.ctr ≠ data[par pos].ctr := hdist.ne hVpos hVp (by omega)
      change ∃ data' idx', (rd data (par pos) >>= fun parent => _) = _ ∧ _
      rw [rd_lt _ _ hpl, ok_bind, entLt_eq hne, ok_bind]
      by_cases hlt : rank nw < rank data[par pos]
      · rw [decide_eq_true hlt, if_pos rfl, wr_lt hpos, ok_bind]
        have hset : (data.set pos data[par pos]).set (par pos) nw
            = ((data.set pos nw).set pos data[par pos]).set (par pos) nw := by
          rw [List.set_set]
        have hidx : upd (upd idx data[par pos].item pos) nw.item (par pos)
            = upd (upd (upd idx nw.item pos) data[par pos].item pos) nw.item (par pos) :=
          upd_upd_comm_hole.symm
        have hg' := hgood.swap hVpos hVp (by omega)
        have hp' := swap_perm hVpos hVp
        obtain ⟨data', idx', h1, h2, h3, h4⟩ :=
          ih (data.set pos data[par pos]) (upd idx data[par pos].item pos) (par pos)
            (by omega) (by simpa using hpl) (hanc.par hgt)
            (by rw [hset, hidx]; exact hg') (by rw [hset]; exact hdist.perm hp')
        refine ⟨data', idx', h1, ?_, h3, ?_⟩
        · rw [hset] at h2; exact h2.trans hp'
        · intro lo hlo hP hc
          have hlop : lo ≤ par pos := by
            rcases hlo with rfl | rfl
            · omega
            · exact (hanc.par hgt).le
          have hstep := hP.step (by omega) hpos hlop (by rw [hrkpos, hrkp]; exact hlt)
          have hrk := rk_swap d0 hVpos hVp (by omega)
          rw [List.length_set] at h4
          apply h4 lo hlo
          · rw [hset, hrk]; exact hstep
          · intro h0 hl
            have hss : start ≤ par pos := (hanc.par hgt).le
            have hps : par start < start := by simp only [par]; omega
            rw [hset, hrk]
            unfold swp
            rw [if_neg (by omega), if_neg (by omega)]
            exact hc h0 hl
      · rw [decide_eq_false hlt, if_neg (by simp), wr_lt hpos, ok_bind]
        refine ⟨_, _, rfl, List.Perm.refl _, hgood, ?_⟩
        intro lo _ hP _
        apply hP.finish
        intro _ _
        rw [hrkpos, hrkp]
        exact not_lt.mp hlt
    · rw [if_neg hgt, wr_lt hpos, ok_bind]
      refine ⟨_, _, rfl, List.Perm.refl _, hgood, ?_⟩
      intro lo _ hP hc
      have : pos = start := by have := hanc.le; omega
      subst this
      apply hP.finish
      intro h0 hl
      rw [hrkpos]; exact hc h0 hl

theorem set_self {α : Type _} {l : List α} {i : Nat} {a : α} (h : l[i]? = some a) : l.set i a = l := by
  obtain ⟨hl, rfl⟩ := List.getElem?_eq_some_iff.mp h
  exact List.set_getElem_self hl

theorem Good.upd_self {data : List (Entry K T)} {idx : T → Option Nat} (h : Good data idx) {i : Nat}
    {a : Entry K T} (hi : data[i]? = some a) : upd idx a.item i = idx := by
  funext y
  unfold upd
  split
  · rename_i e
    rw [e]
    exact ((h a.item i).mpr (by simp [hi])).symm
  · rfl

/-- `_siftdown`: never fails, keeps the entries, keeps the dict exact and repairs an entry that may be
too small. -/
theorem siftdown_spec (d0 : Entry K T) (h : Heap K T) (start pos : Nat) (nw : Entry K T)
    (hnw : h.data[pos]? = some nw) (hanc : Anc start pos) (hgood : Good h.data h.index)
    (hdist : Distinct h.data) :
    ∃ h', siftdown h start pos = .ok h' ∧ h'.ctr = h.ctr ∧ h'.data.Perm h.data ∧ Good h'.data h'.index ∧
      ∀ lo, (lo = 0 ∨ lo = start) → PUp lo h.data.length (rk d0 h.data) pos →
        (0 < start → lo ≤ par start → rk d0 h.data (par start) ≤ rank nw) →
        HeapFrom lo h.data.length (rk d0 h'.data) := by
  have hpos : pos < h.data.length := (List.getElem?_eq_some_iff.mp hnw).1
  obtain ⟨data', idx', h1, h2, h3, h4⟩ := siftdownLoop_spec start nw d0 (pos + 1) h.data h.index pos
    (by omega) hpos hanc (by rw [set_self hnw, hgood.upd_self hnw]; exact hgood)
    (by rw [set_self hnw]; exact hdist)
  rw [set_self hnw] at h2 h4
  refine ⟨{ h with data := data', index := idx' }, ?_, rfl, h2, h3, h4⟩
  unfold siftdown
  rw [rd_eq_ok.mpr hnw, ok_bind, h1, ok_bind]
  rfl

theorem siftupLoop_spec (start : Nat) (nw d0 : Entry K T) :
    ∀ (fuel : Nat) (data : List (Entry K T)) (idx : T → Option Nat) (pos : Nat),
      data.length - pos < fuel → pos < data.length → Anc start pos →
      Good (data.set pos nw) (upd idx nw.item pos) → Distinct (data.set pos nw) →
      ∃ data' idx' pos', siftupLoop data.length fuel data idx pos = .ok (data', idx', pos') ∧
        data'.length = data.length ∧ pos' < data.length ∧ Anc start pos' ∧
        (data'.set pos' nw).Perm (data.set pos nw) ∧ Good (data'.set pos' nw) (upd idx' nw.item pos') ∧
        (∀ i, i < start → data'[i]? = data[i]?) ∧
        ∀ lo, lo ≤ pos → QDn lo data.length (rk d0 (data.set pos nw)) pos →
          PUp lo data.length (rk d0 (data'.set pos' nw)) pos' := by
  intro fuel
  induction fuel with
  | zero => intro _ _ pos h; omega
  | succ fuel ih =>
    intro data idx pos hf hpos hanc hgood hdist
    rw [siftupLoop]
    have hVpos : (data.set pos nw)[pos]? = some nw := by simp [List.getElem?_set, hpos]
    by_cases hch : 2 * pos + 1 < data.length
    · simp only [hch, if_true]
      -- the chosen child
      have hchoice : ∃ c, (if 2 * pos + 1 + 1 < data.length then (do
          let c ← rd data (2 * pos + 1)
          let r ← rd data (2 * pos + 1 + 1)
          if ← entLt c r then pure (2 * pos + 1) else pure (2 * pos + 1 + 1))
        else pure (2 * pos + 1) : Py Nat) = .ok c ∧ 0 < c ∧ c < data.length ∧ par c = pos ∧
          ∀ i, 0 < i → i < data.length → par i = pos →
            rk d0 (data.set pos nw) c ≤ rk d0 (data.set pos nw) i := by
        have two : ∀ i, 0 < i → par i = pos → i = 2 * pos + 1 ∨ i = 2 * pos + 2 := by
          intro i hi h; simp only [par] at h; omega
        by_cases hr : 2 * pos + 1 + 1 < data.length
        · have hVc : (data.set pos nw)[2 * pos + 1]? = some data[2 * pos + 1] := by
            rw [List.getElem?_set, if_neg (by omega)]; simp [hch]
          have hVr : (data.set pos nw)[2 * pos + 1 + 1]? = some data[2 * pos + 1 + 1] := by
            rw [List.getElem?_set, if_neg (by omega)]; simp [hr]
          have hne := hdist.ne hVc hVr (by omega)
          rw [if_pos hr, rd_lt _ _ hch, ok_bind, rd_lt _ _ hr, ok_bind, entLt_eq hne, ok_bind]
          by_cases hlt : rank data[2 * pos + 1] < rank data[2 * pos + 1 + 1]
          · rw [decide_eq_true hlt, if_pos rfl]
            refine ⟨_, rfl, by omega, hch, by simp only [par]; omega, ?_⟩
            intro i h0 hn hp
            rcases two i h0 hp with rfl | rfl
            · exact le_rfl
            · simp only [rk, hVc, hVr]; exact le_of_lt hlt
          · rw [decide_eq_false hlt, if_neg (by simp)]
            refine ⟨_, rfl, by omega, hr, by simp only [par]; omega, ?_⟩
            intro i h0 hn hp
            rcases two i h0 hp with rfl | rfl
            · simp only [rk, hVc, hVr]; exact not_lt.mp hlt
            · exact le_rfl
        · rw [if_neg hr]
          refine ⟨_, rfl, by omega, hch, by simp only [par]; omega, ?_⟩
          intro i h0 hn hp
          rcases two i h0 hp with rfl | rfl
          · exact le_rfl
          · omega
      obtain ⟨c, hc1, hc0, hcn, hcp, hcmin⟩ := hchoice
      have hpc : pos < c := by simp only [par] at hcp; omega
      have hVc : (data.set pos nw)[c]? = some data[c] := by
        rw [List.getElem?_set, if_neg (by omega)]; simp [hcn]
      rw [hc1, ok_bind, rd_lt _ _ hcn, ok_bind, wr_lt hpos, ok_bind]
      have hset : (data.set pos data[c]).set c nw = ((data.set pos nw).set pos data[c]).set c nw := by
        rw [List.set_set]
      have hidx : upd (upd idx data[c].item pos) nw.item c
          = upd (upd (upd idx nw.item pos) data[c].item pos) nw.item c := upd_upd_comm_hole.symm
      have hp' := swap_perm hVpos hVc
      have hg' := hgood.swap hVpos hVc (by omega)
      have hrk := rk_swap d0 hVpos hVc (by omega)
      obtain ⟨data', idx', pos', h1, h2, h3, h4, h5, h6, h7, h8⟩ :=
        ih (data.set pos data[c]) (upd idx data[c].item pos) c
          (by rw [List.length_set]; omega) (by simpa using hcn) (.child hc0 (by rw [hcp]; exact hanc))
          (by rw [hset, hidx]; exact hg') (by rw [hset]; exact hdist.perm hp')
      rw [List.length_set] at h1 h2 h3 h8
      refine ⟨data', idx', pos', h1, h2, h3, h4, ?_, h6, ?_, ?_⟩
      · rw [hset] at h5; exact h5.trans hp'
      · intro i hi
        have := hanc.le
        rw [h7 i hi, List.getElem?_set, if_neg (by omega)]
      · intro lo hlo hQ
        apply h8 lo (by omega)
        rw [hset, hrk]
        exact hQ.step hc0 hcn hcp hlo hcmin
    · simp only [hch, if_false]
      refine ⟨data, idx, pos, rfl, rfl, hpos, hanc, List.Perm.refl _, hgood, fun _ _ => rfl, ?_⟩
      intro lo _ hQ
      exact hQ.leaf (by omega)

/-- `_siftup`: never fails, keeps the entries, keeps the dict exact and repairs an entry that may be
too large. -/
theorem siftup_spec (d0 : Entry K T) (h : Heap K T) (pos : Nat) (nw : Entry K T)
    (hnw : h.data[pos]? = some nw) (hgood : Good h.data h.index) (hdist : Distinct h.data) :
    ∃ h', siftup h pos = .ok h' ∧ h'.ctr = h.ctr ∧ h'.data.Perm h.data ∧ Good h'.data h'.index ∧
      ∀ lo, (lo = 0 ∨ lo = pos) → QDn lo h.data.length (rk d0 h.data) pos →
        (0 < pos → lo ≤ par pos → rk d0 h.data (par pos) ≤ rank nw) →
        HeapFrom lo h.data.length (rk d0 h'.data) := by
  have hpos : pos < h.data.length := (List.getElem?_eq_some_iff.mp hnw).1
  obtain ⟨data', idx', pos', h1, h2, h3, h4, h5, h6, h7, h8⟩ :=
    siftupLoop_spec pos nw d0 (h.data.length + 1) h.data h.index pos
    (by omega) hpos .refl (by rw [set_self hnw, hgood.upd_self hnw]; exact hgood)
    (by rw [set_self hnw]; exact hdist)
  rw [set_self hnw] at h5 h8
  have hl' : pos' < data'.length := by omega
  obtain ⟨h', g1, g2, g3, g4, g5⟩ := siftdown_spec d0
    { h with data := data'.set pos' nw, index := upd idx' nw.item pos' } pos pos' nw
    (by simp [List.getElem?_set, hl']) h4 h6 (hdist.perm h5)
  refine ⟨h', ?_, g2, g3.trans h5, g4, ?_⟩
  · unfold siftup
    rw [rd_eq_ok.mpr hnw, ok_bind, h1, ok_bind]
    change (wr data' pos' nw >>= fun data => _) = _
    rw [wr_lt hl', ok_bind]
    exact g1
  · intro lo hlo hQ hc
    simp only [List.length_set, h2] at g5
    apply g5 lo hlo (h8 lo (by omega) hQ)
    intro h0 hl
    have hpp : par pos < pos := by simp only [par]; omega
    have : rk d0 (data'.set pos' nw) (par pos) = rk d0 h.data (par pos) := by
      unfold rk
      have := h4.le
      rw [List.getElem?_set, if_neg (by omega), h7 _ hpp]
    rw [this]
    exact hc h0 hl

end Heap
end Verif
