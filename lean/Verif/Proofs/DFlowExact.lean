import Verif.Proofs.DFlowSafe

/-! The exact invariant of the dynamic flow, under calls that touch no tolerance. -/

namespace Verif
open Spec
open PL (ext)

theorem Rates.ok_of {v : Rates} (h : RatesOk v) : v.Ok := ⟨h.nodup, h.pos⟩

theorem Rates.total_pos {v : Rates} (h : ∀ p ∈ v, 0 < p.2) {i : Nat} (hi : 0 < v.get i) : 0 < v.total := by
  have hh : v.has i = true := by
    by_contra hc
    rw [Rates.get_of_not_has hc] at hi
    exact lt_irrefl _ hi
  obtain ⟨x, hx⟩ := Rates.has_iff.mp hh
  have : ∀ (l : Rates), (∀ p ∈ l, 0 < p.2) → (i, x) ∈ l → 0 < Rates.total l := by
    intro l
    induction l with
    | nil => intro _ h; cases h
    | cons p l ih =>
      intro h1 h2
      unfold Rates.total
      rw [List.map_cons, List.sum_cons]
      have := Rates.total_nonneg (v := l) (fun p hp => h1 p (by simp [hp]))
      have h3 := h1 p (by simp)
      unfold Rates.total at this
      linarith
  exact this v h hx

theorem Rates.get_zero {v : Rates} (h : v.Ok) (h0 : v.total = 0) (i : Nat) : v.get i = 0 := by
  rcases lt_or_eq_of_le (Rates.get_nonneg h i) with h1 | h1
  · have := Rates.total_pos h.pos h1; rw [h0] at this; exact absurd this (lt_irrefl _)
  · exact h1.symm

theorem Rates.dictEq_perm {a b : Rates} (ha : a.Ok) (h : a.dictEq b = true) : a.Perm b := by
  unfold Rates.dictEq at h
  rw [Bool.and_eq_true, List.all_eq_true] at h
  obtain ⟨h1, h2⟩ := h
  have hnd : a.Nodup := List.Nodup.of_map _ ha.nodup
  refine (List.subperm_of_subset hnd ?_).perm_of_length_le ?_
  · intro p hp
    have := h2 p hp
    exact Rates.lookup_mem (by simpa using this)
  · exact le_of_eq (by simpa using (beq_iff_eq.mp h1).symm)

theorem Rates.dictEq_total {a b : Rates} (ha : a.Ok) (h : a.dictEq b = true) : a.total = b.total := by
  unfold Rates.total
  exact ((Rates.dictEq_perm ha h).map _).sum_eq

theorem Rates.dictEq_get {a b : Rates} (ha : a.Ok) (hb : b.Ok) (h : a.dictEq b = true) (i : Nat) : a.get i = b.get i := by
  have hp := Rates.dictEq_perm ha h
  by_cases hh : a.has i = true
  · obtain ⟨x, hx⟩ := Rates.has_iff.mp hh
    rw [Rates.get_mem ha.nodup hx, Rates.get_mem hb.nodup (hp.subset hx)]
  · have hh' : ¬ b.has i = true := by
      intro hc
      obtain ⟨x, hx⟩ := Rates.has_iff.mp hc
      exact hh (Rates.has_iff.mpr ⟨x, hp.symm.subset hx⟩)
    rw [Rates.get_of_not_has hh, Rates.get_of_not_has hh']

theorem Rates.get_scale (c : ℚ) (v : Rates) (i : Nat) : (v.scale c).get i = c * v.get i := by
  unfold Rates.get Rates.scale
  induction v with
  | nil => simp
  | cons p v ih =>
    obtain ⟨j, y⟩ := p
    rw [List.map_cons]
    simp only [List.lookup_cons]
    by_cases h : i = j
    · subst h; simp
    · have : (i == j) = false := by simpa using h
      simp only [this]; exact ih

theorem Rates.scale_ok {c : ℚ} {v : Rates} (h : v.Ok) (hc : 0 < c) : (v.scale c).Ok := by
  constructor
  · have : (v.scale c).map Prod.fst = v.map Prod.fst := by simp [Rates.scale]
    rw [this]; exact h.nodup
  · intro p hp
    unfold Rates.scale at hp
    obtain ⟨x, hx, rfl⟩ := List.mem_map.mp hp
    exact mul_pos hc (h.pos x hx)

theorem Far.later {a b : ℚ} (h : Far eps a b) (hab : a ≤ b) : Later eps a b := by
  rcases h with h | h
  · exact Or.inl h
  · right
    rw [abs_sub_comm, abs_of_nonneg (sub_nonneg.mpr hab)] at h
    linarith

namespace FRC

theorem GoodAt.rate_after {d : Nat → Option RC} {i : Nat} {L v x : ℚ} (h : GoodAt d i L v) (hx : L ≤ x) : rate d i x = v := by
  unfold rate
  cases hd : d i with
  | none => exact (h.2 hd).symm
  | some f => exact (h.1 f hd).fn_after hx

theorem advanceHead_all {t : ℚ} : ∀ (q : List FRItem) (it : FRItem), q.getLast? = some it → (∀ x ∈ q, x.time ≤ t) →
    advanceHead t q = [it] := by
  intro q
  induction q with
  | nil => intro it h; cases h
  | cons a q ih =>
    intro it h hall
    cases q with
    | nil => simp at h; subst h; rfl
    | cons b l =>
      unfold advanceHead
      rw [if_pos (hall b (by simp))]
      exact ih it (by rw [← h]; simp) (fun x hx => hall x (by simp [hx]))

/-- A query after all extensions answers with the last one. -/
theorem query_last {c : FRC} {t : ℚ} {it : FRItem} (h : c.queue.getLast? = some it) (hall : ∀ x ∈ c.queue, x.time ≤ t) :
    c.getValuesAtTime t = .ok (it.values, { c with queue := [it] }) := by
  have := advanceHead_all c.queue it h hall
  unfold getValuesAtTime
  cases hq : c.queue with
  | nil => rw [hq] at h; cases h
  | cons a l =>
    simp only
    rw [if_neg (not_lt.mpr (hall a (by rw [hq]; simp))), ← hq, this]

theorem Good.requeue {c : FRC} {L R : ℚ} {V : Rates} (h : c.Good L V R) (q : List FRItem) (hq : q.getLast? = some ⟨L, V⟩)
    (hsuf : ∃ p, c.queue = p ++ q) : ({ c with queue := q } : FRC).Good L V R := by
  obtain ⟨p, hp⟩ := hsuf
  obtain ⟨pre, hpre⟩ := h.hist
  have hs := h.sorted
  rw [hp] at hs
  refine ⟨h.start, h.acc, h.accLo, h.accZero, h.zero, h.ok, h.funs, hq, ⟨pre ++ p, fun i x hx => ?_⟩, ?_, (List.pairwise_append.mp hs).2.1, h.chain⟩
  · rw [hpre i x hx, hp, List.append_assoc]
  · intro it hit
    exact h.items it (by rw [hp]; exact List.mem_append_right _ hit)

/-- The records agree up to time `ψ`. -/
def Same (c c' : FRC) (ψ : ℚ) : Prop :=
  (∀ i x, 0 ≤ x → x < ψ → rate c'.funs i x = rate c.funs i x) ∧ ∀ x, x ≤ ψ → c'.acc.fn x = c.acc.fn x

theorem Same.refl (c : FRC) (ψ : ℚ) : Same c c ψ := ⟨fun _ _ _ _ => rfl, fun _ _ => rfl⟩

theorem Same.trans {c c' c'' : FRC} {ψ : ℚ} (h1 : Same c c' ψ) (h2 : Same c' c'' ψ) : Same c c'' ψ :=
  ⟨fun i x a b => by rw [h2.1 i x a b, h1.1 i x a b], fun x a => by rw [h2.2 x a, h1.2 x a]⟩

theorem Same.mono {c c' : FRC} {ψ χ : ℚ} (h : Same c c' ψ) (hle : χ ≤ ψ) : Same c c' χ :=
  ⟨fun i x a b => h.1 i x a (lt_of_lt_of_le b hle), fun x a => h.2 x (le_trans a hle)⟩

/-- Commodity `i` never has a rate. -/
def Zero (c : FRC) (i : Nat) : Prop := ∀ x, 0 ≤ x → rate c.funs i x = 0

theorem Good.zero_last {c : FRC} {L R : ℚ} {V : Rates} (h : c.Good L V R) {i : Nat} (hz : c.Zero i) : V.get i = 0 := by
  rw [← (h.funs i).rate_after (x := max L 0) (le_max_left _ _)]
  exact hz _ (le_max_right _ _)

end FRC

namespace DFlow

/-- Entry times at which the record of an edge is final, given its planned depletion. -/
def domP (p : Pend) (t : ℚ) : Prop := 0 ≤ t ∧ ∀ D x, p = some (D, x) → t ≤ D

/-- What a planned depletion says about the edge. -/
def PendOk (cap tt φ : ℚ) (q : PL) (Vin : Rates) (Lout : ℚ) (Vout : Rates) (r : ℚ) : Pend → Prop
  | none => True
  | some (D, x) => φ ≤ D ∧ q.fn D = 0 ∧ q.last = Vin.total - cap ∧ eps < cap - Vin.total ∧
      (∀ b, q.times.getLast? = some b → eps < D - b) ∧
      (match x with
       | none => Vin.total = 0 ∧ r = 0 ∧ Vout = [] ∧ Lout = D + tt
       | some (v, a) => v = Vin ∧ a = Vin.total ∧ Later eps Lout (D + tt) ∧ Far eps r a ∧ ∀ i, Far eps (Vout.get i) (Vin.get i))

/-- The record of one edge is exact up to `φ`. -/
structure EdgeOk (cap tt φ : ℚ) (cin cout : FRC) (q : PL) (p : Pend) (Lin : ℚ) (Vin : Rates) (Lout : ℚ) (Vout : Rates) (r : ℚ) : Prop where
  phi : 0 ≤ φ
  gin : cin.Good Lin Vin Vin.total
  linle : Lin ≤ φ
  items : ∀ it ∈ cin.queue, it.time ≤ φ
  gout : cout.Good Lout Vout r
  qwf : q.WF
  qlo : q.lo = ⊥
  qhi : q.hi = ⊤
  qlast : ∀ b, q.times.getLast? = some b → b ≤ φ
  qneg : ∀ t, t ≤ 0 → q.fn t = 0
  laws : Laws cap tt cin.acc.fn cout.acc.fn q.fn (domP p)
  mix : Mix cap tt q.fn (FRC.rate cin.funs) (FRC.rate cout.funs) (domP p)
  grows : Grows cin.acc.fn (FRC.rate cin.funs)
  exits : ∀ t, domP p t → φ ≤ t → Lout ≤ t + tt + q.fn t / cap
  quiet : ∀ i x, 0 ≤ x → x < tt → FRC.rate cout.funs i x = 0
  pend : PendOk cap tt φ q Vin Lout Vout r p

theorem EdgeOk.dom {cap tt φ : ℚ} {cin cout : FRC} {q : PL} {p : Pend} {Lin : ℚ} {Vin : Rates} {Lout : ℚ} {Vout : Rates} {r : ℚ}
    (h : EdgeOk cap tt φ cin cout q p Lin Vin Lout Vout r) {t : ℚ} (h0 : 0 ≤ t) (ht : t ≤ φ) : domP p t := by
  refine ⟨h0, ?_⟩
  intro D x hp
  have := h.pend
  rw [hp] at this
  exact le_trans ht this.1

/-- Time passes without events. -/
theorem EdgeOk.later {cap tt φ ψ : ℚ} {cin cout : FRC} {q : PL} {p : Pend} {Lin : ℚ} {Vin : Rates} {Lout : ℚ} {Vout : Rates} {r : ℚ}
    (h : EdgeOk cap tt φ cin cout q p Lin Vin Lout Vout r) (hψ : φ ≤ ψ) (hp : ∀ D x, p = some (D, x) → ψ ≤ D) :
    EdgeOk cap tt ψ cin cout q p Lin Vin Lout Vout r := by
  refine ⟨le_trans h.phi hψ, h.gin, le_trans h.linle hψ, fun it hi => le_trans (h.items it hi) hψ, h.gout, h.qwf, h.qlo, h.qhi,
    fun b hb => le_trans (h.qlast b hb) hψ, h.qneg, h.laws, h.mix, h.grows, fun t ht h1 => h.exits t ht (le_trans hψ h1), h.quiet, ?_⟩
  have h1 := h.pend
  cases p with
  | none => trivial
  | some p =>
    obtain ⟨D, x⟩ := p
    exact ⟨hp D x rfl, h1.2⟩

theorem total_nil : Rates.total [] = 0 := rfl

theorem inDom_all {q : PL} (h1 : q.lo = ⊥) (h2 : q.hi = ⊤) (x : ℚ) : q.inDom x := by
  unfold PL.inDom; rw [h1, h2]; exact ⟨bot_le, le_top⟩

theorem zeroLast_eq {q : PL} (h : q.WF) (h0 : q.fn (q.times.getLast h.ne) = 0) : zeroLast q = q ∧ rdLast q.values = .ok 0 := by
  have hv : q.values ≠ [] := by
    intro e; have := h.len; rw [e] at this; exact h.ne (List.length_eq_zero_iff.mp this.symm)
  have : q.values.getLast hv = 0 := by
    rw [PL.fn_right h le_rfl] at h0
    simpa using h0
  constructor
  · unfold zeroLast
    have h2 : q.values.dropLast ++ [0] = q.values := by rw [← this]; exact List.dropLast_append_getLast hv
    rw [h2]
  · rw [rdLast_eq _ hv, this]

/-- The queue runs empty. -/
theorem EdgeOk.deplete {cap tt φ : ℚ} {cin cout : FRC} {q : PL} {D : ℚ} {x : Option (Rates × ℚ)} {Lin : ℚ} {Vin : Rates} {Lout : ℚ}
    {Vout : Rates} {r : ℚ} (hc : 0 < cap) (htt : 0 ≤ tt)
    (h : EdgeOk cap tt φ cin cout q (some (D, x)) Lin Vin Lout Vout r) :
    ∃ q', q.extendWithSlope D 0 = .ok q' ∧ zeroLast q' = q' ∧ rdLast q'.values = .ok 0 ∧
      (x = none → EdgeOk cap tt D cin cout q' none Lin Vin Lout Vout r) ∧
      (∀ x, x ≤ D → q'.fn x = q.fn x) ∧
      ∀ v a, x = some (v, a) → ∃ cout', cout.extend (D + tt) v a = .ok cout' ∧
        EdgeOk cap tt D cin cout' q' none Lin Vin (D + tt) v a ∧ FRC.Same cout cout' (D + tt) ∧
        ∀ i, cin.Zero i → cout.Zero i → cout'.Zero i := by
  have hep := eps_pos
  obtain ⟨hφD, hqD, hσ, hcap, hb, hx⟩ := h.pend
  have hb' := hb _ (List.getLast?_eq_some_getLast h.qwf.ne)
  have hgood : q.Good (q.times.getLast h.qwf.ne) (Vin.total - cap) := ⟨h.qwf, h.qhi, Or.inl rfl, hσ⟩
  obtain ⟨q', e1, g1, hlo, hfn, hmem, hlast, _, _⟩ := hgood.extend (t := D) (w := 0) (Or.inr (by linarith))
    (Or.inr (by rw [sub_zero, abs_sub_comm, abs_of_pos (by linarith)]; exact hcap))
  have hl := hlast (by linarith)
  have hl' : q'.times.getLast g1.wf.ne = D := by
    rw [List.getLast?_eq_some_getLast g1.wf.ne] at hl; injection hl
  have hz := zeroLast_eq g1.wf (by rw [hl', hfn, ext_le le_rfl, hqD])
  have hD0 : 0 ≤ D := le_trans h.phi hφD
  have hDdom : domP (some (D, x)) D := ⟨hD0, by intro D' x' e; injection e with e; injection e with e _; rw [e]⟩
  have hdown : ∀ t, 0 ≤ t → t ≤ D → domP (some (D, x)) t := by
    intro t h0 h1
    refine ⟨h0, ?_⟩
    intro D' x' e; injection e with e; injection e with e _; rw [← e]; exact h1
  have haff : ∀ t, D ≤ t → cin.acc.fn t = cin.acc.fn D + Vin.total * (t - D) := fun t ht =>
    h.gin.acc.fn_after (le_trans (le_trans h.linle hφD) ht) (le_trans h.linle hφD)
  have ha0 := Rates.total_nonneg h.gin.ok.pos
  have hq' : q'.fn = ext q.fn D 0 := funext hfn
  have hdomN : domP none = fun t => 0 ≤ t := by
    funext t; unfold domP; simp
  have hinR : ∀ i x, D ≤ x → FRC.rate cin.funs i x = Vin.get i := fun i x hx =>
    (h.gin.funs i).rate_after (le_trans (le_trans h.linle hφD) hx)
  have base : ∀ cout' Lout' Vout' r', FRC.Good cout' Lout' Vout' r' → Lout' ≤ D + tt →
      cout'.acc.fn = ext cout.acc.fn (D + tt) Vin.total →
      (∀ i x, 0 ≤ x → FRC.rate cout'.funs i x = if x < D + tt then FRC.rate cout.funs i x else Vin.get i) →
      EdgeOk cap tt D cin cout' q' none Lin Vin Lout' Vout' r' := by
    intro cout' Lout' Vout' r' hg hL hf hr
    refine ⟨hD0, h.gin, le_trans h.linle hφD, fun it hi => le_trans (h.items it hi) hφD, hg, g1.wf, by rw [hlo, h.qlo], g1.hi, ?_, fun t ht => (by rw [hfn, ext_le (le_trans ht hD0)]; exact h.qneg t ht), ?_, ?_, h.grows, ?_, ?_, trivial⟩
    · intro b hb; rw [hl] at hb; injection hb with hb; rw [hb]
    · rw [hq', hf, hdomN]
      exact h.laws.deplete hc hDdom hD0 hqD hdown haff ha0 (by linarith)
    · rw [hq', hdomN]
      exact Mix.deplete h.laws hc htt h.mix h.grows hDdom hqD hdown hinR hr
    · intro t ht h1
      rw [hfn, ext_ge h1, hqD]
      simp only [zero_mul, add_zero, zero_div]
      linarith
    · intro i x hx hxt
      rw [hr i x hx, if_pos (by linarith)]
      exact h.quiet i x hx hxt
  refine ⟨q', e1, hz.1, hz.2, ?_, fun y hy => by rw [hfn, ext_le hy], ?_⟩
  · intro hxn
    subst hxn
    obtain ⟨x1, x2, x3, x4⟩ := hx
    refine base cout Lout Vout r h.gout (le_of_eq x4) ?_ ?_
    · funext t
      rcases le_total t (D + tt) with h1 | h1
      · rw [ext_le h1]
      · rw [ext_ge h1, x1, zero_mul, add_zero]
        have := h.gout.acc.fn_after (x := t) (y := D + tt) (by rw [x4]; exact h1) (le_of_eq x4)
        rw [this, x2]; ring
    · intro i y hy
      split
      · rfl
      · rename_i hc'
        rw [Rates.get_zero h.gin.ok x1]
        rw [(h.gout.funs i).rate_after (by rw [x4]; exact not_lt.mp hc'), x3]; rfl
  · intro v a hxs
    subst hxs
    obtain ⟨x1, x2, x3, x4, x5⟩ := hx
    subst x1
    obtain ⟨cout', f1, f2, f3, f4, f5, _⟩ := h.gout.extend (t := D + tt) (vs := v) (s := a) x3 h.gin.ok x4 x5
    refine ⟨cout', f1, ?_, ⟨fun i y hy hlt => by rw [f4 i y hy, if_pos hlt], fun y hy => by rw [f3, ext_le hy]⟩, ?_⟩
    rotate_left
    · intro i hz1 hz2 y hy
      rw [f4 i y hy, hz2 y hy, h.gin.zero_last hz1]; simp
    refine base cout' (D + tt) v a f2 le_rfl ?_ f4
    rw [← x2]; exact funext f3

/-- The plan in terms of the fluid queue law. -/
theorem plan_spec {cap φ q : ℚ} {v : Rates} (hc : 0 < cap) (hq : 0 ≤ q) (hv : v.Ok)
    (hd : 0 < q → v.total < cap → eps < cap - v.total) :
    (plan cap φ q v).outSum = outTotal cap q v.total ∧ (plan cap φ q v).slope = queueSlope cap q v.total ∧
    (∀ i, (plan cap φ q v).out.get i = outTotal cap q v.total / v.total * v.get i) ∧ (plan cap φ q v).out.Ok ∧
    (plan cap φ q v).dep = (if 0 < q ∧ v.total < cap then
      some (φ + q / (cap - v.total), if v.total = 0 then none else some (v, v.total)) else none) ∧
    (v.total = 0 → (plan cap φ q v).out = []) := by
  have hep := eps_pos
  have ha := Rates.total_nonneg hv.pos
  unfold plan outTotal queueSlope
  by_cases h0 : v.total = 0
  · rw [if_pos h0]
    simp only [h0, if_true, sub_zero, zero_sub]
    refine ⟨trivial, ?_, ?_, ⟨by simp, by simp⟩, ?_, fun _ => trivial⟩
    · split
      · rw [max_eq_right (by linarith)]
      · rfl
    · intro i; rw [Rates.get_zero hv h0]; simp [Rates.get]
    · by_cases hqp : 0 < q
      · rw [if_pos hqp, if_pos ⟨hqp, hc⟩]
      · rw [if_neg hqp, if_neg (fun h => hqp h.1)]
  · have hap : 0 < v.total := lt_of_le_of_ne ha (Ne.symm h0)
    rw [if_neg h0]
    by_cases hb : q = 0 ∨ v.total ≥ cap - eps
    · rw [if_pos hb]
      have hmp : 0 < min cap v.total := lt_min hc hap
      have hnd : ¬ (0 < q ∧ v.total < cap) := by
        rintro ⟨h1, h2⟩
        have := hd h1 h2
        rcases hb with hb | hb
        · rw [hb] at h1; exact lt_irrefl _ h1
        · linarith
      have hmin : q ≠ 0 → cap ≤ v.total := by
        intro hq0
        by_contra hc'
        exact hnd ⟨lt_of_le_of_ne hq (Ne.symm hq0), not_le.mp hc'⟩
      have hsum : min cap v.total = if v.total = 0 then 0 else if q = 0 then min v.total cap else cap := by
        rw [if_neg h0]
        split
        · rw [min_comm]
        · rename_i hq0; rw [min_eq_left (hmin hq0)]
      refine ⟨hsum, ?_, ?_, Rates.scale_ok hv (div_pos hmp hap), ?_, fun h => absurd h h0⟩
      · simp only
        split
        · rfl
        · rename_i hq0; rw [max_eq_left (by linarith [hmin hq0])]
      · intro i; rw [Rates.get_scale, ← hsum]
      · simp only
        rw [if_neg hnd]
    · rw [if_neg hb]
      rw [not_or] at hb
      have hq0 := hb.1
      have hlt : v.total < cap := by linarith [not_le.mp hb.2]
      have hqp : 0 < q := lt_of_le_of_ne hq (Ne.symm hq0)
      simp only [if_neg h0, if_neg hq0]
      refine ⟨trivial, trivial, fun i => Rates.get_scale _ _ _, Rates.scale_ok hv (div_pos hc hap), ?_, fun h => absurd h (by exact h0)⟩
      rw [if_pos ⟨hqp, hlt⟩]
      have : φ - q / (v.total - cap) = φ + q / (cap - v.total) := by
        rw [← neg_sub cap v.total, div_neg]; ring
      rw [this]

/-- New inflow rates on an edge. -/
theorem EdgeOk.set {cap tt φ : ℚ} {cin cout : FRC} {q : PL} {p : Pend} {Lin : ℚ} {Vin : Rates} {Lout : ℚ} {Vout : Rates} {r b : ℚ}
    (hc : 0 < cap) (htt : 0 ≤ tt) (h : EdgeOk cap tt φ cin cout q p Lin Vin Lout Vout r) {v : Rates} (hv : v.Ok)
    (hb : q.times.getLast? = some b)
    (hcl : ClearSet cap tt φ (q.fn φ) v Lin Vin Vin.total Lout Vout r b q.last) :
    ∃ cin' cout' q', cin.extend φ v v.total = .ok cin' ∧
      (∀ x, cin'.acc.fn x = ext cin.acc.fn φ v.total x) ∧
      (∀ i x, 0 ≤ x → FRC.rate cin'.funs i x = if x < φ then FRC.rate cin.funs i x else v.get i) ∧
      cout.extend (φ + q.fn φ / cap + tt) (plan cap φ (q.fn φ) v).out (plan cap φ (q.fn φ) v).outSum = .ok cout' ∧
      q.extendWithSlope φ (plan cap φ (q.fn φ) v).slope = .ok q' ∧ depCheck q' (plan cap φ (q.fn φ) v).dep = .ok () ∧
      EdgeOk cap tt φ cin' cout' q' (plan cap φ (q.fn φ) v).dep φ v (φ + q.fn φ / cap + tt) (plan cap φ (q.fn φ) v).out
        (plan cap φ (q.fn φ) v).outSum ∧ FRC.Same cout cout' (φ + q.fn φ / cap + tt) ∧ (∀ x, x ≤ φ → q'.fn x = q.fn x) ∧
      ∀ i, cout.Zero i → v.get i = 0 → cout'.Zero i := by
  have hep := eps_pos
  have hdφ := h.dom h.phi le_rfl
  have hq0 := h.laws.q_nonneg φ hdφ
  have ha := Rates.total_nonneg hv.pos
  obtain ⟨p1, p2, p3, p4, p5, p6⟩ := plan_spec (φ := φ) hc hq0 hv (fun h1 h2 => (hcl.drain h1 h2).1)
  have harr : φ + q.fn φ / cap + tt = φ + tt + q.fn φ / cap := by ring
  have hLout : Lout ≤ φ + q.fn φ / cap + tt := by rw [harr]; exact h.exits φ hdφ le_rfl
  have hble := h.qlast b hb
  have hbe : q.times.getLast h.qwf.ne = b := by
    rw [List.getLast?_eq_some_getLast h.qwf.ne] at hb; injection hb
  obtain ⟨cin', e1, g1, f1, r1, qu1, _⟩ := h.gin.extend (t := φ) (vs := v) (s := v.total) (Far.later hcl.inTime h.linle) hv hcl.inSum hcl.inRates
  obtain ⟨cout', e2, g2, f2, r2, qu2, _⟩ := h.gout.extend (t := φ + q.fn φ / cap + tt) (vs := (plan cap φ (q.fn φ) v).out)
    (s := (plan cap φ (q.fn φ) v).outSum) (Far.later hcl.outTime hLout) p4 (by rw [p1]; exact hcl.outSum)
    (fun i => by rw [p3]; exact hcl.outRates i)
  have hgood : q.Good b q.last := ⟨h.qwf, h.qhi, Or.inl hbe.symm, rfl⟩
  obtain ⟨q', e3, g3, hlo, f3, hmem, _, _, _⟩ := hgood.extend (t := φ) (w := (plan cap φ (q.fn φ) v).slope) (Far.later hcl.qTime hble)
    (by rw [p2]; exact hcl.qSlope)
  have hlast' : ∀ b', q'.times.getLast? = some b' → b' ≤ φ := by
    intro b' hb'
    have hm : b' ∈ q'.times := List.mem_of_getLast? hb'
    rcases hmem b' hm with h1 | h1
    · have := le_getLast h.qwf.lt h.qwf.ne h1
      rw [hbe] at this; linarith
    · exact le_of_eq h1
  have hinDom : ∀ x, q'.inDom x := inDom_all (by rw [hlo, h.qlo]) g3.hi
  set P := plan cap φ (q.fn φ) v with hP
  -- facts about the planned depletion
  have hdep : ∀ D x, P.dep = some (D, x) → 0 < q.fn φ ∧ v.total < cap ∧ D = φ + q.fn φ / (cap - v.total) ∧
      x = (if v.total = 0 then none else some (v, v.total)) := by
    intro D x hx
    rw [p5] at hx
    split at hx
    · rename_i hcond
      injection hx with hx; injection hx with hx1 hx2
      exact ⟨hcond.1, hcond.2, hx1.symm, hx2.symm⟩
    · cases hx
  have hslope : 0 < q.fn φ → P.slope = v.total - cap := by
    intro hqp; rw [p2]; unfold queueSlope; rw [if_neg (ne_of_gt hqp)]
  have hqD : ∀ D x, P.dep = some (D, x) → q'.fn D = 0 ∧ φ < D := by
    intro D x hx
    obtain ⟨c1, c2, c3, _⟩ := hdep D x hx
    have hpos : 0 < cap - v.total := by linarith
    have hdp : 0 < q.fn φ / (cap - v.total) := div_pos c1 hpos
    refine ⟨?_, by linarith⟩
    rw [f3, ext_ge (by linarith), hslope c1, c3]
    have : (v.total - cap) * (φ + q.fn φ / (cap - v.total) - φ) = -((cap - v.total) * (q.fn φ / (cap - v.total))) := by ring
    rw [this, mul_div_cancel₀ _ (ne_of_gt hpos)]; ring
  have hcheck : depCheck q' P.dep = .ok () := by
    cases hpd : P.dep with
    | none => rfl
    | some px =>
      obtain ⟨D, x⟩ := px
      simp only [depCheck]
      rw [PL.eval_eq g3.wf (hinDom D), ok_bind, (hqD D x hpd).1, pyAssert_true (by linarith)]
  -- the three cases of the queue law
  have hd0 : ∀ t, domP P.dep t → 0 ≤ t := fun t ht => ht.1
  have hdown : ∀ t, 0 ≤ t → t ≤ φ → domP p t := fun t h0 h1 => h.dom h0 h1
  have hr0 : 0 ≤ P.outSum ∧ P.outSum ≤ cap := by
    rw [p1]; unfold outTotal
    split
    · exact ⟨le_rfl, le_of_lt hc⟩
    · split
      · exact ⟨le_min ha (le_of_lt hc), min_le_right _ _⟩
      · exact ⟨le_of_lt hc, le_rfl⟩
  have hcase : (P.outSum = cap ∧ P.slope = v.total - cap ∧ ∀ t, domP P.dep t → φ ≤ t → 0 ≤ q.fn φ + P.slope * (t - φ)) ∨
      (q.fn φ = 0 ∧ P.outSum = v.total ∧ P.slope = 0) ∨
      (0 < q.fn φ ∧ v.total = 0 ∧ P.outSum = 0 ∧ P.slope = -cap ∧ ∀ t, domP P.dep t → t ≤ φ + q.fn φ / cap) := by
    by_cases hz : q.fn φ = 0
    · by_cases hac : v.total ≤ cap
      · right; left
        refine ⟨hz, ?_, ?_⟩
        · rw [p1]; unfold outTotal; rw [if_pos hz]
          split
          · rename_i h0; exact h0.symm
          · exact min_eq_left hac
        · rw [p2]; unfold queueSlope; rw [if_pos hz, max_eq_right (by linarith)]
      · left
        have hac' := not_le.mp hac
        have hsl : P.slope = v.total - cap := by
          rw [p2]; unfold queueSlope; rw [if_pos hz, max_eq_left (by linarith)]
        refine ⟨?_, hsl, ?_⟩
        · rw [p1]; unfold outTotal; rw [if_neg (by linarith), if_pos hz, min_eq_right (le_of_lt hac')]
        · intro t _ ht
          rw [hz, hsl]
          have := mul_nonneg (by linarith : 0 ≤ v.total - cap) (sub_nonneg.mpr ht)
          linarith
    · have hqp : 0 < q.fn φ := lt_of_le_of_ne hq0 (Ne.symm hz)
      by_cases h0 : v.total = 0
      · right; right
        refine ⟨hqp, h0, ?_, ?_, ?_⟩
        · rw [p1]; unfold outTotal; rw [if_pos h0]
        · rw [hslope hqp, h0]; ring
        · intro t ht
          refine ht.2 _ none ?_
          rw [p5, if_pos ⟨hqp, by linarith⟩, if_pos h0, h0, sub_zero]
      · left
        refine ⟨?_, hslope hqp, ?_⟩
        · rw [p1]; unfold outTotal; rw [if_neg h0, if_neg hz]
        · intro t ht h1
          rw [hslope hqp]
          by_cases hac : v.total < cap
          · have hpos : 0 < cap - v.total := by linarith
            have hle := ht.2 (φ + q.fn φ / (cap - v.total)) _ (by rw [p5, if_pos ⟨hqp, hac⟩])
            have h2 : (cap - v.total) * (t - φ) ≤ (cap - v.total) * (q.fn φ / (cap - v.total)) :=
              mul_le_mul_of_nonneg_left (by linarith) (le_of_lt hpos)
            rw [mul_div_cancel₀ _ (ne_of_gt hpos)] at h2
            nlinarith
          · have := mul_nonneg (by linarith : 0 ≤ v.total - cap) (sub_nonneg.mpr h1)
            linarith
  have hq' : q'.fn = ext q.fn φ P.slope := funext f3
  have hcin' : cin'.acc.fn = ext cin.acc.fn φ v.total := funext f1
  have hcout' : cout'.acc.fn = ext cout.acc.fn (φ + tt + q.fn φ / cap) P.outSum := by rw [← harr]; exact funext f2
  have hexit : ∀ t, domP P.dep t → φ ≤ t → φ + tt + q.fn φ / cap ≤ t + tt + (q.fn φ + P.slope * (t - φ)) / cap := by
    intro t ht h1
    have hsl : -cap ≤ P.slope := by
      rcases hcase with ⟨_, c2, _⟩ | ⟨_, _, c3⟩ | ⟨_, _, _, c4, _⟩
      · rw [c2]; linarith
      · rw [c3]; linarith
      · rw [c4]
    have h2 := mul_le_mul_of_nonneg_right hsl (sub_nonneg.mpr h1)
    have h3 : (q.fn φ + -cap * (t - φ)) / cap ≤ (q.fn φ + P.slope * (t - φ)) / cap := by gcongr
    have h4 : (q.fn φ + -cap * (t - φ)) / cap = q.fn φ / cap - (t - φ) := by field_simp; ring
    linarith
  refine ⟨cin', cout', q', e1, f1, r1, e2, e3, hcheck, ⟨h.phi, g1, le_rfl, ?_, g2, g3.wf, by rw [hlo, h.qlo], g3.hi, hlast', fun t ht => (by rw [f3, ext_le (le_trans ht h.phi)]; exact h.qneg t ht), ?_, ?_, ?_, ?_, ?_, ?_⟩,
    ⟨fun i y hy hlt => by rw [r2 i y hy, if_pos hlt], fun y hy => by rw [f2, ext_le hy]⟩, fun y hy => by rw [f3, ext_le hy],
    fun i hz hvi y hy => by rw [r2 i y hy, hz y hy, p3, hvi]; simp⟩
  · intro it hit
    rw [qu1] at hit
    rcases List.mem_append.mp hit with hit | hit
    · exact h.items it hit
    · simp at hit; subst hit; exact le_rfl
  · rw [hq', hcin', hcout']
    exact h.laws.set hc hdφ h.phi ha hr0.1 hr0.2 hd0 hdown hcase
  · rw [hq']
    refine Mix.set h.laws hc htt h.mix h.grows hdφ h.phi hd0 hdown r1 (k := outTotal cap (q.fn φ) v.total / v.total) ?_ ?_ ?_ hexit
    · intro i x hx
      rw [r2 i x hx, harr, p3]
    · by_cases h0 : v.total = 0
      · exact Or.inl (fun i => Rates.get_zero hv h0 i)
      · right
        rw [← p1]
        rcases hcase with ⟨c1, c2, _⟩ | ⟨_, c2, c3⟩ | ⟨_, c2, _⟩
        · rw [c1, c2]; field_simp; ring
        · rw [c2, c3]; field_simp; ring
        · exact absurd c2 h0
    · rcases hcase with ⟨_, c2, _⟩ | ⟨_, _, c3⟩ | ⟨_, _, _, c4, _⟩
      · rw [c2]
        have : 1 + (v.total - cap) / cap = v.total / cap := by field_simp; ring
        rw [this]; exact div_nonneg ha (le_of_lt hc)
      · rw [c3]; norm_num
      · rw [c4]; field_simp; norm_num
  · rw [hcin']
    exact h.grows.set h.laws.fp_mono ha (fun h0 i => Rates.get_zero hv h0 i) r1
  · intro t ht h1
    rw [f3, ext_ge h1, harr]
    exact hexit t ht h1
  · intro i x hx hxt
    rw [r2 i x hx, if_pos (by
      have := div_nonneg hq0 hc.le
      have := h.phi
      linarith)]
    exact h.quiet i x hx hxt
  · cases hpd : P.dep with
    | none => trivial
    | some px =>
      obtain ⟨D, x⟩ := px
      obtain ⟨c1, c2, c3, c4⟩ := hdep D x hpd
      obtain ⟨k1, k2⟩ := hcl.drain c1 c2
      obtain ⟨k3, k4⟩ := hqD D x hpd
      refine ⟨le_of_lt k4, k3, by rw [g3.slope]; exact hslope c1, k1, ?_, ?_⟩
      · intro b' hb'
        have := hlast' b' hb'
        rw [c3]; linarith
      · by_cases h0 : v.total = 0
        · rw [if_pos h0] at c4
          subst c4
          refine ⟨h0, ?_, p6 h0, ?_⟩
          · rw [p1]; unfold outTotal; rw [if_pos h0]
          · rw [c3, h0, sub_zero]
        · rw [if_neg h0] at c4
          subst c4
          have hap : 0 < v.total := lt_of_le_of_ne ha (Ne.symm h0)
          obtain ⟨k5, k6⟩ := hcl.refill c1 c2 hap
          have hout : outTotal cap (q.fn φ) v.total = cap := by
            unfold outTotal; rw [if_neg h0, if_neg (ne_of_gt c1)]
          refine ⟨rfl, rfl, ?_, ?_, ?_⟩
          · rw [c3]
            refine Far.later k5 ?_
            have : q.fn φ / cap ≤ q.fn φ / (cap - v.total) := by
              apply div_le_div_of_nonneg_left (le_of_lt c1) (by linarith) (by linarith)
            linarith
          · right
            rw [p1, hout, abs_of_pos (by linarith)]; exact k1
          · intro i
            rw [p3, hout]; exact k6 i

variable {net : EdgeData}

/-- The record of edge `e` is exact up to `φ`. -/
def EdgeAt (net : EdgeData) (φ : ℚ) (s : DFlow) (P : Nat → Pend) (e : Nat) : Prop :=
  ∃ Lin Vin Lout Vout r, EdgeOk (net.capacity e) (net.travelTime e) φ (s.inflow e) (s.outflow e) (s.queues e) (P e) Lin Vin Lout Vout r

/-- The exact invariant between calls. -/
structure Exact (net : EdgeData) (s : DFlow) (P : Nat → Pend) (C : Nat × ℚ → Bool) : Prop where
  rep : Rep net s P C
  chg : ∀ p, C p = true → s.phi ≤ p.2
  edge : ∀ e, EdgeAt net s.phi s P e

theorem EdgeAt.congr {φ : ℚ} {s s' : DFlow} {P P' : Nat → Pend} {e : Nat} (h : EdgeAt net φ s P e) (h1 : s'.inflow e = s.inflow e)
    (h2 : s'.outflow e = s.outflow e) (h3 : s'.queues e = s.queues e) (h4 : P' e = P e) : EdgeAt net φ s' P' e := by
  unfold EdgeAt; rw [h1, h2, h3, h4]; exact h

theorem clear_congr {s s' : DFlow} {e : Nat} {v : Rates} (h : Clear net s e v) (h0 : s'.phi = s.phi) (h1 : s'.inflow e = s.inflow e)
    (h2 : s'.outflow e = s.outflow e) (h3 : s'.queues e = s.queues e) : Clear net s' e v := by
  unfold Clear; rw [h0, h1, h2, h3]; exact h

/-- The answer to the query of the current inflow. -/
theorem EdgeOk.query {cap tt φ : ℚ} {cin cout : FRC} {q : PL} {p : Pend} {Lin : ℚ} {Vin : Rates} {Lout : ℚ} {Vout : Rates} {r : ℚ}
    (h : EdgeOk cap tt φ cin cout q p Lin Vin Lout Vout r) :
    cin.getValuesAtTime φ = .ok (Vin, { cin with queue := [⟨Lin, Vin⟩] }) ∧
    EdgeOk cap tt φ { cin with queue := [⟨Lin, Vin⟩] } cout q p Lin Vin Lout Vout r := by
  refine ⟨FRC.query_last h.gin.tail h.items, ?_⟩
  exact ⟨h.phi, h.gin.requeue _ rfl ⟨cin.queue.dropLast, by
    have hne : cin.queue ≠ [] := by intro e; have := h.gin.tail; rw [e] at this; cases this
    have h1 := h.gin.tail
    rw [List.getLast?_eq_some_getLast hne] at h1
    injection h1 with h1
    rw [← h1]; exact (List.dropLast_append_getLast hne).symm⟩, h.linle, by simpa using h.linle, h.gout, h.qwf, h.qlo, h.qhi, h.qlast, h.qneg, h.laws, h.mix, h.grows, h.exits, h.quiet, h.pend⟩

/-- One iteration of the loop over the new inflows. -/
theorem setInflow_exact (hn : NetOk net) {s : DFlow} {P : Nat → Pend} {C : Nat × ℚ → Bool} (h : Exact net s P C) {e : Nat} {v : Rates}
    (hv : v.Ok) (hcl : ∀ cur c, (s.inflow e).getValuesAtTime s.phi = .ok (cur, c) → cur.dictEq v = false → Clear net s e v) :
    ∃ s' P' C', setInflow net s e v = .ok s' ∧ Exact net s' P' C' ∧ s'.phi = s.phi ∧
      (∀ x, (s'.inflow e).acc.fn x = ext (s.inflow e).acc.fn s.phi v.total x) ∧
      (∀ i x, 0 ≤ x → FRC.rate (s'.inflow e).funs i x = if x < s.phi then FRC.rate (s.inflow e).funs i x else v.get i) ∧
      (∀ j, j ≠ e → s'.inflow j = s.inflow j ∧ s'.outflow j = s.outflow j ∧ s'.queues j = s.queues j) ∧
      FRC.Same (s.outflow e) (s'.outflow e) s.phi ∧ (∀ x, x ≤ s.phi → (s'.queues e).fn x = (s.queues e).fn x) ∧
      (∀ i, (s.inflow e).Zero i → (s.outflow e).Zero i → v.get i = 0 → (s'.inflow e).Zero i ∧ (s'.outflow e).Zero i) ∧
      ∀ E : Nat → Prop, E e → (∀ p, C p = true → E p.1) → (∀ j, P j ≠ none → E j) → (∀ p, C' p = true → E p.1) ∧ ∀ j, P' j ≠ none → E j := by
  obtain ⟨Lin, Vin, Lout, Vout, r, he⟩ := h.edge e
  obtain ⟨hq1, hq2⟩ := he.query
  by_cases hd : Vin.dictEq v = true
  · refine ⟨{ s with inflow := setAt s.inflow e { s.inflow e with queue := [⟨Lin, Vin⟩] } }, P, C, ?_, ⟨⟨h.rep.deps, h.rep.chg⟩, h.chg, ?_⟩, rfl, ?_, ?_, ?_, FRC.Same.refl _ _, fun _ _ => rfl, ?_, fun E _ h1 h2 => ⟨h1, h2⟩⟩
    · unfold setInflow
      rw [hq1, ok_bind]
      simp only
      rw [if_pos hd]; rfl
    · intro j
      by_cases hj : j = e
      · subst hj
        refine ⟨Lin, Vin, Lout, Vout, r, ?_⟩
        simp only [setAt_self]
        exact hq2
      · exact (h.edge j).congr (setAt_ne _ _ hj) rfl rfl rfl
    · intro x
      simp only [setAt_self]
      unfold ext
      split
      · rfl
      · rename_i hx
        rw [he.gin.acc.fn_after (le_trans he.linle (le_of_lt (not_le.mp hx))) he.linle, Rates.dictEq_total he.gin.ok hd]
    · intro i x hx
      simp only [setAt_self]
      split
      · rfl
      · rename_i hx'
        rw [(he.gin.funs i).rate_after (le_trans he.linle (not_lt.mp hx')), Rates.dictEq_get he.gin.ok hv hd]
    · intro j hj; exact ⟨setAt_ne _ _ hj, rfl, rfl⟩
    · intro i hz1 hz2 _
      simp only [setAt_self]
      exact ⟨hz1, hz2⟩
  · have hd' : Vin.dictEq v = false := by simpa using hd
    have hdom := inDom_all he.qlo he.qhi s.phi
    have hev := PL.eval_eq he.qwf hdom
    have hq0 := he.laws.q_nonneg s.phi (he.dom he.phi le_rfl)
    have hb := List.getLast?_eq_some_getLast he.qwf.ne
    have hC := hcl _ _ hq1 hd' _ _ _ _ hev he.gin.tail he.gout.tail hb
    rw [he.gin.acc.slope, he.gout.acc.slope] at hC
    simp only at hC
    obtain ⟨ch, deps, rd, rc, heq⟩ := setInflow_eq h.rep hq1 (PL.evalFromEnd_eq he.qwf hdom) hd'
    rw [max_eq_left hq0] at rd rc heq
    obtain ⟨cin', cout', q', e1, f1, r1, e2, e3, e4, e5, same, hqs, hz⟩ := hq2.set (hn.cap e) (hn.tt e) hv hb hC
    rw [e1, ok_bind, e2, ok_bind, e3, ok_bind, e4, ok_bind] at heq
    refine ⟨_, _, _, heq, ⟨⟨rd, rc⟩, ?_, ?_⟩, rfl, fun x => (by simp only [setAt_self]; exact f1 x), fun i x hx => (by simp only [setAt_self]; exact r1 i x hx), ?_, ?_, ?_, ?_, ?_⟩
    · intro p hp
      rcases addC_iff.mp hp with hp | hp
      · rw [hp]
        have := div_nonneg hq0 (le_of_lt (hn.cap e))
        have := hn.tt e
        simp only
        linarith
      · exact h.chg p hp
    · intro j
      by_cases hj : j = e
      · subst hj
        have e6 : ∃ a b c d r, EdgeOk (net.capacity j) (net.travelTime j) s.phi cin' cout' q'
            (plan (net.capacity j) s.phi ((s.queues j).fn s.phi) v).dep a b c d r := ⟨_, _, _, _, _, e5⟩
        unfold EdgeAt
        simp only [setAt_self, DepQ.upd_self]
        exact e6
      · exact (h.edge j).congr (setAt_ne _ _ hj) (setAt_ne _ _ hj) (setAt_ne _ _ hj) (DepQ.upd_ne _ _ hj)
    · intro j hj; exact ⟨setAt_ne _ _ hj, setAt_ne _ _ hj, setAt_ne _ _ hj⟩
    · simp only [setAt_self]
      refine same.mono ?_
      have := div_nonneg hq0 (le_of_lt (hn.cap e))
      have := hn.tt e
      linarith
    · simp only [setAt_self]; exact hqs
    · intro i hz1 hz2 hvi
      simp only [setAt_self]
      refine ⟨fun x hx => ?_, hz i hz2 hvi⟩
      rw [r1 i x hx, hvi]
      have := hz1 x hx
      split
      · exact this
      · rfl
    · intro E hEe hEC hEP
      constructor
      · intro p hp
        rcases addC_iff.mp hp with hp | hp
        · rw [hp]; exact hEe
        · exact hEC p hp
      · intro j hj
        by_cases hje : j = e
        · rw [hje]; exact hEe
        · rw [DepQ.upd_ne _ _ hje] at hj; exact hEP j hj

theorem setInflows_exact (hn : NetOk net) : ∀ (l : List (Nat × Rates)) {s : DFlow} {P : Nat → Pend} {C : Nat × ℚ → Bool}, Exact net s P C →
    (l.map Prod.fst).Nodup → (∀ p ∈ l, RatesOk p.2) →
    (∀ p ∈ l, ∀ cur c, (s.inflow p.1).getValuesAtTime s.phi = .ok (cur, c) → cur.dictEq p.2 = false → Clear net s p.1 p.2) →
    ∃ s' P' C', setInflows net l s = .ok s' ∧ Exact net s' P' C' ∧ s'.phi = s.phi ∧
      (∀ p ∈ l, (∀ x, (s'.inflow p.1).acc.fn x = ext (s.inflow p.1).acc.fn s.phi p.2.total x) ∧
        ∀ i x, 0 ≤ x → FRC.rate (s'.inflow p.1).funs i x = if x < s.phi then FRC.rate (s.inflow p.1).funs i x else p.2.get i) ∧
      (∀ j, j ∉ l.map Prod.fst → s'.inflow j = s.inflow j ∧ s'.outflow j = s.outflow j ∧ s'.queues j = s.queues j) ∧
      (∀ j, FRC.Same (s.outflow j) (s'.outflow j) s.phi ∧ (∀ x, x ≤ s.phi → (s'.queues j).fn x = (s.queues j).fn x)) ∧
      (∀ j i, (s.inflow j).Zero i → (s.outflow j).Zero i → (∀ p ∈ l, p.1 = j → p.2.get i = 0) → (s'.inflow j).Zero i ∧ (s'.outflow j).Zero i) ∧
      ∀ E : Nat → Prop, (∀ p ∈ l, E p.1) → (∀ p, C p = true → E p.1) → (∀ j, P j ≠ none → E j) →
        (∀ p, C' p = true → E p.1) ∧ ∀ j, P' j ≠ none → E j := by
  intro l
  induction l with
  | nil => intro s P C h _ _ _; exact ⟨s, P, C, rfl, h, rfl, by simp, fun _ _ => ⟨rfl, rfl, rfl⟩, fun _ => ⟨FRC.Same.refl _ _, fun _ _ => rfl⟩, fun _ _ h1 h2 _ => ⟨h1, h2⟩, fun _ _ h1 h2 => ⟨h1, h2⟩⟩
  | cons p l ih =>
    obtain ⟨e, v⟩ := p
    intro s P C h hnd hok hcl
    rw [List.map_cons, List.nodup_cons] at hnd
    obtain ⟨s1, P1, C1, e1, x1, p1, i1, i2, f1, sm, sq, z1, E1⟩ := setInflow_exact hn h (e := e) (v := v) (Rates.ok_of (hok (e, v) (by simp))) (hcl (e, v) (by simp))
    obtain ⟨s2, P2, C2, e2, x2, p2, i3, f2, sm2, z2, E2⟩ := ih x1 hnd.2 (fun p hp => hok p (by simp [hp])) (by
      intro p hp cur c hq hd
      have hne : p.1 ≠ e := by
        intro hpe; exact hnd.1 (List.mem_map.mpr ⟨p, hp, hpe⟩)
      obtain ⟨a1, a2, a3⟩ := f1 p.1 hne
      rw [a1, p1] at hq
      exact clear_congr (hcl p (by simp [hp]) cur c hq hd) p1 a1 a2 a3)
    refine ⟨s2, P2, C2, ?_, x2, by rw [p2, p1], ?_, ?_, ?_, ?_, ?_⟩
    · unfold setInflows; rw [e1, ok_bind, e2]
    · intro p hp
      rcases List.mem_cons.mp hp with hp | hp
      · subst hp
        obtain ⟨b1, _, _⟩ := f2 e hnd.1
        simp only [b1]
        exact ⟨i1, i2⟩
      · have hne : p.1 ≠ e := by
          intro hpe; exact hnd.1 (List.mem_map.mpr ⟨p, hp, hpe⟩)
        obtain ⟨a1, _, _⟩ := f1 p.1 hne
        obtain ⟨k1, k2⟩ := i3 p hp
        rw [a1, p1] at k1 k2
        exact ⟨k1, k2⟩
    · intro j hj
      rw [List.map_cons, List.mem_cons, not_or] at hj
      obtain ⟨a1, a2, a3⟩ := f1 j hj.1
      obtain ⟨b1, b2, b3⟩ := f2 j hj.2
      exact ⟨by rw [b1, a1], by rw [b2, a2], by rw [b3, a3]⟩
    · intro j
      have hj1 : FRC.Same (s.outflow j) (s1.outflow j) s.phi ∧ (∀ x, x ≤ s.phi → (s1.queues j).fn x = (s.queues j).fn x) := by
        by_cases hj : j = e
        · subst hj; exact ⟨sm, sq⟩
        · obtain ⟨_, a2, a3⟩ := f1 j hj
          rw [a2, a3]; exact ⟨FRC.Same.refl _ _, fun _ _ => rfl⟩
      have hj2 := sm2 j
      rw [p1] at hj2
      exact ⟨hj1.1.trans hj2.1, fun x hx => by rw [hj2.2 x hx, hj1.2 x hx]⟩
    · intro j i hz1 hz2 hzl
      have h1 : (s1.inflow j).Zero i ∧ (s1.outflow j).Zero i := by
        by_cases hj : j = e
        · subst hj; exact z1 i hz1 hz2 (hzl (j, v) (by simp) rfl)
        · obtain ⟨a1, a2, _⟩ := f1 j hj
          rw [a1, a2]; exact ⟨hz1, hz2⟩
      exact z2 j i h1.1 h1.2 (fun p hp => hzl p (by simp [hp]))
    · intro E hEl hEC hEP
      obtain ⟨k1, k2⟩ := E1 E (hEl (e, v) (by simp)) hEC hEP
      exact E2 E (fun p hp => hEl p (by simp [hp])) k1 k2

/-- All depletions up to the new time. -/
theorem processDepletions_exact (hn : NetOk net) (ψ0 : ℚ) : ∀ (fuel : Nat) {s : DFlow} {P : Nat → Pend} {C : Nat × ℚ → Bool},
    Rep net s P C → (∀ p, C p = true → s.phi ≤ p.2) →
    (∀ e D va, P e = some (D, some va) → s.phi ≤ D + net.travelTime e) →
    (∀ e, ∃ ψ, (ψ ≤ s.phi ∧ ψ0 ≤ ψ) ∧ EdgeAt net ψ s P e) → s.deps.depletions.len < fuel →
    ∃ s' P' C', processDepletions fuel s = .ok s' ∧ Exact net s' P' C' ∧ s'.phi = s.phi ∧ s'.inflow = s.inflow ∧
      (∀ j, FRC.Same (s.outflow j) (s'.outflow j) ψ0 ∧ (∀ x, x ≤ ψ0 → (s'.queues j).fn x = (s.queues j).fn x)) ∧
      (∀ j i, (s.inflow j).Zero i → (s.outflow j).Zero i → (s'.outflow j).Zero i) ∧
      ∀ E : Nat → Prop, (∀ p, C p = true → E p.1) → (∀ j, P j ≠ none → E j) → (∀ p, C' p = true → E p.1) ∧ ∀ j, P' j ≠ none → E j := by
  intro fuel
  induction fuel with
  | zero => intro s P C _ _ _ _ h; omega
  | succ fuel ih =>
    intro s P C hr hch hpd hed hlen
    have hfin : (∀ e D x, P e = some (D, x) → s.phi ≤ D) → Exact net s P C := by
      intro hD
      refine ⟨hr, hch, ?_⟩
      intro e
      obtain ⟨ψ, ⟨h1, _⟩, Lin, Vin, Lout, Vout, r, h2⟩ := hed e
      exact ⟨Lin, Vin, Lout, Vout, r, h2.later h1 (hD e)⟩
    unfold processDepletions
    rcases processDepletion_eq hr with ⟨h1, h2⟩ | ⟨e, D, x, deps, hp, hl1, hmk, hmin, hrep, hl, hx1, hx2⟩
    · obtain ⟨mk, _⟩ := DepQ.minKey_none hr.deps h2
      rw [mk, ok_bind, if_neg (by omega)]
      exact ⟨s, P, C, rfl, hfin (fun e D x hp => by rw [h2] at hp; cases hp), rfl, rfl, fun _ => ⟨FRC.Same.refl _ _, fun _ _ => rfl⟩, fun _ _ _ h => h, fun _ h1 h2 => ⟨h1, h2⟩⟩
    · rw [hmk, ok_bind]
      by_cases hle : D ≤ s.phi
      · rw [if_pos ⟨ev_le.mpr hle, hl1⟩]
        obtain ⟨ψ, ⟨g1, g1'⟩, Lin, Vin, Lout, Vout, r, g2⟩ := hed e
        rw [hp] at g2
        have hDψ : ψ0 ≤ D := le_trans g1' g2.pend.1
        obtain ⟨q', e1, e2, e3, e4, hqs, e5⟩ := g2.deplete (hn.cap e) (hn.tt e)
        have hz : pyAssert (|(0 : ℚ)| < 1000 * eps) = .ok () := pyAssert_true (by have := eps_pos; simp [this])
        have hpd' : ∀ j D' va, DepQ.upd P e none j = some (D', some va) → s.phi ≤ D' + net.travelTime j := by
          intro j D' va hj
          unfold DepQ.upd at hj
          split at hj
          · cases hj
          · exact hpd j D' va hj
        cases x with
        | none =>
          have hstep := hx1 rfl
          rw [e1, ok_bind, e3, ok_bind, hz, ok_bind, e2] at hstep
          rw [hstep]
          simp only [py_pure, ok_bind]
          obtain ⟨s', P', C', r1, r2, r3, r4, r5, r6, r7⟩ := ih (s := { s with deps := deps, queues := setAt s.queues e q' }) (P := DepQ.upd P e none) (C := C) ⟨hrep, hr.chg⟩ hch hpd' (by
            intro j
            by_cases hj : j = e
            · subst hj
              refine ⟨D, ⟨hle, hDψ⟩, Lin, Vin, Lout, Vout, r, ?_⟩
              simp only [setAt_self, DepQ.upd_self]
              exact e4 rfl
            · obtain ⟨ψ', y1, y2⟩ := hed j
              exact ⟨ψ', y1, y2.congr rfl rfl (setAt_ne _ _ hj) (DepQ.upd_ne _ _ hj)⟩) (by simp only; omega)
          refine ⟨s', P', C', r1, r2, r3, r4, fun j => ?_, ?_, ?_⟩
          have := r5 j
          by_cases hj : j = e
          · subst hj
            simp only [setAt_self] at this
            exact ⟨this.1, fun x hx => by rw [this.2 x hx, hqs x (le_trans hx hDψ)]⟩
          · simp only [setAt_ne _ _ hj] at this
            exact this
          · exact r6
          · intro E hEC hEP
            refine r7 E hEC ?_
            · intro j hj
              by_cases hje : j = e
              · rw [hje, DepQ.upd_self] at hj; exact absurd rfl hj
              · rw [DepQ.upd_ne _ _ hje] at hj; exact hEP j hj
        | some va =>
          obtain ⟨v, a⟩ := va
          obtain ⟨ch, rc, hstep⟩ := hx2 v a rfl
          obtain ⟨cout', k1, k2, same, hz'⟩ := e5 v a rfl
          rw [e1, ok_bind, e3, ok_bind, hz, ok_bind, e2, k1, ok_bind] at hstep
          rw [hstep]
          simp only [py_pure, ok_bind]
          obtain ⟨s', P', C', r1, r2, r3, r4, r5, r6, r7⟩ := ih (s := { s with deps := deps, queues := setAt s.queues e q', changes := ch, outflow := setAt s.outflow e cout' }) (P := DepQ.upd P e none) (C := addC C (e, D + net.travelTime e)) ⟨hrep, rc⟩ (by
              intro p hpp
              rcases addC_iff.mp hpp with hpp | hpp
              · rw [hpp]; exact hpd e D _ hp
              · exact hch p hpp) hpd' (by
            intro j
            by_cases hj : j = e
            · subst hj
              refine ⟨D, ⟨hle, hDψ⟩, Lin, Vin, D + net.travelTime j, v, a, ?_⟩
              simp only [setAt_self, DepQ.upd_self]
              exact k2
            · obtain ⟨ψ', y1, y2⟩ := hed j
              exact ⟨ψ', y1, y2.congr rfl (setAt_ne _ _ hj) (setAt_ne _ _ hj) (DepQ.upd_ne _ _ hj)⟩) (by simp only; omega)
          refine ⟨s', P', C', r1, r2, r3, r4, fun j => ?_, ?_, ?_⟩
          have := r5 j
          by_cases hj : j = e
          · subst hj
            simp only [setAt_self] at this
            exact ⟨(same.mono (by have := hn.tt j; linarith)).trans this.1, fun x hx => by rw [this.2 x hx, hqs x (le_trans hx hDψ)]⟩
          · simp only [setAt_ne _ _ hj] at this
            exact this
          · intro j i hz1 hz2
            refine r6 j i hz1 ?_
            by_cases hj : j = e
            · subst hj
              simp only [setAt_self]
              exact hz' i hz1 hz2
            · simp only [setAt_ne _ _ hj]; exact hz2
          · intro E hEC hEP
            refine r7 E ?_ ?_
            · intro p hpp
              rcases addC_iff.mp hpp with hpp | hpp
              · rw [hpp]; exact hEP e (by rw [hp]; simp)
              · exact hEC p hpp
            · intro j hj
              by_cases hje : j = e
              · rw [hje, DepQ.upd_self] at hj; exact absurd rfl hj
              · rw [DepQ.upd_ne _ _ hje] at hj; exact hEP j hj
      · rw [if_neg (fun hc => hle (ev_le.mp hc.1))]
        exact ⟨s, P, C, rfl, hfin (fun j D' x' hj => le_trans (le_of_lt (not_le.mp hle)) (hmin j D' x' hj)), rfl, rfl, fun _ => ⟨FRC.Same.refl _ _, fun _ _ => rfl⟩, fun _ _ _ h => h, fun _ h1 h2 => ⟨h1, h2⟩⟩

/-- A valid call returns and keeps the invariant. -/
theorem extend_exact (hn : NetOk net) {s : DFlow} {P : Nat → Pend} {C : Nat × ℚ → Bool} (h : Exact net s P C) {l : List (Nat × Rates)} {T : ℚ}
    (hcall : CallOk net s l T) :
    ∃ s' ch P' C', s.extend net l T = .ok (s', ch) ∧ Exact net s' P' C' ∧
      (∀ p ∈ l, (∀ x, (s'.inflow p.1).acc.fn x = ext (s.inflow p.1).acc.fn s.phi p.2.total x) ∧
        ∀ i x, 0 ≤ x → FRC.rate (s'.inflow p.1).funs i x = if x < s.phi then FRC.rate (s.inflow p.1).funs i x else p.2.get i) ∧
      (∀ j, j ∉ l.map Prod.fst → s'.inflow j = s.inflow j) ∧
      (∀ j, FRC.Same (s.outflow j) (s'.outflow j) s.phi ∧ (∀ x, x ≤ s.phi → (s'.queues j).fn x = (s.queues j).fn x)) ∧
      (∀ j i, (s.inflow j).Zero i → (s.outflow j).Zero i → (∀ p ∈ l, p.1 = j → p.2.get i = 0) → (s'.inflow j).Zero i ∧ (s'.outflow j).Zero i) ∧
      ∀ E : Nat → Prop, (∀ p ∈ l, E p.1) → (∀ p, C p = true → E p.1) → (∀ j, P j ≠ none → E j) →
        (∀ p, C' p = true → E p.1) ∧ (∀ j, P' j ≠ none → E j) ∧ ∀ e ∈ ch, E e := by
  obtain ⟨s1, P1, C1, e1, x1, p1, i1, f1, sm1, z1, E1⟩ := setInflows_exact hn l h hcall.nodup hcall.rates hcall.clear
  obtain ⟨a, b, φ, ea, eb, eφ, n1, n2, n3, n4⟩ := next_event s1 x1.rep T
  have hφ : s1.phi ≤ φ := by
    rcases n4 with n4 | ⟨p, hp, n4⟩ | ⟨e, D, va, hp, n4⟩
    · rw [n4, p1]; exact hcall.time
    · rw [n4]; exact x1.chg p hp
    · rw [n4]
      obtain ⟨_, _, _, _, _, hx⟩ := x1.edge e
      have := hx.pend
      rw [hp] at this
      have := this.1
      have := hn.tt e
      linarith
  obtain ⟨s2, P2, C2, e2, x2, p2, i2, sm2, z2, E2⟩ := processDepletions_exact hn s.phi (s1.deps.depletions.len + 1) (s := { s1 with phi := φ }) (P := P1) (C := C1)
    ⟨x1.rep.deps, x1.rep.chg⟩ n2 n3 (fun e => ⟨s1.phi, ⟨hφ, by rw [p1]⟩, (x1.edge e).congr rfl rfl rfl rfl⟩) (by simp only; omega)
  obtain ⟨h', C', ch, e3, r3, c3, c4⟩ := collect_spec (s2.changes.len + 1) s2 [] C2 x2.rep.chg (by omega)
  refine ⟨{ s2 with changes := h' }, ch, P2, C', ?_, ⟨⟨x2.rep.deps, r3⟩, ?_, fun e => (x2.edge e).congr rfl rfl rfl rfl⟩, by rw [i2]; exact i1, by rw [i2]; exact fun j hj => (f1 j hj).1,
    fun j => ⟨(sm1 j).1.trans (sm2 j).1, fun x hx => by rw [(sm2 j).2 x hx, (sm1 j).2 x hx]⟩, ?_, ?_⟩
  rotate_left 2
  · intro j i hz1 hz2 hzl
    obtain ⟨k1, k2⟩ := z1 j i hz1 hz2 hzl
    refine ⟨?_, z2 j i k1 k2⟩
    simp only; rw [i2]; exact k1
  · intro E hEl hEC hEP
    obtain ⟨k1, k2⟩ := E1 E hEl hEC hEP
    obtain ⟨k3, k4⟩ := E2 E k1 k2
    refine ⟨fun p hp => k3 p ((c3 p).mp hp).1, k4, fun e he => ?_⟩
    rcases (c4 e).mp he with h0 | ⟨y, hy, _⟩
    · cases h0
    · exact k3 (e, y) hy
  · unfold DFlow.extend
    rw [e1, ok_bind, ea, ok_bind, eb, ok_bind, eφ, ok_bind]
    simp only []
    rw [e2, ok_bind, e3]
  · intro p hp
    exact le_of_lt ((c3 p).mp hp).2

/-- The initial flow. -/
theorem init_ok (hn : NetOk net) : ∃ s, DFlow.init = .ok s ∧ s.phi = 0 ∧ Exact net s (fun _ => none) (fun _ => false) ∧
    Safe net s (fun _ => none) (fun _ => false) := by
  have hw : PL.WF ⟨[0], [0], 0, 0, ⊥, ⊤⟩ := ⟨by decide, by decide, by decide, by decide +kernel⟩
  have hz : ∀ x, PL.fn ⟨[0], [0], 0, 0, ⊥, ⊤⟩ x = 0 := by
    intro x
    by_cases hx : x ≤ 0
    · rw [PL.fn_left hw hw.pos hx]; simp
    · rw [PL.fn_right hw (le_of_lt (not_le.mp hx))]; simp
  obtain ⟨c, e1, g, hacc, hrate, hq, ht⟩ := FRC.empty_good
  refine ⟨⟨0, fun _ => c, fun _ => c, fun _ => ⟨[0], [0], 0, 0, ⊥, ⊤⟩, Heap.empty, DepQ.empty⟩, ?_, rfl, ⟨⟨DepQ.rep_empty, Heap.rep_empty⟩, by simp, ?_⟩, ?_⟩
  · unfold DFlow.init
    rw [e1, ok_bind, PL.new_ok hw]; rfl
  · intro e
    have hacc' : c.acc.fn = fun _ => 0 := funext hacc
    have hz' : PL.fn ⟨[0], [0], 0, 0, ⊥, ⊤⟩ = fun _ => 0 := funext hz
    refine ⟨0, [], 0, [], 0, ⟨le_rfl, g, le_rfl, by simp [hq], g, hw, rfl, rfl, by simp, fun t _ => hz t, ?_, ?_, ?_, ?_, fun i x _ _ => hrate i x, trivial⟩⟩
    · simp only
      rw [hacc', hz']
      have hc := hn.cap e
      refine ⟨fun _ _ _ => le_rfl, ?_, fun _ _ => le_rfl, ?_, ?_, ?_⟩
      · intro x y hxy
        have := mul_nonneg (le_of_lt hc) (sub_nonneg.mpr hxy)
        exact ⟨by simp, by simpa using this⟩
      · intro t _; simp
      · intro t y _ h1 h2
        simp at h2
        have : y = t + net.travelTime e := le_antisymm h2 h1
        rw [this]; simp
      · intro t ht
        exact ⟨t, ht.1, le_rfl, by simp⟩
    · intro t ht
      refine ⟨1, zero_le_one, fun i => by simp only [hrate]; norm_num, 1, one_pos, fun u _ _ _ => ?_⟩
      simp only [hz]; ring
    · intro x t _ _ _ i; exact hrate i x
    · intro t ht h0
      simp only [hz]
      have := hn.tt e
      simp only [zero_div, add_zero]
      linarith
  · have hl : ∀ c0, 0 < c0 → c.acc.Lip c0 := by
      intro c0 hc x y hxy
      rw [hacc, hacc]
      have := mul_nonneg (le_of_lt hc) (sub_nonneg.mpr hxy)
      constructor
      · simp
      · simpa using this
    refine ⟨⟨DepQ.rep_empty, Heap.rep_empty⟩, by simp, by simp, ?_, fun _ => g.acc.wf, fun _ => g.acc.hi, fun _ => g.accLo, fun e => hl _ (hn.cap e)⟩
    intro e it hit h0
    simp only [hq, List.mem_singleton] at hit
    subst hit
    exact absurd h0 (lt_irrefl _)

end DFlow
end Verif
