import Verif.Proofs.BFCosts

/-! The search up to a horizon, if nothing turns any more in the end. -/

namespace Verif
open Verif.Spec

/-- The same function without end. -/
def PL.free (p : PL) : PL := { p with hi := ⊤ }

namespace BF

variable {phi H0 H : ℚ} {lines : List (ℚ × ℚ)} {kinks : List ℚ}

variable (phi H0 H lines kinks) in
/-- A label of the search up to the horizon `H`: a function on the lines that bends up to `H0` only, behind that takes `d`, and ends where the arrival is at the horizon. -/
structure OnH (p : PL) (d : ℚ) : Prop where
  on : OnL phi lines kinks p.free
  hi : p.hi = ((H - d : ℚ) : WithTop ℚ)
  early : ∀ t ∈ p.times, t ≤ H0
  atEnd : p.fn H0 = H0 + d
  before : H0 + d < H
  pos : 0 ≤ d
  start : phi ≤ H0
  mono : ∀ s t, phi ≤ s → s ≤ t → p.fn s ≤ p.fn t

theorem wf_cut {p : PL} (h : p.free.WF) (hb : ∀ t ∈ p.times, (t : WithTop ℚ) ≤ p.hi) : p.WF :=
  ⟨h.len, h.ne, h.gap, fun t ht => ⟨(h.dom t ht).1, hb t ht⟩⟩

theorem wf_free {p : PL} (h : p.WF) : p.free.WF := ⟨h.len, h.ne, h.gap, fun t ht => ⟨(h.dom t ht).1, le_top⟩⟩

theorem OnH.wf {p : PL} {d : ℚ} (h : OnH phi H0 H lines kinks p d) : p.WF :=
  wf_cut h.on.wf (fun t ht => by
    rw [h.hi]
    exact WithTop.coe_le_coe.mpr (by have := h.early t ht; have := h.before; linarith))

theorem OnH.lo {p : PL} {d : ℚ} (h : OnH phi H0 H lines kinks p d) : p.lo = (phi : WithBot ℚ) := h.on.lo

theorem OnH.inDom {p : PL} {d : ℚ} (h : OnH phi H0 H lines kinks p d) {t : ℚ} : p.inDom t ↔ phi ≤ t ∧ t ≤ H - d := by
  unfold PL.inDom
  rw [h.lo, h.hi, WithBot.coe_le_coe, WithTop.coe_le_coe]

theorem OnH.get {p : PL} {d : ℚ} (h : OnH phi H0 H lines kinks p d) : p.times[0]'h.wf.pos = phi := h.on.get

theorem OnH.far {p : PL} {d : ℚ} (h : OnH phi H0 H lines kinks p d) {t : ℚ} (ht : H0 ≤ t) : p.fn t = t + d := by
  rw [PL.fn_right_aff h.wf (y := H0) (fun s hs => le_trans (h.early s hs) ht) h.early, h.atEnd, show p.last = 1 from h.on.last]
  ring

theorem OnH.below {p : PL} {d : ℚ} (h : OnH phi H0 H lines kinks p d) {t : ℚ} (ht : phi ≤ t) : p.fn t ≤ H ↔ t ≤ H - d := by
  constructor
  · intro hle
    rcases le_total H0 t with h1 | h1
    · rw [h.far h1] at hle; linarith
    · have := h.before; linarith
  · intro hle
    rcases le_total H0 t with h1 | h1
    · rw [h.far h1]; linarith
    · have := h.mono t H0 ht h1
      rw [h.atEnd] at this
      have := h.before
      linarith

/-- In the end a label is a line with slope 1. -/
theorem OnH.line {p : PL} {d : ℚ} (h : OnH phi H0 H lines kinks p d) : (1, d) ∈ lines := by
  obtain ⟨l, l1, l2, l3⟩ := on_line (m := 1) (a := H0) (b := H0 + 1) (F := p.fn) (by linarith) (fun t ht _ => h.on.sup t (le_trans h.start ht)) (by
    intro x hx _
    rw [h.far hx, h.far (le_refl _)]; ring)
  have := l3 H0 (le_refl _) (by linarith)
  rw [h.atEnd] at this
  unfold lineAt at this
  rw [l2] at this
  have e : l.2 = d := by linarith
  rw [← l2, ← e]
  exact l1

theorem OnH.apart (hc : ClearCut phi lines kinks) {p h : PL} {d d' : ℚ} (hp : OnH phi H0 H lines kinks p d) (hh : OnH phi H0 H lines kinks h d') : d = d' ∨ 1000 * eps < |d - d'| := by
  have := hc.values phi ⟨le_refl _, Or.inl rfl⟩ _ hp.line _ hh.line
  unfold lineAt at this
  simp only [one_mul, add_right_inj, add_sub_add_left_eq_sub] at this
  exact this

/-- `simplify`. -/
theorem OnH.simplify (hc : ClearCut phi lines kinks) {h : PL} {d : ℚ} (hh : OnH phi H0 H lines kinks h d) :
    ∃ p, h.simplify = .ok p ∧ OnH phi H0 H lines kinks p d ∧ (∀ t ∈ p.times, t = phi ∨ Kink phi p.fn t) ∧ ∀ x, p.fn x = h.fn x := by
  obtain ⟨p, h1, h2, h3, h4, h5, h6, h7, h8, h9⟩ := PL.simplify_ok hh.wf (fun j hj g0 g1 e0 e1 => (hh.on.slopes hc hh.on e0 e1).imp id le_of_lt)
  have hfn : p.fn = h.fn := funext h9
  have hfn' : p.free.fn = p.fn := rfl
  have hl : p.free.last = 1 := by show p.last = 1; rw [h6]; exact hh.on.last
  refine ⟨p, h1, ⟨⟨wf_free h2, by show p.lo = _; rw [h3, hh.lo], rfl, by show p.times.head? = _; rw [h8]; exact hh.on.head, hl, ?_, ?_, ?_⟩, by rw [h4, hh.hi], fun t ht => hh.early t (h7.subset ht),
    by rw [hfn]; exact hh.atEnd, hh.before, hh.pos, hh.start, by rw [hfn]; exact hh.mono⟩, ?_, h9⟩
  · show ∃ l ∈ lines, l.1 = p.first
    rw [h5]; exact hh.on.first
  · rw [hfn', hfn]; exact hh.on.sup
  · exact fun t ht => hh.on.turn t (h7.subset ht)
  · intro t ht
    rw [hfn]
    rcases simplify_kinks (phi := phi) hh.wf h1 (fun t ht => (hh.on.turn t ht).1) t ht with e | e
    · left
      have := hh.on.head
      rw [show h.free.times = h.times from rfl, e] at this
      exact Option.some.inj this
    · exact Or.inr e

/-- `smaller_equals`. -/
theorem OnH.cmp (hc : ClearCut phi lines kinks) {p h : PL} {d d' : ℚ} (hp : OnH phi H0 H lines kinks p d) (hh : OnH phi H0 H lines kinks h d') :
    ∃ b, p.smallerEquals h = .ok b ∧ (b = true ↔ ∀ t, phi ≤ t → p.fn t ≤ h.fn t) := by
  have e1 : p.lo = (p.times[0]'hp.wf.pos : WithBot ℚ) := by rw [hp.get, hp.lo]
  have e2 : h.lo = (h.times[0]'hh.wf.pos : WithBot ℚ) := by rw [hh.get, hh.lo]
  have he := eps_pos
  by_cases hd : d ≤ d'
  · have hlt : ((h.times[0]'hh.wf.pos : ℚ) : WithTop ℚ) < h.hi := by
      rw [hh.get, hh.hi]
      exact WithTop.coe_lt_coe.mpr (by have := hh.before; have := hh.start; linarith)
    have hhi : h.hi ≤ p.hi := by rw [hp.hi, hh.hi]; exact WithTop.coe_le_coe.mpr (by linarith)
    obtain ⟨b, hb⟩ := PL.smallerEquals_total hp.wf hh.wf e1 e2 (by rw [hp.lo, hh.lo]) hhi hlt
    refine ⟨b, hb, ?_⟩
    constructor
    · intro e
      subst e
      obtain ⟨_, _, s1, _⟩ := PL.smallerEquals_sound hp.wf hh.wf hb
      have s2 := s1 _ hh.hi
      refine le_of_breaks (f := p.free) (g := h.free) hp.on.wf hh.on.wf hp.on.get (by rw [hp.on.last, hh.on.last]) ?_
      intro t ht
      have htu : Turn phi lines kinks t := ht.elim (hp.on.turn t) (hh.on.turn t)
      have ht0 : t ≤ H0 := ht.elim (hp.early t) (hh.early t)
      have h1 := s2 t (hh.inDom.mpr ⟨htu.1, by have := hh.before; linarith⟩)
      obtain ⟨l, l1, l2⟩ := hp.on.sup t htu.1
      obtain ⟨l', k1, k2⟩ := hh.on.sup t htu.1
      unfold PL.precision at h1
      rcases hc.values t htu l l1 l' k1 with h2 | h2
      · rw [l2, k2, h2]
      · rw [← l2, ← k2] at h2
        by_contra hcon
        rw [not_le] at hcon
        rw [abs_of_pos (by linarith)] at h2
        have h3 : p.free.fn t ≤ h.free.fn t + eps * 1000 := h1
        linarith
    · intro hle
      have := PL.smallerEquals_complete hp.wf hh.wf e1 e2 (by rw [hp.lo, hh.lo]) hhi hlt (fun t ht => hle t (hh.inDom.mp ht).1)
      rw [hb] at this
      exact Except.ok.inj this
  · rw [not_le] at hd
    have hgap : 1000 * eps < d - d' := by
      rcases hp.apart hc hh with h | h
      · exact absurd h hd.ne'
      · rwa [abs_of_pos (by linarith)] at h
    refine ⟨false, ?_, ?_⟩
    · unfold PL.smallerEquals
      rw [rd_lt _ _ hp.wf.pos, ok_bind, rd_lt _ _ hh.wf.pos, ok_bind, pyAssert_true ⟨e1.symm, by rw [← e2, hp.lo, hh.lo], e2.symm⟩, ok_bind, if_pos]
      · rfl
      · rw [hp.hi, hh.hi]
        show decide (H - d < H - d' - PL.precision) = true
        unfold PL.precision
        exact decide_eq_true (by linarith)
    · constructor
      · intro h; exact absurd h (by simp)
      · intro hle
        have := hle H0 hp.start
        rw [hp.atEnd, hh.atEnd] at this
        linarith

/-- `outer_minimum` behind `minimum`: only the end changes. -/
theorem outer_cut {p h m : PL} (hm : p.minimum h = .ok m) (mw : m.WF) (hlo : p.lo = h.lo) {a b : ℚ} (ha : p.hi = (a : WithTop ℚ)) (hb : h.hi = (b : WithTop ℚ)) (hab : a = b ∨ 1000 * eps < |a - b|)
    (hpw : p.WF) (hhw : h.WF) (hp : ∀ t ∈ p.times, t < min a b) (hh : ∀ t ∈ h.times, t < min a b) (hpl : p.last = m.last) (hhl : h.last = m.last) :
    p.outerMinimum h = .ok { m with hi := ((max a b : ℚ) : WithTop ℚ) } := by
  obtain ⟨mlo, mhi⟩ := PL.minimum_dom hm
  have he := eps_pos
  have hmin : m.hi = ((min a b : ℚ) : WithTop ℚ) := by rw [mhi, ha, hb]; exact (WithTop.coe_min _ _).symm
  have h1 : PL.outerLeft p h m = .ok m := by
    unfold PL.outerLeft
    rw [mlo, hlo, max_self, PL.not_startsLater_self, if_neg (by simp)]
    rw [if_neg (by simp)]
    rfl
  have hext : ∀ q : PL, q.WF → (∀ t ∈ q.times, t < min a b) → q.last = m.last → ∀ c : ℚ, q.hi = (c : WithTop ℚ) → min a b < c - eps → m.rightExtend q = .ok { m with hi := (c : WithTop ℚ) } := by
    intro q hq hqt hql c hc hlt
    unfold PL.rightExtend
    rw [hmin, hc, pyAssert_true (show PL.endsEarlier ((min a b : ℚ) : WithTop ℚ) (c : WithTop ℚ) = true from decide_eq_true hlt), ok_bind]
    show (do let rnk ← elemRank q.times (min a b); _) = _
    have hcnt : q.times.countP (· < min a b) = q.times.length := by
      rw [List.countP_eq_length]
      intro t ht
      exact decide_eq_true (hqt t ht)
    rw [elemRank_eq hq.le hq.ne, ok_bind, hcnt]
    simp only
    rw [if_pos (by omega), hql]
    exact PL.new_ok ⟨mw.len, mw.ne, mw.gap, fun t ht => ⟨(mw.dom t ht).1, by
      have := (mw.dom t ht).2
      rw [hmin] at this
      exact le_trans this (WithTop.coe_le_coe.mpr (by linarith))⟩⟩
  unfold PL.outerMinimum
  rw [hm, ok_bind, h1, ok_bind]
  unfold PL.outerRight
  rw [hmin, ha, hb]
  show (if decide (min a b < a - eps) = true then m.rightExtend p else if decide (min a b < b - eps) = true then m.rightExtend h else pure m) = _
  rcases hab with hab | hab
  · subst hab
    rw [min_self] at hmin
    rw [min_self, max_self, if_neg (by simp [he.le]), if_neg (by simp [he.le]), ← hmin]
    rfl
  · rcases le_total a b with hle | hle
    · have hlt : a < b - eps := by
        rw [abs_of_nonpos (by linarith)] at hab
        linarith
      rw [if_neg (by rw [min_eq_left hle]; simp [he.le]), if_pos (by rw [min_eq_left hle]; exact decide_eq_true hlt), max_eq_right hle]
      exact hext h hhw hh hhl b hb (by rw [min_eq_left hle]; exact hlt)
    · have hlt : b < a - eps := by
        rw [abs_of_nonneg (by linarith)] at hab
        linarith
      rw [if_pos (by rw [min_eq_right hle]; exact decide_eq_true hlt), max_eq_left hle]
      exact hext p hpw hp hpl a ha (by rw [min_eq_right hle]; exact hlt)

/-- `outer_minimum`. -/
theorem OnH.least (hc : ClearCut phi lines kinks) (hturn : ∀ t, Turn phi lines kinks t → t ≤ H0) {p h : PL} {d d' : ℚ} (hp : OnH phi H0 H lines kinks p d) (hh : OnH phi H0 H lines kinks h d') :
    ∃ m, p.outerMinimum h = .ok m ∧ OnH phi H0 H lines kinks m (min d d') ∧ ∀ t, phi ≤ t → m.fn t = min (p.fn t) (h.fn t) := by
  have he := eps_pos
  set B : ℚ := min (H - d) (H - d') with hB
  have hBlt : H0 < B := lt_min (by have := hp.before; linarith) (by have := hh.before; linarith)
  have hBp : B ≤ H - d := min_le_left _ _
  have hBh : B ≤ H - d' := min_le_right _ _
  have hbend : ∀ s, PL.Bend p h phi (B : WithTop ℚ) s → Turn phi lines kinks s := by
    rintro s ⟨b1, _, b3⟩
    refine hp.on.bend hh.on s ⟨b1, le_top, b3.imp id (Or.imp id ?_)⟩
    rintro ⟨c1, r, c2, _, c3⟩
    exact ⟨c1, r, c2, le_top, c3⟩
  have hpair : PL.Pair p h phi (B : WithTop ℚ) := by
    refine ⟨hp.wf, hh.wf, fun x hx hx' => ?_, fun t ht => (hp.on.turn t ht).1, fun t ht => (hh.on.turn t ht).1, ?_, ?_, ?_⟩
    · have := WithTop.coe_le_coe.mp hx'
      exact ⟨hp.inDom.mpr ⟨hx, by linarith⟩, hh.inDom.mpr ⟨hx, by linarith⟩⟩
    · intro t ht _
      have htu : Turn phi lines kinks t := ht.elim (hp.on.turn t) (hh.on.turn t)
      obtain ⟨l, l1, l2⟩ := hp.on.sup t htu.1
      obtain ⟨l', k1, k2⟩ := hh.on.sup t htu.1
      have l2 : p.fn t = lineAt l t := l2
      have k2 : h.fn t = lineAt l' t := k2
      rw [l2, k2]
      exact (hc.values t htu l l1 l' k1).imp id (fun h => by linarith)
    · intro i j m n hm hn
      exact (hp.on.slopes hc hh.on hm hn).imp id (fun h => by linarith)
    · intro s t hs ht
      exact hc.turns s t (hbend s hs) (hbend t ht)
  have hmem : phi ∈ p.times := head_mem hp.on.head
  have hpl : p.last = 1 := hp.on.last
  have hhl : h.last = 1 := hh.on.last
  obtain ⟨m, m1, m2, m3, m4, m5, m6, m7⟩ := PL.minimum_full hpair (by rw [hp.lo, hh.lo, max_self]) (by rw [hp.hi, hh.hi]; exact (WithTop.coe_min _ _).symm)
    (WithTop.coe_lt_coe.mpr (by have := hp.start; linarith)) (Or.inl hmem)
    (fun t ht => WithTop.coe_le_coe.mpr (by have := hp.early t ht; linarith)) (fun t ht => WithTop.coe_le_coe.mpr (by have := hh.early t ht; linarith)) (fun z _ => Or.inl (by rw [hpl, hhl]))
  obtain ⟨n1, n2, n3⟩ := m7 (by rw [hpl, hhl])
  have hml : m.last = 1 := by rw [n1, hpl]
  have hme : ∀ t ∈ m.times, t ≤ H0 := fun t ht => hturn t (hbend t (n2 t ht))
  have hfn : ∀ t, phi ≤ t → m.fn t = min (p.fn t) (h.fn t) := by
    intro t ht
    rcases le_total t B with h1 | h1
    · exact m5 t ht (WithTop.coe_le_coe.mpr h1)
    · have h2 : H0 ≤ t := by linarith
      rw [PL.fn_right_aff m2 (y := H0) (fun s hs => le_trans (hme s hs) h2) hme, m5 H0 hp.start (WithTop.coe_le_coe.mpr hBlt.le), hml, hp.atEnd, hh.atEnd, hp.far h2, hh.far h2, min_add_add_left, min_add_add_left]
      ring
  have hout := outer_cut m1 m2 (by rw [hp.lo, hh.lo]) hp.hi hh.hi (by
      rcases hp.apart hc hh with h | h
      · exact Or.inl (by rw [h])
      · right
        rw [abs_sub_comm] at h
        rw [show H - d - (H - d') = d' - d by ring]; exact h) hp.wf hh.wf (fun t ht => by have := hp.early t ht; show t < B; linarith) (fun t ht => by have := hh.early t ht; show t < B; linarith)
    (by rw [hpl, hml]) (by rw [hhl, hml])
  refine ⟨_, hout, ⟨⟨(show m.free.WF from wf_free m2), m3, rfl, ?_, hml, ?_, ?_, fun t ht => hbend t (n2 t ht)⟩, ?_, hme, ?_, ?_, le_min hp.pos hh.pos, hp.start, ?_⟩, hfn⟩
  · have hpos := m2.pos
    have e : m.times.head? = some m.times[0] := by rw [List.head?_eq_getElem?, List.getElem?_eq_getElem hpos]
    have := head_phi m2 m3 e (by
      rcases n3 _ e with h | h
      · exact h _ hmem
      · exact h _ (head_mem hh.on.head))
    show m.times.head? = _
    rw [e, this]
  · show ∃ l ∈ lines, l.1 = m.first
    rcases m6 with e | e
    · rw [e]; exact hp.on.first
    · rw [e]; exact hh.on.first
  · intro t ht
    show ∃ l ∈ lines, m.fn t = lineAt l t
    rw [hfn t ht]
    rcases min_choice (p.fn t) (h.fn t) with e | e
    · rw [e]; exact hp.on.sup t ht
    · rw [e]; exact hh.on.sup t ht
  · show (((max (H - d) (H - d') : ℚ)) : WithTop ℚ) = _
    congr 1
    rcases le_total d d' with h | h
    · rw [min_eq_left h, max_eq_left (by linarith)]
    · rw [min_eq_right h, max_eq_right (by linarith)]
  · show m.fn H0 = _
    rw [hfn H0 hp.start, hp.atEnd, hh.atEnd, min_add_add_left]
  · rcases min_choice d d' with e | e
    · rw [e]; exact hp.before
    · rw [e]; exact hh.before
  · intro s t hs hst
    show m.fn s ≤ m.fn t
    rw [hfn s hs, hfn t (le_trans hs hst)]
    exact min_le_min (hp.mono s t hs hst) (hh.mono s t hs hst)

/-! ### Relaxation -/

theorem restrict_cut {T : PL} (hw : T.WF) {b : ℚ} (hlo : T.lo = (phi : WithBot ℚ)) (hhi : (b : WithTop ℚ) ≤ T.hi) (hb : ∀ t ∈ T.times, t ≤ b) (hpb : phi ≤ b) :
    T.restrict phi b = .ok { T with hi := (b : WithTop ℚ) } := by
  have hp := hw.pos
  have hvl := hw.len
  have hcnt : T.times.countP (· < phi) = 0 := by
    rw [List.countP_eq_zero]
    intro x hx
    have := (hw.dom x hx).1
    rw [hlo, WithBot.coe_le_coe] at this
    simpa using this
  have hcnt' : T.times.countP (· ≤ b) = T.times.length := by
    rw [List.countP_eq_length]
    intro t ht
    exact decide_eq_true (hb t ht)
  unfold PL.restrict
  rw [pyAssert_true ⟨by rw [hlo], hpb, hhi⟩, ok_bind, elemRank_eq hw.le hw.ne, ok_bind, hcnt]
  simp only [Nat.cast_zero, zero_sub, neg_add_cancel]
  rw [elemLrank_eq hw.le hw.ne, ok_bind, hcnt', PL.gradient_first hw, ok_bind, PL.gradient_last hw, ok_bind, if_pos (by omega)]
  simp only [Int.toNat_zero, List.drop_zero]
  have e : ((T.times.length : Int) - 1 + 1 - 0).toNat = T.times.length := by omega
  rw [e, List.take_of_length_le (le_refl _), List.take_of_length_le (by omega), ← hlo]
  exact PL.new_ok ⟨hw.len, hw.ne, hw.gap, fun t ht => ⟨(hw.dom t ht).1, WithTop.coe_le_coe.mpr (hb t ht)⟩⟩

variable (phi H0 H kinks) in
/-- An arrival time function up to the horizon with travel time `c` in the end. -/
structure ArrH (arr : ℚ → ℚ) (T : PL) (c : ℚ) : Prop where
  on : ArrFn phi kinks arr T.free
  hi : T.hi = (H : WithTop ℚ)
  early : ∀ t ∈ T.times, t ≤ H0
  far : ∀ t, H0 ≤ t → arr t = t + c

theorem ArrH.relax (hc : ClearCut phi lines kinks) (hturn : ∀ t, Turn phi lines kinks t → t ≤ H0) {arr : ℚ → ℚ} {T p : PL} {c d : ℚ} (h : ArrH phi H0 H kinks arr T c) (hp : OnH phi H0 H lines kinks p d)
    (hk : ∀ t ∈ p.times, t = phi ∨ Kink phi p.fn t) (hs : ∀ t, phi ≤ t → ∃ l ∈ lines, p.fn (arr t) = lineAt l t) (hb : H0 + (c + d) < H) :
    ∃ r, relaxation T p = .ok (some r) ∧ OnH phi H0 H lines kinks r (c + d) ∧ ∀ t, phi ≤ t → r.fn t = p.fn (arr t) := by
  have hstart := hp.start
  have hc0 : 0 ≤ c := by
    have := h.on.later H0 hstart
    rw [h.far H0 (le_refl _)] at this
    linarith
  have hd0 : H0 + d < H := hp.before
  have hH : H0 < H - d := by linarith
  have hd := hp.pos
  set b : ℚ := H - (c + d) with hbdef
  have hb0 : H0 < b := by linarith
  have hbH : b ≤ H := by linarith
  have hw : T.WF := wf_cut h.on.wf (fun t ht => by rw [h.hi]; exact WithTop.coe_le_coe.mpr (by have := h.early t ht; linarith))
  have hlo : T.lo = (phi : WithBot ℚ) := h.on.lo
  have hfnT : ∀ t, phi ≤ t → T.fn t = arr t := h.on.fn
  have hdom : ∀ t, T.inDom t ↔ phi ≤ t ∧ t ≤ H := by
    intro t
    unfold PL.inDom
    rw [hlo, h.hi, WithBot.coe_le_coe, WithTop.coe_le_coe]
  have hm : T.MonoOn := by
    intro x y hx hy hxy
    rw [hdom] at hx hy
    rw [hfnT x hx.1, hfnT y hy.1]
    exact h.on.order x y hx.1 hxy
  have hdom0 : T.inDom phi := (hdom phi).mpr ⟨le_refl _, by linarith⟩
  obtain ⟨x, x1, x2, _, x4⟩ := PL.minTAbove_spec hw hm (b := phi) ⟨phi, hdom0, by rw [hfnT _ (le_refl _)]; exact h.on.later _ (le_refl _)⟩
    (Or.inr (by rw [show T.first = 1 from h.on.first]; exact one_pos))
  have hx : x = phi := le_antisymm (x4 phi hdom0 (by rw [hfnT _ (le_refl _)]; exact h.on.later _ (le_refl _))) ((hdom x).mp x2).1
  subst hx
  obtain ⟨r0, q1, q2, q3, q4⟩ := PL.maxTBelow_spec hw hm (b := H - d) none ⟨x, hdom0, by
    rw [hfnT _ (le_refl _)]
    have := h.on.order x H0 (le_refl _) hstart
    rw [h.far H0 (le_refl _)] at this
    linarith⟩
  have hr0 : r0 = (b : WithTop ℚ) := by
    have hin : T.inDom b := (hdom b).mpr ⟨by linarith, hbH⟩
    have h1 : (b : WithTop ℚ) ≤ r0 := (q4 b hin).mp (by rw [hfnT b (by linarith), h.far b hb0.le]; linarith)
    cases r0 with
    | top => exact absurd (q3 rfl) (by rw [h.hi]; simp)
    | coe q =>
      have h2 := WithTop.coe_le_coe.mp h1
      obtain ⟨h3, h4⟩ := q2 q rfl
      rw [hfnT q ((hdom q).mp h3).1, h.far q (by linarith)] at h4
      congr 1
      linarith
  subst hr0
  set T' : PL := { T with hi := (b : WithTop ℚ) } with hT'
  have hr := restrict_cut (phi := x) hw (b := b) hlo (by rw [h.hi]; exact WithTop.coe_le_coe.mpr hbH) (fun t ht => by have := h.early t ht; linarith) (by linarith)
  have hw' : T'.WF := ⟨hw.len, hw.ne, hw.gap, fun t ht => ⟨(hw.dom t ht).1, WithTop.coe_le_coe.mpr (by have := h.early t ht; linarith)⟩⟩
  have hfnT' : ∀ t, x ≤ t → T'.fn t = arr t := hfnT
  have hdom' : ∀ t, T'.inDom t ↔ x ≤ t ∧ t ≤ b := by
    intro t
    unfold PL.inDom
    rw [show T'.lo = T.lo from rfl, hlo, WithBot.coe_le_coe]
    show x ≤ t ∧ (t : WithTop ℚ) ≤ (b : WithTop ℚ) ↔ _
    rw [WithTop.coe_le_coe]
  have hm' : T'.MonoOn := by
    intro s t hs' ht hst
    rw [hdom'] at hs' ht
    rw [hfnT' s hs'.1, hfnT' t ht.1]
    exact h.on.order s t hs'.1 hst
  have harrb : ∀ t, x ≤ t → t ≤ b → arr t ≤ H - d := by
    intro t ht htb
    have := h.on.order t b ht htb
    rw [h.far b hb0.le] at this
    linarith
  have hcand : ∀ t, PL.Cand p T' t → Turn x lines kinks t := by
    intro t ht
    refine h.on.cand hk hs t ?_
    rcases ht with h1 | h1 | ⟨h1, h2, h3⟩
    · exact Or.inl h1
    · exact Or.inr (Or.inl h1)
    · refine Or.inr (Or.inr ⟨h.on.inDom.mpr ((hdom' t).mp h1).1, h2, fun s hs' he => ?_⟩)
      have hs1 := h.on.inDom.mp hs'
      by_cases hsb : s ≤ b
      · exact h3 s ((hdom' s).mpr ⟨hs1, hsb⟩) he
      · exfalso
        rw [not_le] at hsb
        have e1 := hp.early _ h2
        have e2 : T.free.fn s = arr s := h.on.fn s hs1
        have e3 := h.on.later s hs1
        have e4 : T.free.fn s = T'.fn t := he
        rw [← e4, e2] at e1
        linarith
  obtain ⟨Lf, hLf⟩ := PL.slopes_exist T' hw'
  obtain ⟨Lg, hLg⟩ := PL.slopes_exist p hp.wf
  obtain ⟨r, r1, r2, r3, r4, r5, r6, r7, ⟨i, m, r8, r9⟩, r10⟩ := PL.compose_full (δ := 0) hp.wf hw' hm' (fun t ht => hp.inDom.mpr (by
      have := (hdom' t).mp ht
      rw [hfnT' t this.1]
      exact ⟨le_trans this.1 (h.on.later t this.1), harrb t this.1 this.2⟩))
    (by
      intro a ha
      have := WithBot.coe_inj.mp (hlo.symm.trans ha)
      subst this
      rw [hfnT' _ (le_refl _)]
      exact h.on.later _ (le_refl _))
    (le_refl _) (by
      intro s t hs' ht hst hle
      rw [add_zero]
      by_contra hcon
      have := hc.turns s t (hcand s hs') (hcand t ht) (not_le.mp hcon)
      linarith) hLf hLg
  have hre : ∀ t ∈ r.times, t ≤ H0 := fun t ht => hturn t (hcand t (r7 t ht))
  have hfn0 : ∀ t, x ≤ t → t ≤ b → r.fn t = p.fn (arr t) := by
    intro t ht htb
    have := r6 t ((hdom' t).mpr ⟨ht, htb⟩)
    rw [mul_zero] at this
    have := abs_nonpos_iff.mp this
    unfold PL.comp at this
    rw [hfnT' t ht] at this
    linarith
  have hfar : ∀ t, H0 ≤ t → p.fn (arr t) = t + (c + d) := by
    intro t ht
    rw [h.far t ht, hp.far (by linarith)]
    ring
  have hrl : r.last = 1 := by
    have e := PL.fn_right_aff r2 (x := b) (y := H0) (fun t ht => by have := hre t ht; linarith) hre
    rw [hfn0 b (by linarith) (le_refl _), hfn0 H0 hstart hb0.le, hfar b hb0.le, hfar H0 (le_refl _)] at e
    have e2 : (r.last - 1) * (b - H0) = 0 := by linarith
    rcases mul_eq_zero.mp e2 with h | h
    · linarith
    · linarith
  have hfn : ∀ t, x ≤ t → r.fn t = p.fn (arr t) := by
    intro t ht
    rcases le_total t b with h1 | h1
    · exact hfn0 t ht h1
    · have h2 : H0 ≤ t := by linarith
      rw [PL.fn_right_aff r2 (y := H0) (fun s hs => le_trans (hre s hs) h2) hre, hfn0 H0 hstart hb0.le, hfar H0 (le_refl _), hfar t h2, hrl]
      ring
  have hrlo : r.lo = (x : WithBot ℚ) := by rw [r3]; exact hlo
  refine ⟨r, ?_, ⟨⟨wf_free r2, hrlo, rfl, ?_, hrl, ?_, ?_, fun t ht => hcand t (r7 t ht)⟩, by rw [r4], hre, ?_, hb, by linarith, hstart, ?_⟩, hfn⟩
  · unfold relaxation
    rw [hp.lo]
    show (do let x ← T.minTAbove x; _) = _
    rw [x1, ok_bind, hp.hi, show maxTBelow T ((H - d : ℚ) : WithTop ℚ) = .ok (some (b : WithTop ℚ)) from q1, ok_bind]
    show (do let r ← T.restrict x b; let h ← p.compose r; pure (some h)) = _
    rw [hr, ok_bind, r1, ok_bind]
    rfl
  · have hpos := r2.pos
    have e : r.times.head? = some r.times[0] := by rw [List.head?_eq_getElem?, List.getElem?_eq_getElem hpos]
    have := head_phi r2 hrlo e (r10 _ e _ (head_mem h.on.head))
    show r.times.head? = _
    rw [e, this]
  · show ∃ l ∈ lines, l.1 = r.first
    rw [r9, show T'.first = 1 from h.on.first, mul_one]
    exact hp.on.slope r8
  · intro t ht
    show ∃ l ∈ lines, r.fn t = lineAt l t
    rw [hfn t ht]
    exact hs t ht
  · rw [hfn H0 hstart, hfar H0 (le_refl _)]
  · intro s t hs' hst
    rw [hfn s hs', hfn t (le_trans hs' hst)]
    exact hp.mono _ _ (le_trans hs' (h.on.later s hs')) (h.on.order s t hs' hst)

/-! ### Arrival times -/

theorem cutLeft_mem {ts r : List ℚ} {lo : WithBot ℚ} (h : PL.cutLeft ts lo = .ok r) : ∀ x ∈ r, x ∈ ts ∨ lo = (x : WithBot ℚ) := by
  cases lo with
  | bot =>
    have h : (.ok ts : Py (List ℚ)) = .ok r := h
    injection h with h
    subst h
    exact fun x hx => Or.inl hx
  | coe d =>
    have h : (do
      let t0 ← rd ts 0
      if t0 < d then do
        let rnk ← elemRank ts d
        let t ← rdI ts (rnk + 1)
        if t = d then pure (ts.drop (rnk + 1).toNat)
        else pure (d :: ts.drop (rnk + 1).toNat)
      else pure ts) = Except.ok r := h
    obtain ⟨t0, _, h⟩ := bind_eq_ok.mp h
    split_ifs at h
    · obtain ⟨rnk, _, h⟩ := bind_eq_ok.mp h
      obtain ⟨t, _, h⟩ := bind_eq_ok.mp h
      split_ifs at h
      · injection h with h
        subst h
        exact fun x hx => Or.inl (List.mem_of_mem_drop hx)
      · injection h with h
        subst h
        intro x hx
        rcases List.mem_cons.mp hx with rfl | hx
        · exact Or.inr rfl
        · exact Or.inl (List.mem_of_mem_drop hx)
    · injection h with h
      subst h
      exact fun x hx => Or.inl hx

theorem plus_cut {f g s : PL} (hf : f.WF) (hg : g.WF) (hlo : max f.lo g.lo = (phi : WithBot ℚ)) (hfh : f.hi = (H : WithTop ℚ)) (hgh : (H : WithTop ℚ) ≤ g.hi) (hp : phi < H) (hft : ∀ t ∈ f.times, t ≤ H)
    (hgt : ∀ t ∈ g.times, t ≤ H) (h : f.free.plus g.free = .ok s) : f.plus g = .ok { s with hi := (H : WithTop ℚ) } := by
  have hmin : min f.hi g.hi = (H : WithTop ℚ) := by rw [hfh]; exact min_eq_left hgh
  unfold PL.plus at h ⊢
  simp only at h ⊢
  obtain ⟨_, _, h⟩ := bind_eq_ok.mp h
  obtain ⟨ts, h1, h⟩ := bind_eq_ok.mp h
  obtain ⟨ts', h2, h⟩ := bind_eq_ok.mp h
  have h2 : (.ok ts : Py (List ℚ)) = .ok ts' := h2
  injection h2 with h2
  subst h2
  obtain ⟨vs, h3, h⟩ := bind_eq_ok.mp h
  have hmem : ∀ t ∈ ts, t ≤ H := by
    intro t ht
    rcases cutLeft_mem h1 t ht with h | h
    · rcases List.mem_append.mp ((mergeSorted_isMerge _ _ hf.le hg.le).sub _ h) with h | h
      · exact hft t h
      · exact hgt t h
    · have h : max f.lo g.lo = (t : WithBot ℚ) := h
      rw [hlo] at h
      have := WithBot.coe_inj.mp h
      linarith
  obtain ⟨e, hw⟩ := PL.new_eq_ok.mp h
  have hst : s.times = ts := by rw [e]
  have hslo : s.lo = max f.lo g.lo := by rw [e]; rfl
  have hdom : ∀ t ∈ ts, phi ≤ t := by
    intro t ht
    have := (hw.dom t (by rw [hst]; exact ht)).1
    rw [hslo, hlo, WithBot.coe_le_coe] at this
    exact this
  have hne : ts ≠ [] := by rw [← hst]; exact hw.ne
  have hflo : f.lo ≤ (phi : WithBot ℚ) := by rw [← hlo]; exact le_max_left _ _
  have hglo : g.lo ≤ (phi : WithBot ℚ) := by rw [← hlo]; exact le_max_right _ _
  have hd : ∀ t ∈ ts, f.inDom t ∧ g.inDom t := by
    intro t ht
    have h1 : (phi : WithBot ℚ) ≤ (t : WithBot ℚ) := WithBot.coe_le_coe.mpr (hdom t ht)
    have h2 : (t : WithTop ℚ) ≤ (H : WithTop ℚ) := WithTop.coe_le_coe.mpr (hmem t ht)
    exact ⟨⟨le_trans hflo h1, by rw [hfh]; exact h2⟩, ⟨le_trans hglo h1, le_trans h2 hgh⟩⟩
  rw [PL.mapM_add (wf_free hf) (wf_free hg) ts (fun t ht => ⟨⟨(hd t ht).1.1, le_top⟩, ⟨(hd t ht).2.1, le_top⟩⟩)] at h3
  injection h3 with h3
  have h1 : PL.cutLeft (mergeSorted f.times g.times) (max f.lo g.lo) = .ok ts := h1
  have h4 : PL.cutRight ts (H : WithTop ℚ) = .ok ts := by
    show (do
      let tl ← rdLast ts
      if tl > H then do
        let rnk ← elemRank ts H
        let t ← rdI ts (rnk + 1)
        if t = H then pure (ts.take (rnk + 2).toNat)
        else pure (ts.take (rnk + 1).toNat ++ [H])
      else pure ts) = _
    rw [rdLast_eq ts hne, ok_bind, if_neg (not_lt.mpr (hmem _ (List.getLast_mem hne)))]
    rfl
  rw [hmin, pyAssert_true (show PL.ltEnds (max f.lo g.lo) (H : WithTop ℚ) = true by rw [hlo]; exact decide_eq_true hp), ok_bind, h1, ok_bind, h4, ok_bind, PL.mapM_add hf hg ts hd, ok_bind]
  have hvs : ts.map (fun x => f.fn x + g.fn x) = vs := h3
  rw [hvs, e]
  refine PL.new_ok ?_
  rw [e] at hw
  exact ⟨hw.len, hw.ne, hw.gap, fun t ht => ⟨(hw.dom t ht).1, WithTop.coe_le_coe.mpr (hmem t ht)⟩⟩

theorem new_cut {ts vs : List ℚ} {a b : ℚ} {lo : WithBot ℚ} {p : PL} (h : PL.new ts vs a b lo ⊤ = .ok p) (ht : ∀ t ∈ ts, t ≤ H) : PL.new ts vs a b lo (H : WithTop ℚ) = .ok { p with hi := (H : WithTop ℚ) } := by
  obtain ⟨rfl, hw⟩ := PL.new_eq_ok.mp h
  exact PL.new_ok ⟨hw.len, hw.ne, hw.gap, fun t h => ⟨(hw.dom t h).1, WithTop.coe_le_coe.mpr (ht t h)⟩⟩

theorem fifo_cut {s p : PL} (hs : s.hi = ⊤) (h : fifoArrival s = .ok p) (ht : ∀ t ∈ s.times, t ≤ H) :
    fifoArrival { s with hi := (H : WithTop ℚ) } = .ok { p with hi := (H : WithTop ℚ) } ∧ p.times = s.times ∧ p.hi = ⊤ := by
  unfold fifoArrival at h ⊢
  obtain ⟨vs, h1, h⟩ := bind_eq_ok.mp h
  obtain ⟨q, h2, h⟩ := bind_eq_ok.mp h
  rw [hs] at h2
  have h3 := new_cut h2 ht
  simp only
  rw [h1, ok_bind, h3, ok_bind]
  obtain ⟨rfl, _⟩ := PL.new_eq_ok.mp h2
  injection h with h
  subst h
  simp only
  split_ifs <;> exact ⟨rfl, rfl, rfl⟩

theorem simplifyLoop_cut (s : PL) (hi : WithTop ℚ) : ∀ (n i : Nat) (ts vs : List ℚ), PL.simplifyLoop { s with hi := hi } n i ts vs = PL.simplifyLoop s n i ts vs := by
  intro n
  induction n with
  | zero => intro i ts vs; rfl
  | succ n ih =>
    intro i ts vs
    rw [PL.simplifyLoop, PL.simplifyLoop]
    simp only [ih]
    rfl

theorem simplify_cut {s p : PL} (hs : s.hi = ⊤) (h : s.simplify = .ok p) (ht : ∀ t ∈ p.times, t ≤ H) : PL.simplify { s with hi := (H : WithTop ℚ) } = .ok { p with hi := (H : WithTop ℚ) } := by
  unfold PL.simplify at h ⊢
  obtain ⟨t0, h1, h⟩ := bind_eq_ok.mp h
  obtain ⟨v0, h2, h⟩ := bind_eq_ok.mp h
  obtain ⟨⟨ts, vs⟩, h3, h⟩ := bind_eq_ok.mp h
  simp only at h ⊢
  rw [h1, ok_bind, h2, ok_bind, simplifyLoop_cut, h3, ok_bind]
  rw [hs] at h
  exact new_cut h (by obtain ⟨rfl, _⟩ := PL.new_eq_ok.mp h; exact ht)

theorem arrivalTime_cut {c T : PL} (hc : CostOk phi c.free) (hw : c.WF) (hhi : (H : WithTop ℚ) ≤ c.hi) (hp : phi < H) (hct : ∀ t ∈ c.times, t ≤ H)
    (h : arrivalTime ⟨[phi], [phi], 1, 1, (phi : WithBot ℚ), ⊤⟩ c.free = .ok T) (hT : ∀ t ∈ T.times, t ≤ H) :
    arrivalTime ⟨[phi], [phi], 1, 1, (phi : WithBot ℚ), (H : WithTop ℚ)⟩ c = .ok { T with hi := (H : WithTop ℚ) } := by
  unfold arrivalTime at h ⊢
  obtain ⟨s, h1, h⟩ := bind_eq_ok.mp h
  obtain ⟨f, h2, h⟩ := bind_eq_ok.mp h
  have hiw := ident_wf phi (H : WithTop ℚ) (WithTop.coe_le_coe.mpr hp.le)
  have h1' := plus_cut (phi := phi) (f := ⟨[phi], [phi], 1, 1, (phi : WithBot ℚ), (H : WithTop ℚ)⟩) hiw hw (max_eq_left hc.lo) rfl hhi hp (by simp [hp.le]) hct h1
  have hs : ∀ t ∈ s.times, t ≤ H := by
    obtain ⟨_, hw1, _, _⟩ : ∃ q, PL.WF q ∧ q.times = s.times ∧ q.hi = (H : WithTop ℚ) := by
      unfold PL.plus at h1'
      simp only at h1'
      obtain ⟨_, _, h1'⟩ := bind_eq_ok.mp h1'
      obtain ⟨_, _, h1'⟩ := bind_eq_ok.mp h1'
      obtain ⟨_, _, h1'⟩ := bind_eq_ok.mp h1'
      obtain ⟨_, _, h1'⟩ := bind_eq_ok.mp h1'
      exact ⟨_, (PL.new_eq_ok.mp h1').2, rfl, rfl⟩
    rename_i q e1 e2
    intro t ht
    have := (hw1.dom t (by rw [e1]; exact ht)).2
    rw [e2] at this
    exact WithTop.coe_le_coe.mp this
  have hsh : s.hi = ⊤ := by
    unfold PL.plus at h1
    simp only at h1
    obtain ⟨_, _, h1⟩ := bind_eq_ok.mp h1
    obtain ⟨_, _, h1⟩ := bind_eq_ok.mp h1
    obtain ⟨_, _, h1⟩ := bind_eq_ok.mp h1
    obtain ⟨_, _, h1⟩ := bind_eq_ok.mp h1
    rw [(PL.new_eq_ok.mp h1).1]
    exact min_self _
  obtain ⟨f1, f2, f3⟩ := fifo_cut hsh h2 hs
  rw [h1', ok_bind, f1, ok_bind, simplify_cut f3 h hT]

theorem arrivalTimes_cut (h0 : phi ≤ H0) (hH : H0 < H) (hkinks : ∀ t ∈ kinks, phi ≤ t → t ≤ H0) : ∀ (cs : List PL),
    (∀ c ∈ cs, CostOk phi c.free ∧ c.WF ∧ (H : WithTop ℚ) ≤ c.hi ∧ ∀ t ∈ c.times, t ≤ H0 ∧ t ∈ kinks) →
    ∃ Ts, arrivalTimes ⟨[phi], [phi], 1, 1, (phi : WithBot ℚ), (H : WithTop ℚ)⟩ cs = .ok Ts ∧ Ts.length = cs.length ∧
      ∀ i (h : i < cs.length) (h' : i < Ts.length), ArrFn phi kinks (fun t => t + cs[i].fn t) Ts[i].free ∧ Ts[i].hi = (H : WithTop ℚ) ∧ ∀ t ∈ Ts[i].times, t ≤ H0 := by
  intro cs
  induction cs with
  | nil => intro _; exact ⟨[], rfl, rfl, by simp⟩
  | cons c cs ih =>
    intro h
    obtain ⟨c1, c2, c3, c4⟩ := h c (by simp)
    obtain ⟨T, t1, t2⟩ := arrivalTime_ok (kinks := kinks) c1 (fun t ht => (c4 t ht).2)
    have hT : ∀ t ∈ T.times, t ≤ H0 := by
      intro t ht
      rcases t2.times t ht with h | h
      · linarith
      · exact hkinks t h (t2.inDom.mp (t2.wf.dom t ht))
    obtain ⟨Ts, u1, u2, u3⟩ := ih (fun c hc => h c (by simp [hc]))
    refine ⟨{ T with hi := (H : WithTop ℚ) } :: Ts, ?_, by simp [u2], ?_⟩
    · rw [arrivalTimes, arrivalTime_cut c1 c2 c3 (by linarith) (fun t ht => by have := (c4 t ht).1; linarith) t1 (fun t ht => by have := hT t ht; linarith), ok_bind, u1, ok_bind]
      rfl
    · intro i h1 h2
      cases i with
      | zero =>
        refine ⟨?_, rfl, hT⟩
        have e : PL.free { T with hi := (H : WithTop ℚ) } = T := by
          unfold PL.free
          simp only
          rw [← t2.hi]
        show ArrFn phi kinks _ (PL.free { T with hi := (H : WithTop ℚ) })
        rw [e]
        exact t2
      | succ i => exact u3 i (by simpa using h1) (by simpa using h2)

/-! ### The search -/

section
variable {g : Graph} {c : Nat → ℚ → ℚ} {nodes : List Nat} {sink : Nat}

/-- Where costs do not change any more, trips can be postponed. -/
theorem Trip.shift (hconst : ∀ e ∈ g.edges, ∀ t, H0 ≤ t → c e t = c e H0) (hc : ∀ e ∈ g.edges, 0 ≤ c e H0) {l : List Nat} {v : Nat} {t y : ℚ} (h : Trip g (fun e t => t + c e t) nodes sink l v t y) (ht : H0 ≤ t) :
    ∀ s, H0 ≤ t + s → Trip g (fun e t => t + c e t) nodes sink l v (t + s) (y + s) := by
  induction h with
  | here t => intro s _; exact .here _
  | @drive l t y e he hv h ih =>
    intro s hs
    have h1 := hconst e he t ht
    have h2 := hconst e he (t + s) hs
    have h3 := hc e he
    have := ih (by rw [h1]; linarith) s (by rw [h1]; linarith)
    refine .drive e he hv ?_
    rw [h2, show t + s + c e H0 = t + c e t + s by rw [h1]; ring]
    exact this

/-- A route can be taken at any time. -/
theorem Trip.anytime {arr : Nat → ℚ → ℚ} {l : List Nat} {v : Nat} {t y : ℚ} (h : Trip g arr nodes sink l v t y) : ∀ s, ∃ z, Trip g arr nodes sink l v s z := by
  induction h with
  | here t => intro s; exact ⟨s, .here s⟩
  | drive e he hv _ ih =>
    intro s
    obtain ⟨z, h⟩ := ih (arr e s)
    exact ⟨z, .drive e he hv h⟩

/-- The search up to the horizon. -/
theorem bellmanFord_horizon {costs : List PL} {fuel : Nat} (hg : ∀ w ∈ sink :: nodes, g.incoming w = g.edges.filter (fun r => g.nodeTo r = w)) (h0 : phi ≤ H0)
    (hcost : ∀ f ∈ costs, CostOk phi f.free ∧ f.WF ∧ (H : WithTop ℚ) ≤ f.hi ∧ ∀ t ∈ f.times, t ≤ H0 ∧ t ∈ kinks)
    (hid : ∀ e ∈ g.edges, ∃ h : (g.edge e).id < costs.length, ∀ t, phi ≤ t → (costs[(g.edge e).id]'h).fn t = c e t)
    (hconst : ∀ e ∈ g.edges, ∀ t, H0 ≤ t → c e t = c e H0)
    (hfuel : (sink :: nodes).toFinset.card + 1 ≤ fuel)
    (hlines : OnLines g (fun e t => t + c e t) nodes sink phi (sink :: nodes).toFinset.card lines) (hclear : ClearCut phi lines kinks) (hturn : ∀ t, Turn phi lines kinks t → t ≤ H0)
    (hend : ∀ k v y, k ≤ (sink :: nodes).toFinset.card → Ride g (fun e t => t + c e t) nodes sink k v H0 y → y < H) :
    ∃ labels, bellmanFord fuel g sink costs nodes phi (H : WithTop ℚ) = .ok labels ∧
      ∀ v, (labels v = none ∧ ∀ t y, phi ≤ t → ¬ GetsTo g (fun e t => t + c e t) nodes sink v t y) ∨
        ∃ p d, labels v = some p ∧ OnH phi H0 H lines kinks p d ∧ ∀ t, phi ≤ t →
          GetsTo g (fun e t => t + c e t) nodes sink v t (p.fn t) ∧ ∀ y, GetsTo g (fun e t => t + c e t) nodes sink v t y → p.fn t ≤ y := by
  have hH : H0 < H := hend 0 sink H0 (by omega) (.here H0)
  obtain ⟨Ts, h1, h2, h3⟩ := arrivalTimes_cut h0 hH (fun t ht hp => hturn t ⟨hp, Or.inr (Or.inl ht)⟩) costs hcost
  obtain ⟨q, hq, _⟩ := Heap.rep_single sink (0 : ℚ)
  have hHp : (phi : WithTop ℚ) ≤ (H : WithTop ℚ) := WithTop.coe_le_coe.mpr (by linarith)
  have hiw := ident_wf phi (H : WithTop ℚ) hHp
  set N := (sink :: nodes).toFinset.card with hN
  have hNp : 0 < N := Finset.card_pos.mpr ⟨sink, by simp⟩
  have hT : ∀ e ∈ g.edges, ∃ T, rd Ts (g.edge e).id = .ok T ∧ ArrH phi H0 H kinks (fun t => t + c e t) T (c e H0) := by
    intro e he
    obtain ⟨h, hc⟩ := hid e he
    have h' : (g.edge e).id < Ts.length := by omega
    obtain ⟨a, a1, a2⟩ := h3 _ h h'
    refine ⟨_, rd_lt _ _ h', ⟨⟨a.wf, a.lo, a.hi, a.head, a.first, a.last, ?_, a.times, ?_, ?_⟩, a1, a2, ?_⟩⟩
    · intro t ht; rw [a.fn t ht, hc t ht]
    · intro t ht; have := a.later t ht; rw [hc t ht] at this; exact this
    · intro s t hs hst
      have := a.order s t hs hst
      rw [hc s hs, hc t (le_trans hs hst)] at this
      exact this
    · intro t ht
      show t + c e t = _
      rw [hconst e he t ht]
  have hfifo : Fifo g phi (fun e t => t + c e t) := by
    refine ⟨fun e he t ht => ?_, fun e he s t hs hst => ?_⟩
    · obtain ⟨T, _, a⟩ := hT e he; exact a.on.later t ht
    · obtain ⟨T, _, a⟩ := hT e he; exact a.on.order s t hs hst
  have hpos : ∀ e ∈ g.edges, 0 ≤ c e H0 := by
    intro e he
    have : H0 ≤ H0 + c e H0 := hfifo.later e he H0 h0
    linarith
  let cap : (ℚ → ℚ) → ℚ → WithTop ℚ := fun f t => if f t ≤ H then (f t : WithTop ℚ) else ⊤
  have hcap : ∀ f t, f t ≤ H → cap f t = (f t : WithTop ℚ) := fun f t h => if_pos h
  have hcap' : ∀ f t (y : ℚ), cap f t = (y : WithTop ℚ) → f t = y ∧ f t ≤ H := by
    intro f t y h
    simp only [cap] at h
    split_ifs at h with h1
    · exact ⟨WithTop.coe_inj.mp h, h1⟩
    · exact absurd h (by simp)
  let R : PL → (ℚ → WithTop ℚ) → Prop := fun p φ => ∃ d, OnH phi H0 H lines kinks p d ∧ ∀ t, phi ≤ t → φ t = cap p.fn t
  let K : PL → (ℚ → WithTop ℚ) → Prop := fun p φ => R p φ ∧ ∀ t ∈ p.times, t = phi ∨ Kink phi p.fn t
  -- the values of labels are arrival times beyond the horizon, too
  have hall : ∀ {p : PL} {d : ℚ} {φ : ℚ → WithTop ℚ} {n v : Nat}, OnH phi H0 H lines kinks p d → (∀ t, phi ≤ t → φ t = cap p.fn t) → Short g (fun e t => t + c e t) nodes sink phi (H : WithTop ℚ) n v φ →
      ∀ t, phi ≤ t → ∃ l, l.length ≤ n ∧ Trip g (fun e t => t + c e t) nodes sink l v t (p.fn t) := by
    intro p d φ n v hp hφ hsh t ht
    by_cases hle : p.fn t ≤ H
    · exact (hsh t _ ht (by rw [hφ t ht, hcap _ _ hle])).2
    · have h0t : H0 ≤ t := by
        by_contra hcon
        have := hp.mono t H0 ht (not_le.mp hcon).le
        rw [hp.atEnd] at this
        have := hp.before
        exact hle (by linarith)
      have hle0 : p.fn H0 ≤ H := by rw [hp.atEnd]; exact hp.before.le
      obtain ⟨_, l, l1, l2⟩ := hsh H0 _ h0 (by rw [hφ H0 h0, hcap _ _ hle0])
      refine ⟨l, l1, ?_⟩
      have := l2.shift hconst hpos (le_refl _) (t - H0) (by linarith)
      rw [hp.atEnd, show H0 + (t - H0) = t by ring, show H0 + d + (t - H0) = t + d by ring] at this
      rw [hp.far h0t]
      exact this
  have ops : Ops g Ts nodes sink phi (H : WithTop ℚ) (fun e t => t + c e t) N K R := by
    refine ⟨?_, ?_, ?_, ?_, ?_⟩
    · rintro p φ e ⟨⟨d, hp, hφ⟩, hk⟩ he hv hsh
      obtain ⟨T, t1, t2⟩ := hT e he
      have htrip : ∀ t, phi ≤ t → ∃ l, l.length ≤ N ∧ Trip g (fun e t => t + c e t) nodes sink l (g.nodeFrom e) t (p.fn (t + c e t)) := by
        intro t ht
        obtain ⟨l, l1, l2⟩ := hall hp hφ hsh (t + c e t) (le_trans ht (t2.on.later t ht))
        exact ⟨_ :: l, by simp only [List.length_cons]; omega, .drive e he hv l2⟩
      obtain ⟨r, r1, r2, r3⟩ := t2.relax hclear hturn hp hk (by
          intro t ht
          obtain ⟨l, l1, l2⟩ := htrip t ht
          exact hlines l.length _ t _ l1 ht l2.ride)
        (by
          obtain ⟨l, l1, l2⟩ := htrip H0 h0
          have := hend _ _ _ l1 l2.ride
          rw [hp.far (by have := hpos e he; linarith)] at this
          linarith)
      refine ⟨T, r, t1, r1, _, r2, fun t ht => ?_⟩
      show φ (t + c e t) = _
      rw [hφ _ (le_trans ht (t2.on.later t ht))]
      show (if p.fn (t + c e t) ≤ H then _ else _) = if r.fn t ≤ H then _ else _
      rw [r3 t ht]
    · rintro v h φ ⟨d, hh, hφ⟩ _
      obtain ⟨p, p1, p2, p3, p4⟩ := hh.simplify hclear
      refine ⟨p, p1, ⟨d, p2, fun t ht => ?_⟩, p3⟩
      rw [hφ t ht, funext p4]
    · rintro v p φ h ψ ⟨⟨d, hp, hφ⟩, _⟩ ⟨d', hh, hψ⟩ _ _
      obtain ⟨b, b1, b2⟩ := hp.cmp hclear hh
      refine ⟨b, b1, b2.trans ?_⟩
      constructor
      · intro h t ht
        rw [hφ t ht, hψ t ht]
        have := h t ht
        simp only [cap]
        split_ifs with c1 c2
        · exact WithTop.coe_le_coe.mpr this
        · exact le_top
        · exact absurd (le_trans this (by assumption)) c1
        · exact le_refl _
      · intro h t ht
        have hle0 : d ≤ d' := by
          have := h H0 h0
          rw [hφ _ h0, hψ _ h0, hcap _ _ (by rw [hp.atEnd]; exact hp.before.le), hcap _ _ (by rw [hh.atEnd]; exact hh.before.le), hp.atEnd, hh.atEnd, WithTop.coe_le_coe] at this
          linarith
        rcases le_total H0 t with ht0 | ht0
        · rw [hp.far ht0, hh.far ht0]; linarith
        · have := h t ht
          rw [hφ t ht, hψ t ht, hcap p.fn t (by have := hp.before; rw [hp.below ht]; linarith), hcap _ t (by have := hh.before; rw [hh.below ht]; linarith)] at this
          exact WithTop.coe_le_coe.mp this
    · rintro v p φ h ψ ⟨⟨d, hp, hφ⟩, _⟩ ⟨d', hh, hψ⟩ _ _ _
      obtain ⟨m, m1, m2, m3⟩ := hp.least hclear hturn hh
      refine ⟨m, m1, _, m2, fun t ht => ?_⟩
      show min (φ t) (ψ t) = _
      rw [hφ t ht, hψ t ht]
      show min (if p.fn t ≤ H then (p.fn t : WithTop ℚ) else ⊤) (if h.fn t ≤ H then (h.fn t : WithTop ℚ) else ⊤) = if m.fn t ≤ H then (m.fn t : WithTop ℚ) else ⊤
      rw [m3 t ht]
      by_cases c1 : p.fn t ≤ H <;> by_cases c2 : h.fn t ≤ H
      · rw [if_pos c1, if_pos c2, if_pos (le_trans (min_le_left _ _) c1)]
        exact (WithTop.coe_min _ _).symm
      · rw [if_pos c1, if_neg c2, if_pos (le_trans (min_le_left _ _) c1), min_eq_left le_top, min_eq_left (by linarith)]
      · rw [if_neg c1, if_pos c2, if_pos (le_trans (min_le_right _ _) c2), min_eq_right le_top, min_eq_right (by linarith)]
      · rw [if_neg c1, if_neg c2, if_neg (by rw [min_le_iff]; tauto), min_self]
    · rintro h φ ⟨d, hh, hφ⟩
      rw [hφ phi (le_refl _), hcap _ _ ((hh.below (le_refl _)).mpr (by have := hh.before; linarith))]
      exact WithTop.coe_ne_top
  have hK : K ⟨[phi], [phi], 1, 1, (phi : WithBot ℚ), (H : WithTop ℚ)⟩ (fun (t : ℚ) => if (t : WithTop ℚ) ≤ (H : WithTop ℚ) then (t : WithTop ℚ) else ⊤) := by
    have hfn : ∀ t, PL.fn ⟨[phi], [phi], 1, 1, (phi : WithBot ℚ), (H : WithTop ℚ)⟩ t = t := ident_fn phi (H : WithTop ℚ) hHp
    have hsup : ∀ t, phi ≤ t → ∃ l ∈ lines, PL.fn ⟨[phi], [phi], 1, 1, (phi : WithBot ℚ), (⊤ : WithTop ℚ)⟩ t = lineAt l t := by
      intro t ht
      rw [ident_fn phi ⊤ le_top]
      exact hlines 0 sink t t (by omega) ht (.here t)
    refine ⟨⟨0, ⟨⟨wf_free hiw, rfl, rfl, rfl, rfl, ?_, hsup, ?_⟩, by rw [sub_zero], ?_, by rw [hfn, add_zero], by linarith, le_refl _, h0, ?_⟩, ?_⟩, ?_⟩
    · obtain ⟨l, l1, l2, _⟩ := on_line (m := 1) (a := phi) (b := phi + 1) (by linarith) (fun t ht _ => hsup t ht) (by
        intro x _ _
        rw [ident_fn phi ⊤ le_top, ident_fn phi ⊤ le_top]; ring)
      exact ⟨l, l1, l2⟩
    · intro t ht
      have : t = phi := by simpa [PL.free] using ht
      exact ⟨this.ge, Or.inl this⟩
    · intro t ht
      have : t = phi := by simpa using ht
      linarith
    · intro s t _ hst
      rw [hfn, hfn]; exact hst
    · intro t ht
      show (if (t : WithTop ℚ) ≤ (H : WithTop ℚ) then (t : WithTop ℚ) else ⊤) = if PL.fn ⟨[phi], [phi], 1, 1, (phi : WithBot ℚ), (H : WithTop ℚ)⟩ t ≤ H then (_ : WithTop ℚ) else ⊤
      rw [hfn]
      simp only [WithTop.coe_le_coe]
    · intro t ht
      exact Or.inl (by simpa using ht)
  obtain ⟨labels, l1, l2⟩ := search_ok ops hfifo rfl hg hK hq hfuel
  refine ⟨labels, ?_, fun v => ?_⟩
  · unfold bellmanFord identity
    rw [PL.new_ok hiw, ok_bind, h1, ok_bind, hq, ok_bind, l1]
  · rcases l2 v with ⟨a1, a2⟩ | ⟨p, φ, a1, ⟨⟨d, a2, a3⟩, _⟩, a4⟩
    · refine Or.inl ⟨a1, fun t y ht hy => ?_⟩
      obtain ⟨l, hl⟩ := gets_trip hy
      obtain ⟨z, hz⟩ := hl.anytime H0
      obtain ⟨l', z', _, b2, b3⟩ := hz.short hfifo h0
      exact a2 H0 z' h0 (WithTop.coe_le_coe.mpr (hend _ _ _ (by omega) b2.ride).le) b2.gets
    · refine Or.inr ⟨p, d, a1, a2, fun t ht => ?_⟩
      have hpt : ∀ t, phi ≤ t → p.fn t ≤ H → GetsTo g (fun e t => t + c e t) nodes sink v t (p.fn t) ∧ ∀ y, GetsTo g (fun e t => t + c e t) nodes sink v t y → p.fn t ≤ y := by
        intro t ht hle
        obtain ⟨b1, b2⟩ := a4 t ht
        have e1 := a3 t ht
        rw [hcap _ _ hle] at e1
        refine ⟨(b1 _ e1).2, fun y hy => ?_⟩
        rcases le_total y H with hyH | hyH
        · have := b2 y hy (WithTop.coe_le_coe.mpr hyH)
          rw [e1] at this
          exact WithTop.coe_le_coe.mp this
        · exact le_trans hle hyH
      by_cases hle : p.fn t ≤ H
      · exact hpt t ht hle
      · have h0t : H0 ≤ t := by
          by_contra hcon
          have := a2.mono t H0 ht (not_le.mp hcon).le
          rw [a2.atEnd] at this
          have := a2.before
          exact hle (by linarith)
        obtain ⟨b1, b2⟩ := hpt H0 h0 (by rw [a2.atEnd]; exact a2.before.le)
        rw [a2.atEnd] at b1 b2
        rw [a2.far h0t]
        constructor
        · obtain ⟨l, hl⟩ := gets_trip b1
          have := hl.shift hconst hpos (le_refl _) (t - H0) (by linarith)
          rw [show H0 + (t - H0) = t by ring, show H0 + d + (t - H0) = t + d by ring] at this
          exact this.gets
        · intro y hy
          obtain ⟨l, hl⟩ := gets_trip hy
          have := hl.shift hconst hpos h0t (H0 - t) (by linarith)
          rw [show t + (H0 - t) = H0 by ring] at this
          have := b2 _ this.gets
          linarith

end

end BF
end Verif
