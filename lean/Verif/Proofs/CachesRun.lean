import Verif.Proofs.CachesStep

/-! Every call, and every series of calls. -/

namespace Verif.Caching
open Verif Verif.Spec

variable {n : Nat} {comp : PL → PL → Prog PL} {fam : Nat → Nat} {ext : Nat → Bool} {m : Mem} {vs : List Held}

/-- A call returned what plain values give, and the memory stands for the functions held. -/
def StepOk (comp : PL → PL → Prog PL) (a : Py (Option ℚ) × Mem) (b : Py (Option ℚ) × List Held) : Prop :=
  a.1 = b.1 ∧ ∃ fam ext, Good comp fam ext a.2 b.2

theorem method_spec {α : Type} (n : Nat) (hg : Good comp fam ext m vs) (p : List PL → Prog α) {args : List Nat} (hu : Usable vs args) :
    (∃ e, handles m.vars args = .error e ∧ handles (vs.map Held.fn) args = .error e) ∨
    ∃ os fs, handles m.vars args = .ok os ∧ handles (vs.map Held.fn) args = .ok fs ∧ fs = os.map m.look ∧
      ∃ c, (p fs).cached n m.look os m.caches = ((p fs).plain fs, c) ∧ CGood m.look m.objs.length c ∧ c.comps = m.caches.comps := by
  obtain ⟨h1, h2⟩ := handles_spec hg hu
  cases h : handles m.vars args with
  | error e => exact Or.inl ⟨e, rfl, h1 e h⟩
  | ok os =>
    right
    obtain ⟨a1, a2⟩ := h2 os h
    obtain ⟨b1, b2, b3⟩ := cached_spec (n := n) a2 (p (os.map m.look)) hg.caches
    exact ⟨os, _, rfl, a1, rfl, _, Prod.ext b1 rfl, b2, b3⟩

theorem step_ask (hg : Good comp fam ext m vs) {p : List PL → Prog ℚ} {args : List Nat} (hu : Usable vs args) :
    StepOk comp (m.step n comp (.ask p args)) (plainStep comp vs (.ask p args)) := by
  unfold Mem.step plainStep
  simp only
  rcases method_spec n hg p hu with ⟨e, h1, h2⟩ | ⟨os, fs, h1, h2, h3, c, h4, h5, h6⟩
  · rw [h1, h2]; exact ⟨rfl, _, _, hg⟩
  · rw [h1, h2, ok_bind]
    simp only
    rw [← h3, h4]
    cases (p fs).plain fs with
    | error e => exact ⟨rfl, _, _, hg.recache h5 h6⟩
    | ok v => exact ⟨rfl, _, _, hg.recache h5 h6⟩

/-- A new function of its own family. -/
theorem Good.made (hg : Good comp fam ext m vs) (f : PL) (x : Bool) : ∃ fam' ext', Good comp fam' ext' { m.alloc f with vars := m.vars ++ [m.objs.length] } (vs ++ [⟨f, vs.length, x, true⟩]) ∧
    (∀ o < m.objs.length, fam' o = fam o) ∧ fam' m.objs.length = vs.length ∧ ext' vs.length = x ∧ ∀ F < vs.length, ext' F = ext F := by
  obtain ⟨a1, a2, a3⟩ := hg.alloc f
  refine ⟨_, fun F => if F = vs.length then x else ext F, (a3.refam (ext' := fun F => if F = vs.length then x else ext F) (fun F hF => if_neg (by omega))).push
    (o := m.objs.length) (v := ⟨f, vs.length, x, true⟩) ?_ ?_ ?_ ?_ ?_ ?_, ?_, ?_, ?_, ?_⟩
  · unfold Mem.alloc; simp
  · simp
  · intro _; exact a2
  · intro h; simp only [if_true] at h ⊢; exact ⟨h, trivial⟩
  · intro h; simp only [if_true] at h ⊢; exact h
  · intro h; exact absurd h (not_held hg (le_refl _))
  · intro o ho; exact if_neg (by omega)
  · simp
  · simp
  · intro F hF; exact if_neg (by omega)

theorem step_make (hg : Good comp fam ext m vs) {p : List PL → Prog PL} {args : List Nat} (hu : Usable vs args) :
    StepOk comp (m.step n comp (.make p args)) (plainStep comp vs (.make p args)) := by
  unfold Mem.step plainStep
  simp only
  rcases method_spec n hg p hu with ⟨e, h1, h2⟩ | ⟨os, fs, h1, h2, h3, c, h4, h5, h6⟩
  · rw [h1, h2]; exact ⟨rfl, _, _, hg⟩
  · rw [h1, h2, ok_bind]
    simp only
    rw [← h3, h4]
    have hg' := hg.recache h5 h6
    cases (p fs).plain fs with
    | error e => exact ⟨rfl, _, _, hg'⟩
    | ok f =>
      obtain ⟨fam', ext', h, _⟩ := hg'.made f true
      exact ⟨rfl, fam', ext', h⟩

theorem step_alias (hg : Good comp fam ext m vs) {p : PL → Prog PL} {h : Nat} (hu : Usable vs [h]) :
    StepOk comp (m.step n comp (.alias p h)) (plainStep comp vs (.alias p h)) := by
  unfold Mem.step plainStep
  simp only
  rcases var_spec hg (a := h) with ⟨h1, h2⟩ | ⟨o, v, h1, h2⟩
  · unfold rd; rw [h1, h2]; exact ⟨rfl, _, _, hg⟩
  · rw [rd_eq_ok.mpr h1, rd_eq_ok.mpr h2, ok_bind]
    obtain ⟨a1, a2, a3, a4, a5⟩ := hg.held h o v h1 h2
    have a3 := a3 (hu h (by simp) v h2)
    obtain ⟨b1, b2, b3⟩ := cached_spec (n := n) (os := [o]) (by simpa using a1) (p (m.look o)) hg.caches
    simp only
    have he : (p (m.look o)).cached n m.look [o] m.caches = ((p v.fn).plain [v.fn], ((p (m.look o)).cached n m.look [o] m.caches).2) :=
      Prod.ext (by rw [b1, ← a3]; rfl) rfl
    rw [he]
    generalize ((p (m.look o)).cached n m.look [o] m.caches).2 = c at b2 b3
    have hg' := hg.recache b2 b3
    cases (p v.fn).plain [v.fn] with
    | error e => exact ⟨rfl, _, _, hg'⟩
    | ok f =>
      obtain ⟨x, hx⟩ : ∃ x, m.objs[o]? = some x := ⟨_, List.getElem?_eq_getElem a1⟩
      simp only [ok_bind, py_pure, rd_eq_ok.mpr hx]
      obtain ⟨c1, c2, c3⟩ := hg'.allocShared f hx
      refine ⟨rfl, _, _, c3.push (o := m.objs.length) (v := ⟨{ f with times := v.fn.times }, v.family, v.extendable, true⟩) ?_ ?_ ?_ ?_ ?_ ?_⟩
      · unfold Mem.allocShared; simp
      · simp only [if_true]; omega
      · intro _
        refine Eq.trans c2 ?_
        rw [← a3]; rfl
      · simp only [if_true]; exact a4
      · simp only [if_true]; exact a5
      · intro hm; exact absurd hm (not_held hg (le_refl _))

theorem step_compose (hg : Good comp fam ext m vs) {g f : Nat} (hu : Usable vs [g, f]) :
    StepOk comp (m.step n comp (.compose g f)) (plainStep comp vs (.compose g f)) := by
  unfold Mem.step plainStep
  simp only
  rcases var_spec hg (a := g) with ⟨h1, h2⟩ | ⟨og, vg, h1, h2⟩
  · unfold rd; rw [h1, h2]; exact ⟨rfl, _, _, hg⟩
  rcases var_spec hg (a := f) with ⟨k1, k2⟩ | ⟨of, vf, k1, k2⟩
  · rw [rd_eq_ok.mpr h1, rd_eq_ok.mpr h2]; unfold rd; rw [k1, k2]; exact ⟨rfl, _, _, hg⟩
  rw [rd_eq_ok.mpr h1, rd_eq_ok.mpr h2, rd_eq_ok.mpr k1, rd_eq_ok.mpr k2, ok_bind, ok_bind]
  obtain ⟨a1, _, a3, _⟩ := hg.held g og vg h1 h2
  obtain ⟨d1, _, d3, _⟩ := hg.held f of vf k1 k2
  have a3 := a3 (hu g (by simp) vg h2)
  have d3 := d3 (hu f (by simp) vf k2)
  simp only
  cases hl : m.caches.comps.lookup (og, of) with
  | some o =>
    obtain ⟨e1, e2, e3, e4, e5, e6⟩ := hg.comps og of o (lookup_in hl)
    rw [a3, d3] at e6
    rw [e6]
    have hg' : Good comp fam ext { m with caches := { m.caches with comps := remember n m.caches.comps (og, of) o } } vs := by
      refine ⟨hg.len, hg.ref, hg.own, hg.apart, hg.shared, hg.held, hg.same, ⟨hg.caches.grads, hg.caches.evals⟩, ?_⟩
      intro a b c hm
      rcases remember_mem hm with hm | hm
      · exact hg.comps a b c (by rw [hm]; exact lookup_in hl)
      · exact hg.comps a b c hm
    refine ⟨rfl, fam, ext, hg'.push (v := ⟨m.look o, vs.length, false, true⟩) e3 (by omega) (fun _ => rfl) (fun h => by cases h) (fun _ => e5) (fun _ => e5)⟩
  | none =>
    simp only
    obtain ⟨b1, b2, b3⟩ := cached_spec (n := n) (os := [og, of]) (by intro o ho; simp only [List.mem_cons, List.not_mem_nil, or_false] at ho; rcases ho with rfl | rfl <;> assumption)
      (comp (m.look og) (m.look of)) hg.caches
    have he : (comp (m.look og) (m.look of)).cached n m.look [og, of] m.caches =
        ((comp vg.fn vf.fn).plain [vg.fn, vf.fn], ((comp (m.look og) (m.look of)).cached n m.look [og, of] m.caches).2) :=
      Prod.ext (by rw [b1, ← a3, ← d3]; rfl) rfl
    rw [he]
    generalize ((comp (m.look og) (m.look of)).cached n m.look [og, of] m.caches).2 = c at b2 b3
    have hg' := hg.recache b2 b3
    cases hr : (comp vg.fn vf.fn).plain [vg.fn, vf.fn] with
    | error e => exact ⟨rfl, _, _, hg'⟩
    | ok r =>
      obtain ⟨fam', ext', hm, f1, f2, f3, f4⟩ := hg'.made r false
      obtain ⟨l1, l2, _⟩ := hg'.alloc r
      refine ⟨rfl, fam', ext', ⟨hm.len, hm.ref, hm.own, hm.apart, hm.shared, hm.held, hm.same, ⟨hm.caches.grads, hm.caches.evals⟩, ?_⟩⟩
      intro a b o hmem
      rcases remember_mem hmem with he' | hmem
      · injection he' with p1 p2
        injection p1 with p1 p3
        subst p1; subst p2; subst p3
        have hlen : ({ m with caches := c }.alloc r).objs.length = m.objs.length + 1 := by unfold Mem.alloc; simp
        refine ⟨?_, ?_, ?_, ?_, ?_, ?_⟩
        · show a < ({ m with caches := c }.alloc r).objs.length
          omega
        · show b < ({ m with caches := c }.alloc r).objs.length
          omega
        · show m.objs.length < ({ m with caches := c }.alloc r).objs.length
          omega
        · have f2 : fam' m.objs.length = vs.length := f2
          rw [f2]; simp
        · have f2 : fam' m.objs.length = vs.length := f2
          rw [f2]; exact f3
        · have q1 : ({ m with caches := c }.alloc r).look a = vg.fn := (l1 a a1).trans a3
          have q2 : ({ m with caches := c }.alloc r).look b = vf.fn := (l1 b d1).trans d3
          show (comp (({ m with caches := c }.alloc r).look a) (({ m with caches := c }.alloc r).look b)).plain [({ m with caches := c }.alloc r).look a, ({ m with caches := c }.alloc r).look b] = _
          rw [q1, q2, hr]
          exact congrArg _ l2.symm
      · exact hm.comps a b o hmem

theorem step_extend (hg : Good comp fam ext m vs) {h : Nat} {t s : ℚ} (hu : Allowed vs (.extend h t s)) :
    StepOk comp (m.step n comp (.extend h t s)) (plainStep comp vs (.extend h t s)) := by
  obtain ⟨hu, hx⟩ := hu
  unfold Mem.step plainStep
  simp only
  rcases var_spec hg (a := h) with ⟨h1, h2⟩ | ⟨o, v, h1, h2⟩
  · unfold rd; rw [h1, h2]; exact ⟨rfl, _, _, hg⟩
  · rw [rd_eq_ok.mpr h1, rd_eq_ok.mpr h2, ok_bind, ok_bind]
    obtain ⟨a1, a2, a3, a4, a5⟩ := hg.held h o v h1 h2
    have a3 := a3 (hu h (by simp) v h2)
    obtain ⟨x, hxo⟩ : ∃ x, m.objs[o]? = some x := ⟨_, List.getElem?_eq_getElem a1⟩
    obtain ⟨b1, b2⟩ := extend_spec hg hxo t s
    rw [a3] at b1 b2
    cases hf : v.fn.extendWithSlope t s with
    | error e => rw [b1 e hf]; exact ⟨rfl, _, _, hg⟩
    | ok f =>
      obtain ⟨m', c1, c2, _⟩ := b2 f hf
      rw [c1]
      exact ⟨rfl, _, _, hg.changed h1 h2 hxo (hx v h2) c2⟩

theorem Good.wiped (hg : Good comp fam ext m vs) (hc : m.caches = Caches.clear) {o : Nat} {x : Obj} (hx : m.objs[o]? = some x) (l : List ℚ) :
    Changed m { m with lists := m.lists.set x.values l } o x { m.look o with values := l } := by
  obtain ⟨r1, r2⟩ := hg.ref o x hx
  refine ⟨rfl, rfl, by simp, fun p y hy => ⟨y, hy, rfl, rfl⟩, ?_, ?_, Or.inr hc⟩
  · rw [look_of (m := { m with lists := m.lists.set x.values l }) hx, look_of hx]
    simp only
    rw [getD_set_eq r2, getD_set_ne (fun h => hg.apart o o x x hx hx h.symm)]
  · intro p y hy hp _
    refine look_lt hy hy ?_ ?_
    · exact getD_set_ne (fun h => hg.apart p o y x hy hx h.symm)
    · exact getD_set_ne (fun h => hp (hg.own p o y x hy hx h.symm))

theorem step_deplete (hg : Good comp fam ext m vs) {h : Nat} {t : ℚ} (hu : Allowed vs (.deplete h t)) :
    StepOk comp (m.step n comp (.deplete h t)) (plainStep comp vs (.deplete h t)) := by
  obtain ⟨hu, hx⟩ := hu
  unfold Mem.step plainStep
  simp only
  rcases var_spec hg (a := h) with ⟨h1, h2⟩ | ⟨o, v, h1, h2⟩
  · unfold rd; rw [h1, h2]; exact ⟨rfl, _, _, hg⟩
  · rw [rd_eq_ok.mpr h1, rd_eq_ok.mpr h2, ok_bind, ok_bind]
    obtain ⟨a1, a2, a3, a4, a5⟩ := hg.held h o v h1 h2
    have a3 := a3 (hu h (by simp) v h2)
    obtain ⟨x, hxo⟩ : ∃ x, m.objs[o]? = some x := ⟨_, List.getElem?_eq_getElem a1⟩
    obtain ⟨b1, b2⟩ := extend_spec hg hxo t 0
    rw [a3] at b1 b2
    obtain ⟨hx1, hx2⟩ := hx v h2
    have hxl : x.last = v.fn.last := by rw [← a3, look_of hxo]
    cases hf : v.fn.extendWithSlope t 0 with
    | error e => rw [b1 e hf]; exact ⟨rfl, _, _, hg⟩
    | ok f =>
      obtain ⟨m', c1, c2, c3⟩ := b2 f hf
      have c3 := c3 (by rw [hxl, sub_zero]; exact hx2)
      have hg' := hg.changed h1 h2 hxo hx1 c2
      obtain ⟨y, hy⟩ : ∃ y, m'.objs[o]? = some y := ⟨_, List.getElem?_eq_getElem (by rw [c2.objs]; exact a1)⟩
      obtain ⟨z, z1, z2, z3⟩ := c2.refs o y hy
      rw [hxo] at z1; injection z1 with z1; subst z1
      have hfv : f.values = m'.lists.getD y.values [] := by rw [← c2.now, look_of hy]
      rw [c1, ok_bind, ok_bind]
      simp only [py_pure, rd_eq_ok.mpr hy, ok_bind, ← hfv]
      cases hl : rdLast f.values with
      | error e => exact ⟨rfl, _, _, hg'⟩
      | ok l =>
        simp only [ok_bind]
        by_cases hb : |l| < 1000 * eps
        · rw [pyAssert_true hb, ok_bind]
          simp only
          have hw := hg'.wiped c3 hy ((m'.lists.getD y.values []).dropLast ++ [0])
          rw [c2.now] at hw
          refine ⟨rfl, fam, ext, hg.changed h1 h2 hxo hx1 ⟨?_, ?_, ?_, ?_, ?_, ?_, ?_⟩⟩
          · exact hw.vars.trans c2.vars
          · exact hw.objs.trans c2.objs
          · exact hw.lists.trans c2.lists
          · intro p q hq
            exact c2.refs p q hq
          · rw [hfv]; exact hw.now
          · intro p q hq hp ht
            obtain ⟨q', hq'⟩ : ∃ q', m'.objs[p]? = some q' := ⟨_, List.getElem?_eq_getElem (by rw [c2.objs]; exact (List.getElem?_eq_some_iff.mp hq).1)⟩
            obtain ⟨w, w1, w2, w3⟩ := c2.refs p q' hq'
            rw [hq] at w1; injection w1 with w1; subst w1
            rw [← c2.rest p q hq hp ht]
            exact hw.rest p q' hq' hp (by rw [← w2, ← z2]; exact ht)
          · exact Or.inr c3
        · have : pyAssert (|l| < 1000 * eps) = .error .assertion := by unfold pyAssert; rw [if_neg hb]
          rw [this]
          exact ⟨rfl, _, _, hg'⟩

theorem evalProg_plain (x : ℚ) (f : PL) : (evalProg x f).plain [f] = f.eval x := by
  unfold evalProg PL.eval
  by_cases hd : f.inDom x
  · rw [pyAssert_true hd]
    simp only [ok_bind]
    cases hr : elemRank f.times x with
    | error e => rfl
    | ok r =>
      simp only [ok_bind]
      show (do let g ← rd [f] 0; let v ← g.evalWithRank x r; Prog.plain [f] (.ret (.ok v))) = _
      have : rd [f] 0 = .ok f := rfl
      rw [this, ok_bind]
      cases f.evalWithRank x r <;> rfl
  · have : pyAssert (f.inDom x) = .error .assertion := by unfold pyAssert; rw [if_neg hd]
    rw [this]; rfl

theorem rank_widen {f : PL} {x : ℚ} {r : Int} {v : ℚ} (h : f.evalWithRank x r = .ok v) : { f with lo := ⊥ }.evalWithRank x r = .ok v := by
  unfold PL.evalWithRank at h ⊢
  obtain ⟨u, h1, h⟩ := bind_eq_ok.mp h
  have hd := pyAssert_eq_ok.mp h1
  rw [pyAssert_true ⟨bot_le, hd.2⟩, ok_bind]
  exact h

/-- A load whose left end is repaired: only the domain changes. -/
theorem Good.widened (hg : Good comp fam ext m vs) {o : Nat} {f : PL} {ref : Nat} (ho : m.objs[o]? = some ⟨ref, ref + 1, f.first, f.last, f.lo, f.hi⟩) (hl : m.look o = f)
    (h0 : f.first = 0) (hh : o ∉ m.vars) (hc : ∀ g g' h, ((g, g'), h) ∈ m.caches.comps → g ≠ o ∧ g' ≠ o ∧ h ≠ o) :
    let m' : Mem := { m with objs := m.objs.set o ⟨ref, ref + 1, 0, f.last, ⊥, f.hi⟩ }
    m'.look o = { f with first := 0, lo := ⊥ } ∧ Good comp fam ext m' vs := by
  intro m'
  have hol : o < m.objs.length := (List.getElem?_eq_some_iff.mp ho).1
  have hself : m'.objs[o]? = some ⟨ref, ref + 1, 0, f.last, ⊥, f.hi⟩ := by show (m.objs.set o _)[o]? = _; rw [List.getElem?_set_self hol]
  have hrefs : ∀ (p : Nat) (y : Obj), m'.objs[p]? = some y → ∃ z, m.objs[p]? = some z ∧ z.times = y.times ∧ z.values = y.values :=
    fun p y hy => set_refs (x' := ⟨ref, ref + 1, 0, f.last, ⊥, f.hi⟩) ho rfl rfl p y hy
  have hrest : ∀ p, p ≠ o → m'.look p = m.look p := by
    intro p hp
    unfold Mem.look
    have : m'.objs[p]? = m.objs[p]? := by show (m.objs.set o _)[p]? = _; rw [List.getElem?_set_ne (fun h => hp h.symm)]
    rw [this]
  have hnow : m'.look o = { f with first := 0, lo := ⊥ } := by
    rw [look_of hself]
    rw [look_of ho] at hl
    rw [← hl]
  have hlen : m'.objs.length = m.objs.length := by show (m.objs.set o _).length = _; simp
  have hgrad : ∀ i, (m'.look o).gradient i = (m.look o).gradient i := by
    intro i; rw [hnow, hl, ← h0]; rfl
  have heval : ∀ x r v, (m.look o).evalWithRank x r = .ok v → (m'.look o).evalWithRank x r = .ok v := by
    intro x r v h; rw [hl] at h; rw [hnow, ← h0]; exact rank_widen h
  refine ⟨hnow, ⟨hg.len, ?_, ?_, ?_, ?_, ?_, hg.same, ⟨?_, ?_⟩, ?_⟩⟩
  · intro p y hy
    obtain ⟨z, z1, z2, z3⟩ := hrefs p y hy
    rw [← z2, ← z3]; exact hg.ref p z z1
  · intro p q y y' hy hy' he
    obtain ⟨z, z1, z2, z3⟩ := hrefs p y hy
    obtain ⟨z', z1', z2', z3'⟩ := hrefs q y' hy'
    exact hg.own p q z z' z1 z1' (by rw [z3, z3', he])
  · intro p q y y' hy hy' he
    obtain ⟨z, z1, z2, z3⟩ := hrefs p y hy
    obtain ⟨z', z1', z2', z3'⟩ := hrefs q y' hy'
    exact hg.apart p q z z' z1 z1' (by rw [z2, z3', he])
  · intro p q y y' hy hy' he
    obtain ⟨z, z1, z2, z3⟩ := hrefs p y hy
    obtain ⟨z', z1', z2', z3'⟩ := hrefs q y' hy'
    exact hg.shared p q z z' z1 z1' (by rw [z2, z2', he])
  · intro i p v hi hv
    obtain ⟨a1, a2, a3, a4⟩ := hg.held i p v hi hv
    refine ⟨by rw [hlen]; exact a1, a2, fun hu => ?_, a4⟩
    rw [hrest p (fun h => hh (by rw [← h]; exact List.mem_of_getElem? hi))]
    exact a3 hu
  · intro p i v hm
    obtain ⟨a1, a2⟩ := hg.caches.grads p i v hm
    refine ⟨by rw [hlen]; exact a1, ?_⟩
    by_cases hp : p = o
    · subst hp; rw [hgrad]; exact a2
    · rw [hrest p hp]; exact a2
  · intro p x r v hm
    obtain ⟨a1, a2⟩ := hg.caches.evals p x r v hm
    refine ⟨by rw [hlen]; exact a1, ?_⟩
    by_cases hp : p = o
    · subst hp; exact heval x r v a2
    · rw [hrest p hp]; exact a2
  · intro g g' h hm
    obtain ⟨a1, a2, a3, a4, a5, a6⟩ := hg.comps g g' h hm
    obtain ⟨b1, b2, b3⟩ := hc g g' h hm
    rw [hlen, hrest g b1, hrest g' b2, hrest h b3]
    exact ⟨a1, a2, a3, a4, a5, a6⟩

theorem step_load (hg : Good comp fam ext m vs) {p : List PL → Prog PL} {args : List Nat} (hu : Allowed vs (.load p args)) :
    StepOk comp (m.step n comp (.load p args)) (plainStep comp vs (.load p args)) := by
  obtain ⟨hu, hx⟩ := hu
  unfold Mem.step plainStep
  simp only
  rcases method_spec n hg p hu with ⟨e, h1, h2⟩ | ⟨os, fs, h1, h2, h3, c, h4, h5, h6⟩
  · rw [h1, h2]; exact ⟨rfl, _, _, hg⟩
  rw [h1, h2, ok_bind]
  simp only
  rw [← h3, h4]
  have hg0 := hg.recache h5 h6
  have hx := hx fs
  cases hf : (p fs).plain fs with
  | error e => exact ⟨rfl, _, _, hg0⟩
  | ok f =>
    obtain ⟨x1, x2⟩ := hx f h2 hf
    simp only [ok_bind]
    unfold repairLoad
    obtain ⟨a1, a2, a3⟩ := hg0.alloc f
    have a2 : ({ m with caches := c }.alloc f).look m.objs.length = f := a2
    have hM : ({ lists := (m.alloc f).lists, objs := (m.alloc f).objs, caches := c, vars := (m.alloc f).vars } : Mem) = { m with caches := c }.alloc f := rfl
    rw [hM]
    generalize hMM : ({ m with caches := c }.alloc f) = M at a1 a2 a3
    by_cases hlo : f.lo = ((0 : ℚ) : WithBot ℚ)
    swap
    · have : pyAssert (f.lo = ((0 : ℚ) : WithBot ℚ)) = .error .assertion := by unfold pyAssert; rw [if_neg hlo]
      rw [this, if_neg hlo]
      exact ⟨rfl, _, _, a3⟩
    have e1 : (m.alloc f).lists = M.lists := by rw [← hMM]; rfl
    have e2 : (m.alloc f).objs = M.objs := by rw [← hMM]; rfl
    have e3 : (m.alloc f).vars = M.vars := by rw [← hMM]; rfl
    have e4 : c = M.caches := by rw [← hMM]; rfl
    rw [pyAssert_true hlo, if_pos hlo, ok_bind, e1, e2, e3, e4]
    have hMo : M.objs.length = m.objs.length + 1 := by rw [← hMM]; unfold Mem.alloc; simp
    obtain ⟨b1, b2, b3⟩ := cached_spec (n := n) (N := M.objs.length) (os := [m.objs.length]) (by simp [hMo]) (evalProg 0 (M.look m.objs.length)) a3.caches
    rw [List.map_singleton, evalProg_plain, a2] at b1
    have he : (evalProg 0 (M.look m.objs.length)).cached n M.look [m.objs.length] M.caches = (f.eval 0, ((evalProg 0 (M.look m.objs.length)).cached n M.look [m.objs.length] M.caches).2) :=
      Prod.ext (by rw [← b1, a2]) rfl
    rw [he]
    rw [a2] at b2 b3 ⊢
    generalize ((evalProg 0 f).cached n M.look [m.objs.length] M.caches).2 = c2 at b2 b3
    have hg2 := a3.recache b2 b3
    cases hev : f.eval 0 with
    | error e => exact ⟨rfl, _, _, hg2⟩
    | ok v =>
      simp only [ok_bind]
      by_cases hb : |v| < 1 / 10 ^ 10
      swap
      · have : pyAssert (|v| < 1 / 10 ^ 10) = .error .assertion := by unfold pyAssert; rw [if_neg hb]
        rw [this, if_neg hb]
        exact ⟨rfl, _, _, hg2⟩
      rw [pyAssert_true hb, if_pos hb, ok_bind]
      have hv0 : rd f.values 0 = .ok 0 := by
        refine rd_eq_ok.mpr ?_
        rw [← List.head?_eq_getElem?]; exact x2
      rw [hv0]
      simp only [ok_bind, ne_eq, not_true_eq_false, if_false, py_pure]
      have hobj : M.objs[m.objs.length]? = some ⟨m.lists.length, m.lists.length + 1, f.first, f.last, f.lo, f.hi⟩ := by rw [← hMM]; unfold Mem.alloc; simp
      have hlists : (M.lists.set m.lists.length f.times).set (m.lists.length + 1) f.values = M.lists := by
        rw [← hMM]
        unfold Mem.alloc
        simp
      have hvars : M.vars = m.vars := by rw [← hMM]; rfl
      rw [hlists]
      have hw := hg2.widened (o := m.objs.length) (f := f) (ref := m.lists.length) hobj a2 x1
        (by show m.objs.length ∉ M.vars; rw [hvars]; exact not_held hg (le_refl _))
        (by
          intro g g' h hm
          have hm : ((g, g'), h) ∈ c2.comps := hm
          rw [b3] at hm
          have hm : ((g, g'), h) ∈ m.caches.comps := by rw [← hMM] at hm; rw [← h6]; exact hm
          obtain ⟨q1, q2, q3, _⟩ := hg.comps g g' h hm
          omega)
      obtain ⟨w1, w2⟩ := hw
      have w3 := w2.refam (ext' := fun F => if F = vs.length then true else ext F) (fun F hF => if_neg (by omega))
      refine ⟨rfl, _, _, w3.push (o := m.objs.length) (v := ⟨{ f with first := 0, lo := ⊥ }, vs.length, true, true⟩) ?_ ?_ ?_ ?_ ?_ ?_⟩
      · simp [hMo]
      · simp
      · intro _; exact w1
      · intro _; simp
      · intro h; cases h
      · intro h
        have h : m.objs.length ∈ M.vars := h
        rw [hvars] at h
        exact absurd h (not_held hg (le_refl _))

/-- Every call that is allowed. -/
theorem step_ok (n : Nat) (hg : Good comp fam ext m vs) {c : Call} (ha : Allowed vs c) : StepOk comp (m.step n comp c) (plainStep comp vs c) := by
  cases c with
  | ask p args => exact step_ask hg ha
  | make p args => exact step_make hg ha
  | «alias» p h => exact step_alias hg ha
  | compose g f => exact step_compose hg ha
  | extend h t s => exact step_extend hg ha
  | deplete h t => exact step_deplete hg ha
  | load p args => exact step_load hg ha

theorem start_good : Good comp (fun _ => 0) (fun _ => false) Mem.start [] := by
  refine ⟨rfl, ?_, ?_, ?_, ?_, ?_, ?_, ⟨?_, ?_⟩, ?_⟩
  · intro o x h; cases h
  · intro o o' x x' h; cases h
  · intro o o' x x' h; cases h
  · intro o o' x x' h; cases h
  · intro i o v h; cases h
  · intro i j o h; cases h
  · intro o i v h; cases h
  · intro o x r v h; cases h
  · intro g f h hm; cases hm

theorem run_ok (n : Nat) : ∀ (cs : List Call) {m : Mem} {vs : List Held} {fam : Nat → Nat} {ext : Nat → Bool}, Good comp fam ext m vs → Careful comp vs cs →
    (m.run n comp cs).1 = (plainRun comp vs cs).1 ∧ ∃ fam ext, Good comp fam ext (m.run n comp cs).2 (plainRun comp vs cs).2
  | [], _, _, fam, ext, hg, _ => ⟨rfl, fam, ext, hg⟩
  | c :: cs, m, vs, fam, ext, hg, ⟨ha, hc⟩ => by
    obtain ⟨h1, fam', ext', h2⟩ := step_ok n hg ha
    obtain ⟨k1, k2⟩ := run_ok n cs h2 hc
    unfold Mem.run plainRun
    simp only
    exact ⟨by rw [h1, k1], k2⟩

end Verif.Caching
