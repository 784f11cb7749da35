import Verif.Proofs.Caches

/-! One call: with caches and shared lists it returns what plain values give. -/

namespace Verif.Caching
open Verif Verif.Spec

variable {n : Nat} {comp : PL → PL → Prog PL} {fam : Nat → Nat} {ext : Nat → Bool} {m : Mem} {vs : List Held}

/-- Object `o` now has contents `f`; those that share no list with it are as before. -/
structure Changed (m m' : Mem) (o : Nat) (x : Obj) (f : PL) : Prop where
  vars : m'.vars = m.vars
  objs : m'.objs.length = m.objs.length
  lists : m'.lists.length = m.lists.length
  refs : ∀ (p : Nat) (y : Obj), m'.objs[p]? = some y → ∃ z, m.objs[p]? = some z ∧ z.times = y.times ∧ z.values = y.values
  now : m'.look o = f
  rest : ∀ (p : Nat) (y : Obj), m.objs[p]? = some y → p ≠ o → y.times ≠ x.times → m'.look p = m.look p
  caches : m' = m ∨ m'.caches = Caches.clear

theorem look_of {m : Mem} {o : Nat} {x : Obj} (h : m.objs[o]? = some x) : m.look o = ⟨m.lists.getD x.times [], m.lists.getD x.values [], x.first, x.last, x.lo, x.hi⟩ := by
  unfold Mem.look; rw [h]

theorem getD_set_ne {α : Type} {l : List α} {i j : Nat} {a d : α} (h : i ≠ j) : (l.set i a).getD j d = l.getD j d := by
  rw [List.getD_eq_getElem?_getD, List.getD_eq_getElem?_getD, List.getElem?_set_ne h]

theorem getD_set_eq {α : Type} {l : List α} {i : Nat} {a d : α} (h : i < l.length) : (l.set i a).getD i d = a := by
  rw [List.getD_eq_getElem?_getD, List.getElem?_set_self h]; rfl

theorem set_refs {m : Mem} {o : Nat} {x x' : Obj} (hx : m.objs[o]? = some x) (h1 : x'.times = x.times) (h2 : x'.values = x.values) (p : Nat) (y : Obj)
    (hy : (m.objs.set o x')[p]? = some y) : ∃ z, m.objs[p]? = some z ∧ z.times = y.times ∧ z.values = y.values := by
  by_cases hp : o = p
  · subst hp
    rw [List.getElem?_set_self (List.getElem?_eq_some_iff.mp hx).1] at hy
    injection hy with hy; subst hy
    exact ⟨x, hx, h1.symm, h2.symm⟩
  · rw [List.getElem?_set_ne hp] at hy
    exact ⟨y, hy, rfl, rfl⟩

theorem extend_spec (hg : Good comp fam ext m vs) {o : Nat} {x : Obj} (hx : m.objs[o]? = some x) (t s : ℚ) :
    (∀ e, (m.look o).extendWithSlope t s = .error e → m.extend o t s = .error e) ∧
    ∀ f, (m.look o).extendWithSlope t s = .ok f → ∃ m', m.extend o t s = .ok m' ∧ Changed m m' o x f ∧ (eps < |x.last - s| → m'.caches = Caches.clear) := by
  obtain ⟨r1, r2⟩ := hg.ref o x hx
  have hne : x.times ≠ x.values := hg.apart o o x x hx hx
  have hol : o < m.objs.length := (List.getElem?_eq_some_iff.mp hx).1
  rw [look_of hx]
  unfold Mem.extend PL.extendWithSlope
  rw [rd_eq_ok.mpr hx, ok_bind]
  simp only
  cases htl : rdLast (m.lists.getD x.times []) with
  | error e => refine ⟨fun e' h => ?_, fun f h => (by cases h)⟩; injection h with h; subst h; rfl
  | ok tl =>
    simp only [ok_bind]
    by_cases hA : t ≥ tl - eps
    swap
    · have : pyAssert (t ≥ tl - eps) = .error .assertion := by unfold pyAssert; rw [if_neg hA]
      rw [this]
      refine ⟨fun e' h => ?_, fun f h => (by cases h)⟩; injection h with h; subst h; rfl
    rw [pyAssert_true hA, ok_bind, ok_bind]
    by_cases hB : |x.last - s| ≤ eps
    · rw [if_pos hB, if_pos hB]
      refine ⟨fun e h => (by cases h), fun f h => ?_⟩
      injection h with h
      refine ⟨m, rfl, ⟨rfl, rfl, rfl, fun p y hy => ⟨y, hy, rfl, rfl⟩, by rw [look_of hx]; exact h, fun _ _ _ _ _ => rfl, Or.inl rfl⟩, fun h => absurd h (not_lt.mpr hB)⟩
    rw [if_neg hB, if_neg hB]
    by_cases hC : |t - tl| > eps
    · rw [if_pos hC, if_pos hC]
      cases hvl : rdLast (m.lists.getD x.values []) with
      | error e => refine ⟨fun e' h => ?_, fun f h => (by cases h)⟩; injection h with h; subst h; rfl
      | ok vl =>
        simp only [ok_bind]
        refine ⟨fun e h => (by cases h), fun f h => ?_⟩
        injection h with h
        refine ⟨_, rfl, ⟨rfl, by simp, by simp, fun p y hy => set_refs (x' := { x with last := s }) hx rfl rfl p y hy, ?_, ?_, Or.inr rfl⟩, fun _ => rfl⟩
        · rw [look_of (o := o) (x := { x with last := s }) (by simp only; rw [List.getElem?_set_self hol])]
          simp only
          rw [← h, getD_set_eq (by simpa using r1), getD_set_ne hne, getD_set_eq r2]
        · intro p y hy hp hyt
          have hv : y.values ≠ x.values := fun he => hp (hg.own p o y x hy hx he)
          have h1 : y.times ≠ x.values := hg.apart p o y x hy hx
          have h2 : x.times ≠ y.values := hg.apart o p x y hx hy
          refine look_lt hy (by simp only; rw [List.getElem?_set_ne (fun h => hp h.symm)]; exact hy) ?_ ?_
          · simp only
            rw [getD_set_ne (fun h => hyt h.symm), getD_set_ne (fun h => h1 h.symm)]
          · simp only
            rw [getD_set_ne h2, getD_set_ne (fun h => hv h.symm)]
    · rw [if_neg hC, if_neg hC]
      refine ⟨fun e h => (by cases h), fun f h => ?_⟩
      injection h with h
      refine ⟨_, rfl, ⟨rfl, by simp, rfl, fun p y hy => set_refs (x' := { x with last := s }) hx rfl rfl p y hy, ?_, ?_, Or.inr rfl⟩, fun _ => rfl⟩
      · rw [look_of (o := o) (x := { x with last := s }) (by simp only; rw [List.getElem?_set_self hol])]
        simp only
        exact h
      · intro p y hy hp hyt
        exact look_lt hy (by simp only; rw [List.getElem?_set_ne (fun h => hp h.symm)]; exact hy) rfl rfl

theorem outdate_get {vs : List Held} {h F j : Nat} {w : Held} (hw : (outdate vs h F)[j]? = some w) : ∃ u, vs[j]? = some u ∧ w.fn = u.fn ∧ w.family = u.family ∧ w.extendable = u.extendable ∧
    (w.usable = true → u.usable = true ∧ (j ≠ h → u.extendable = true → u.family ≠ F)) := by
  unfold outdate at hw
  rw [List.getElem?_mapIdx] at hw
  cases hu : vs[j]? with
  | none => rw [hu] at hw; cases hw
  | some u =>
    rw [hu] at hw
    simp only [Option.map_some, Option.some.injEq] at hw
    refine ⟨u, rfl, ?_⟩
    by_cases hc : j ≠ h ∧ u.extendable = true ∧ u.family = F
    · rw [if_pos hc] at hw; subst hw
      exact ⟨rfl, rfl, rfl, fun hx => by cases hx⟩
    · rw [if_neg hc] at hw; subst hw
      exact ⟨rfl, rfl, rfl, fun hx => ⟨hx, fun a b c => hc ⟨a, b, c⟩⟩⟩

/-- A function was extended. -/
theorem Good.changed (hg : Good comp fam ext m vs) {h o : Nat} {x : Obj} {v : Held} {f : PL} {m' : Mem} (ho : m.vars[h]? = some o) (hv : vs[h]? = some v) (hx : m.objs[o]? = some x)
    (hext : v.extendable = true) (hc : Changed m m' o x f) : Good comp fam ext m' (outdate (vs.set h { v with fn := f }) h v.family) := by
  obtain ⟨a1, a2, a3, a4, a5⟩ := hg.held h o v ho hv
  obtain ⟨b1, b2⟩ := a4 hext
  have hlen : (outdate (vs.set h { v with fn := f }) h v.family).length = vs.length := by unfold outdate; simp
  have hhl : h < vs.length := (List.getElem?_eq_some_iff.mp hv).1
  have hget : ∀ (j : Nat) w, (outdate (vs.set h { v with fn := f }) h v.family)[j]? = some w → ∃ u, vs[j]? = some u ∧ w.family = u.family ∧ w.extendable = u.extendable ∧
      (j = h → w.fn = f) ∧ (j ≠ h → w.fn = u.fn) ∧ (w.usable = true → u.usable = true ∧ (j ≠ h → u.extendable = true → u.family ≠ v.family)) := by
    intro j w hw
    obtain ⟨u, u1, u2, u3, u4, u5⟩ := outdate_get hw
    by_cases hj : h = j
    · subst hj
      rw [List.getElem?_set_self hhl] at u1
      injection u1 with u1; subst u1
      exact ⟨v, hv, u3, u4, fun _ => u2, fun hne => absurd rfl hne, u5⟩
    · rw [List.getElem?_set_ne hj] at u1
      exact ⟨u, u1, u3, u4, fun he => absurd he.symm hj, fun _ => u2, u5⟩
  refine ⟨by rw [hlen, hc.vars, hg.len], ?_, ?_, ?_, ?_, ?_, ?_, ?_, ?_⟩
  · intro p y hy
    obtain ⟨z, z1, z2, z3⟩ := hc.refs p y hy
    have := hg.ref p z z1
    rw [hc.lists, ← z2, ← z3]; exact this
  · intro p q y y' hy hy' he
    obtain ⟨z, z1, z2, z3⟩ := hc.refs p y hy
    obtain ⟨z', z1', z2', z3'⟩ := hc.refs q y' hy'
    exact hg.own p q z z' z1 z1' (by rw [z3, z3', he])
  · intro p q y y' hy hy' he
    obtain ⟨z, z1, z2, z3⟩ := hc.refs p y hy
    obtain ⟨z', z1', z2', z3'⟩ := hc.refs q y' hy'
    exact hg.apart p q z z' z1 z1' (by rw [z2, z3', he])
  · intro p q y y' hy hy' he
    obtain ⟨z, z1, z2, z3⟩ := hc.refs p y hy
    obtain ⟨z', z1', z2', z3'⟩ := hc.refs q y' hy'
    exact hg.shared p q z z' z1 z1' (by rw [z2, z2', he])
  · intro i p w hi hw
    rw [hc.vars] at hi
    rw [hc.objs, hlen]
    obtain ⟨u, u1, u2, u3, u4, u5, u6⟩ := hget i w hw
    obtain ⟨c1, c2, c3, c4, c5⟩ := hg.held i p u hi u1
    rw [u2, u3]
    refine ⟨c1, c2, ?_, c4, c5⟩
    intro hu
    obtain ⟨d1, d2⟩ := u6 hu
    by_cases hih : i = h
    · subst hih
      rw [ho] at hi; injection hi with hi; subst hi
      rw [u4 rfl]; exact hc.now
    · rw [u5 hih, ← c3 d1]
      obtain ⟨y, hy⟩ : ∃ y, m.objs[p]? = some y := ⟨_, List.getElem?_eq_getElem c1⟩
      have hpo : p ≠ o := by
        intro he
        subst he
        have := hg.same i h p hi ho hih
        rw [b1] at this; cases this
      refine hc.rest p y hy hpo ?_
      intro he
      have hf := hg.shared p o y x hy hx he
      cases hue : u.extendable with
      | true => exact d2 hih hue (by rw [(c4 hue).2, b2, hf])
      | false => have := c5 hue; rw [hf, b1] at this; cases this
  · intro i j p hi hj hij
    rw [hc.vars] at hi hj
    exact hg.same i j p hi hj hij
  · rcases hc.caches with he | he
    · rw [he]; exact hg.caches
    · rw [he]; exact ⟨fun _ _ _ h => (by cases h), fun _ _ _ _ h => (by cases h)⟩
  · rcases hc.caches with he | he
    · rw [he, hlen]; exact hg.comps
    · intro g f h hm
      rw [he] at hm; cases hm

/-- Families for one more object. -/
theorem Good.refam (hg : Good comp fam ext m vs) {ext' : Nat → Bool} (he : ∀ F < vs.length, ext' F = ext F) : Good comp fam ext' m vs := by
  refine ⟨hg.len, hg.ref, hg.own, hg.apart, hg.shared, ?_, ?_, hg.caches, ?_⟩
  · intro i o v hi hv
    obtain ⟨a1, a2, a3, a4, a5⟩ := hg.held i o v hi hv
    exact ⟨a1, a2, a3, fun h => by rw [he _ a2]; exact a4 h, fun h => by rw [he _ a2]; exact a5 h⟩
  · intro i j o hi hj hij
    obtain ⟨_, v, _, hv⟩ := (var_spec hg (a := i)).resolve_left (fun h => by rw [h.1] at hi; cases hi)
    rw [he _ (hg.held i o v hi hv).2.1]
    exact hg.same i j o hi hj hij
  · intro g f h hm
    obtain ⟨a1, a2, a3, a4, a5, a6⟩ := hg.comps g f h hm
    exact ⟨a1, a2, a3, a4, by rw [he _ a4]; exact a5, a6⟩

theorem not_held (hg : Good comp fam ext m vs) {o : Nat} (ho : m.objs.length ≤ o) : o ∉ m.vars := by
  intro hm
  obtain ⟨i, hi, he⟩ := List.mem_iff_getElem.mp hm
  have hi' : m.vars[i]? = some o := by rw [List.getElem?_eq_getElem hi, he]
  obtain ⟨_, v, _, hv⟩ := (var_spec hg (a := i)).resolve_left (fun h => by rw [h.1] at hi'; cases hi')
  have := (hg.held i o v hi' hv).1
  omega

/-- A new function with its own lists, of a new family. -/
theorem Good.alloc (hg : Good comp fam ext m vs) (f : PL) : (∀ o < m.objs.length, (m.alloc f).look o = m.look o) ∧ (m.alloc f).look m.objs.length = f ∧
    Good comp (fun o => if o = m.objs.length then vs.length else fam o) ext (m.alloc f) vs := by
  have h := hg.grow (x := ⟨m.lists.length, m.lists.length + 1, f.first, f.last, f.lo, f.hi⟩) (ls := [f.times, f.values]) (F := vs.length)
    (by simp) (by simp) (by simp) (fun hlt => by simp at hlt) (fun o y hy he => by have := (hg.ref o y hy).2; simp only at he; omega)
  refine ⟨h.1, ?_, h.2⟩
  rw [look_of (o := m.objs.length) (x := ⟨m.lists.length, m.lists.length + 1, f.first, f.last, f.lo, f.hi⟩) (by unfold Mem.alloc; simp)]
  unfold Mem.alloc
  simp [List.getD_eq_getElem?_getD]

/-- A new function with the times of another one. -/
theorem Good.allocShared (hg : Good comp fam ext m vs) (f : PL) {o : Nat} {x : Obj} (hx : m.objs[o]? = some x) : (∀ o < m.objs.length, (m.allocShared x.times f).look o = m.look o) ∧
    (m.allocShared x.times f).look m.objs.length = { f with times := (m.look o).times } ∧
    Good comp (fun p => if p = m.objs.length then fam o else fam p) ext (m.allocShared x.times f) vs := by
  have hr := hg.ref o x hx
  have h := hg.grow (x := ⟨x.times, m.lists.length, f.first, f.last, f.lo, f.hi⟩) (ls := [f.values]) (F := fam o)
    (by simp) (by simp only [List.length_singleton]; omega) (by simp only; omega) (fun _ p y hy he => (hg.shared o p x y hx hy he).symm) (fun p y hy => hg.apart o p x y hx hy)
  refine ⟨h.1, ?_, h.2⟩
  rw [look_of (o := m.objs.length) (x := ⟨x.times, m.lists.length, f.first, f.last, f.lo, f.hi⟩) (by unfold Mem.allocShared; simp), look_of hx]
  unfold Mem.allocShared
  simp only
  rw [getD_append_lt hr.1]
  simp [List.getD_eq_getElem?_getD]

end Verif.Caching
