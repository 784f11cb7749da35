import Verif.Spec.Caches
import Verif.Proofs.BuilderBase

/-! Caches of functions: what they hold is what would be computed. -/

namespace Verif.Caching
open Verif Verif.Spec

theorem remember_mem {K V : Type} [DecidableEq K] {n : Nat} {l : List (K × V)} {k : K} {v : V} {p : K × V} (h : p ∈ remember n l k v) : p = (k, v) ∨ p ∈ l := by
  unfold remember at h
  have h := List.mem_of_mem_take h
  rcases List.mem_cons.mp h with h | h
  · exact Or.inl h
  · exact Or.inr (List.mem_filter.mp h).1

theorem lookup_in {K V : Type} [BEq K] [LawfulBEq K] {l : List (K × V)} {k : K} {v : V} (h : l.lookup k = some v) : (k, v) ∈ l := by
  induction l with
  | nil => cases h
  | cons p l ih =>
    rw [List.lookup_cons] at h
    cases hk : k == p.1 with
    | true => rw [hk] at h; injection h with h; rw [eq_of_beq hk, ← h]; exact List.mem_cons_self
    | false => rw [hk] at h; exact List.mem_cons_of_mem _ (ih h)

theorem evalWithRank_eq (f : PL) (x : ℚ) (r : Int) : f.evalWithRank x r = (do
    let p ← rankParts f x r
    let g ← f.gradient r
    pure (p.1 + (x - p.2) * g)) := by
  unfold PL.evalWithRank rankParts
  simp only [bind_assoc]
  refine congrArg _ (funext fun _ => ?_)
  refine congrArg _ (funext fun _ => ?_)
  cases h0 : rd f.times 0 with
  | error e => rfl
  | ok t0 =>
    simp only [ok_bind]
    refine congrArg _ (funext fun _ => ?_)
    refine congrArg _ (funext fun tl => ?_)
    refine congrArg _ (funext fun _ => ?_)
    have hl : 0 < f.times.length := by
      have := rd_eq_ok.mp h0
      exact (List.getElem?_eq_some_iff.mp this).1
    have key : (if r = -1 then do
          let g ← f.gradient r
          let v0 ← rd f.values 0
          pure (v0 + (x - t0) * g)
        else if r = (f.times.length : Int) - 1 then do
          let g ← f.gradient r
          let vl ← rdLast f.values
          pure (vl + (x - tl) * g)
        else do
          let v ← rdI f.values r
          let t ← rdI f.times r
          let g ← f.gradient r
          pure (v + (x - t) * g) : Py ℚ) = (do
        let p ← (if r = -1 then do
            let v0 ← rd f.values 0
            pure (v0, t0)
          else if r = (f.times.length : Int) - 1 then do
            let vl ← rdLast f.values
            pure (vl, tl)
          else do
            let v ← rdI f.values r
            let t ← rdI f.times r
            pure (v, t) : Py (ℚ × ℚ))
        let g ← f.gradient r
        pure (p.1 + (x - p.2) * g)) := by
      by_cases h1 : r = -1
      · subst h1
        have hg : f.gradient (-1) = .ok f.first := by
          unfold PL.gradient
          rw [pyAssert_true (by omega), ok_bind]
          rfl
        simp only [if_true, hg, ok_bind, bind_assoc, py_pure]
      · rw [if_neg h1, if_neg h1]
        by_cases h2 : r = (f.times.length : Int) - 1
        · have hg : f.gradient r = .ok f.last := by
            unfold PL.gradient
            rw [pyAssert_true (by omega), ok_bind, if_neg h1, if_pos h2]
            rfl
          rw [if_pos h2, if_pos h2]
          simp only [hg, ok_bind, bind_assoc, py_pure]
        · rw [if_neg h2, if_neg h2]
          simp only [bind_assoc, ok_bind, py_pure]
    split
    · simp only [bind_assoc]
      refine congrArg _ (funext fun _ => ?_)
      refine congrArg _ (funext fun _ => ?_)
      refine congrArg _ (funext fun _ => ?_)
      exact key
    · exact key

/-- The caches hold what would be computed. -/
structure CGood (look : Nat → PL) (N : Nat) (c : Caches) : Prop where
  grads : ∀ o i v, ((o, i), v) ∈ c.grads → o < N ∧ (look o).gradient i = .ok v
  evals : ∀ o x r v, ((o, x, r), v) ∈ c.evals → o < N ∧ (look o).evalWithRank x r = .ok v

variable {n : Nat} {look : Nat → PL} {N : Nat}

theorem callGrad_spec {o : Nat} (ho : o < N) (i : Int) {c : Caches} (h : CGood look N c) :
    (callGrad n look o i c).1 = (look o).gradient i ∧ CGood look N (callGrad n look o i c).2 ∧ (callGrad n look o i c).2.comps = c.comps := by
  have keep : ∀ v, (look o).gradient i = .ok v → CGood look N { c with grads := remember n c.grads (o, i) v } := by
    intro v hv
    refine ⟨fun o' i' v' hm => ?_, h.evals⟩
    rcases remember_mem hm with hm | hm
    · injection hm with h1 h2; injection h1 with h1 h3; subst h1; subst h2; subst h3; exact ⟨ho, hv⟩
    · exact h.grads _ _ _ hm
  unfold callGrad
  cases hl : c.grads.lookup (o, i) with
  | some v =>
    have := (h.grads _ _ _ (lookup_in hl)).2
    exact ⟨this.symm, keep v this, rfl⟩
  | none =>
    simp only
    cases hg : (look o).gradient i with
    | ok v => exact ⟨rfl, keep v hg, rfl⟩
    | error e => exact ⟨rfl, h, rfl⟩

theorem callEval_spec {o : Nat} (ho : o < N) (x : ℚ) (r : Int) {c : Caches} (h : CGood look N c) :
    (callEval n look o x r c).1 = (look o).evalWithRank x r ∧ CGood look N (callEval n look o x r c).2 ∧ (callEval n look o x r c).2.comps = c.comps := by
  have keep : ∀ (c : Caches) v, CGood look N c → (look o).evalWithRank x r = .ok v → CGood look N { c with evals := remember n c.evals (o, x, r) v } := by
    intro c v h hv
    refine ⟨h.grads, fun o' x' i' v' hm => ?_⟩
    rcases remember_mem hm with hm | hm
    · injection hm with h1 h2; injection h1 with h1 h3; injection h3 with h3 h4; subst h1; subst h2; subst h3; subst h4; exact ⟨ho, hv⟩
    · exact h.evals _ _ _ _ hm
  unfold callEval
  cases hl : c.evals.lookup (o, x, r) with
  | some v =>
    have := (h.evals _ _ _ _ (lookup_in hl)).2
    exact ⟨this.symm, keep c v h this, rfl⟩
  | none =>
    simp only
    have he := evalWithRank_eq (look o) x r
    cases hp : rankParts (look o) x r with
    | error e => rw [hp] at he; exact ⟨he.symm, h, rfl⟩
    | ok p =>
      rw [hp, ok_bind] at he
      obtain ⟨g1, g2, g3⟩ := callGrad_spec (n := n) ho r h
      obtain ⟨v, t⟩ := p
      simp only
      cases hc : callGrad n look o r c with
      | mk res c' =>
        rw [hc] at g1 g2 g3
        simp only at g1 g2 g3
        rw [← g1] at he
        cases res with
        | error e => exact ⟨he.symm, g2, g3⟩
        | ok g => rw [ok_bind] at he; exact ⟨he.symm, keep c' _ g2 he, g3⟩

theorem cached_spec {α : Type} {os : List Nat} (hos : ∀ o ∈ os, o < N) : ∀ (p : Prog α) {c : Caches}, CGood look N c →
    (p.cached n look os c).1 = p.plain (os.map look) ∧ CGood look N (p.cached n look os c).2 ∧ (p.cached n look os c).2.comps = c.comps := by
  intro p
  induction p with
  | ret r => intro c h; exact ⟨rfl, h, rfl⟩
  | grad a i k ih =>
    intro c h
    unfold Prog.cached Prog.plain
    unfold rd
    rw [List.getElem?_map]
    cases ha : os[a]? with
    | none => exact ⟨rfl, h, rfl⟩
    | some o =>
      obtain ⟨g1, g2, g3⟩ := callGrad_spec (n := n) (hos o (List.mem_of_getElem? ha)) i h
      simp only [Option.map_some, ok_bind]
      cases hc : callGrad n look o i c with
      | mk res c' =>
        rw [hc] at g1 g2 g3
        simp only at g1 g2 g3
        rw [← g1]
        cases res with
        | error e => exact ⟨rfl, g2, g3⟩
        | ok v =>
          rw [ok_bind, ← g3]
          exact ih v g2
  | evalAt a x r k ih =>
    intro c h
    unfold Prog.cached Prog.plain
    unfold rd
    rw [List.getElem?_map]
    cases ha : os[a]? with
    | none => exact ⟨rfl, h, rfl⟩
    | some o =>
      obtain ⟨g1, g2, g3⟩ := callEval_spec (n := n) (hos o (List.mem_of_getElem? ha)) x r h
      simp only [Option.map_some, ok_bind]
      cases hc : callEval n look o x r c with
      | mk res c' =>
        rw [hc] at g1 g2 g3
        simp only at g1 g2 g3
        rw [← g1]
        cases res with
        | error e => exact ⟨rfl, g2, g3⟩
        | ok v =>
          rw [ok_bind, ← g3]
          exact ih v g2

theorem CGood.mono {look' : Nat → PL} {N' : Nat} {c : Caches} (h : CGood look N c) (hN : N ≤ N') (hl : ∀ o < N, look' o = look o) : CGood look' N' c :=
  ⟨fun o i v hm => by obtain ⟨a, b⟩ := h.grads o i v hm; exact ⟨by omega, by rw [hl o a]; exact b⟩,
   fun o x r v hm => by obtain ⟨a, b⟩ := h.evals o x r v hm; exact ⟨by omega, by rw [hl o a]; exact b⟩⟩

/-- The memory stands for the functions held. -/
structure Good (comp : PL → PL → Prog PL) (fam : Nat → Nat) (ext : Nat → Bool) (m : Mem) (vs : List Held) : Prop where
  len : m.vars.length = vs.length
  ref : ∀ (o : Nat) (x : Obj), m.objs[o]? = some x → x.times < m.lists.length ∧ x.values < m.lists.length
  own : ∀ (o o' : Nat) (x x' : Obj), m.objs[o]? = some x → m.objs[o']? = some x' → x.values = x'.values → o = o'
  apart : ∀ (o o' : Nat) (x x' : Obj), m.objs[o]? = some x → m.objs[o']? = some x' → x.times ≠ x'.values
  shared : ∀ (o o' : Nat) (x x' : Obj), m.objs[o]? = some x → m.objs[o']? = some x' → x.times = x'.times → fam o = fam o'
  held : ∀ (i o : Nat) v, m.vars[i]? = some o → vs[i]? = some v → o < m.objs.length ∧ fam o < vs.length ∧ (v.usable = true → m.look o = v.fn) ∧
    (v.extendable = true → ext (fam o) = true ∧ v.family = fam o) ∧ (v.extendable = false → ext (fam o) = false)
  same : ∀ (i j o : Nat), m.vars[i]? = some o → m.vars[j]? = some o → i ≠ j → ext (fam o) = false
  caches : CGood m.look m.objs.length m.caches
  comps : ∀ g f h, ((g, f), h) ∈ m.caches.comps → g < m.objs.length ∧ f < m.objs.length ∧ h < m.objs.length ∧ fam h < vs.length ∧ ext (fam h) = false ∧
    (comp (m.look g) (m.look f)).plain [m.look g, m.look f] = .ok (m.look h)

variable {comp : PL → PL → Prog PL} {fam : Nat → Nat} {ext : Nat → Bool} {m : Mem} {vs : List Held}

/-- The functions at given positions, and their contents. -/
theorem handles_spec (hg : Good comp fam ext m vs) : ∀ {args : List Nat}, Usable vs args →
    (∀ e, handles m.vars args = .error e → handles (vs.map Held.fn) args = .error e) ∧
    ∀ os, handles m.vars args = .ok os → handles (vs.map Held.fn) args = .ok (os.map m.look) ∧ ∀ o ∈ os, o < m.objs.length := by
  intro args
  induction args with
  | nil =>
    intro _
    refine ⟨fun e h => (by cases h), fun os h => ?_⟩
    injection h with h; subst h; exact ⟨rfl, by simp⟩
  | cons a args ih =>
    intro hu
    obtain ⟨ih1, ih2⟩ := ih (fun h hh => hu h (by simp [hh]))
    unfold handles
    unfold rd
    rw [List.getElem?_map]
    cases ha : m.vars[a]? with
    | none =>
      have : vs[a]? = none := by
        rw [List.getElem?_eq_none_iff] at ha ⊢; rw [← hg.len]; exact ha
      rw [this]
      refine ⟨fun e h => ?_, fun os h => (by cases h)⟩
      injection h with h; subst h; rfl
    | some o =>
      obtain ⟨v, hv⟩ : ∃ v, vs[a]? = some v := by
        have := (List.getElem?_eq_some_iff.mp ha).1
        rw [hg.len] at this
        exact ⟨_, List.getElem?_eq_getElem this⟩
      obtain ⟨h1, _, h2, _⟩ := hg.held a o v ha hv
      have h2 := h2 (hu a (by simp) v hv)
      rw [hv]
      simp only [Option.map_some, ok_bind]
      cases hr : handles m.vars args with
      | error e =>
        rw [ih1 e hr]
        refine ⟨fun e h => ?_, fun os h => (by cases h)⟩
        injection h with h; subst h; rfl
      | ok os =>
        obtain ⟨x1, x2⟩ := ih2 os hr
        rw [x1]
        simp only [ok_bind]
        refine ⟨fun e h => (by cases h), fun os' h => ?_⟩
        injection h with h
        subst h
        refine ⟨by rw [← h2]; rfl, ?_⟩
        intro p hp
        rcases List.mem_cons.mp hp with rfl | hp
        · exact h1
        · exact x2 p hp

theorem var_spec (hg : Good comp fam ext m vs) {a : Nat} : (m.vars[a]? = none ∧ vs[a]? = none) ∨
    ∃ o v, m.vars[a]? = some o ∧ vs[a]? = some v := by
  cases ha : m.vars[a]? with
  | none =>
    left
    refine ⟨rfl, ?_⟩
    rw [List.getElem?_eq_none_iff] at ha ⊢; rw [← hg.len]; exact ha
  | some o =>
    right
    have := (List.getElem?_eq_some_iff.mp ha).1
    rw [hg.len] at this
    exact ⟨o, _, rfl, List.getElem?_eq_getElem this⟩

/-- Other caches with contents that are right. -/
theorem Good.recache (hg : Good comp fam ext m vs) {c : Caches} (hc : CGood m.look m.objs.length c) (hcc : c.comps = m.caches.comps) : Good comp fam ext { m with caches := c } vs :=
  ⟨hg.len, hg.ref, hg.own, hg.apart, hg.shared, hg.held, hg.same, hc, by simp only; rw [hcc]; exact hg.comps⟩

theorem look_lt {m m' : Mem} {o : Nat} {x : Obj} (h : m.objs[o]? = some x) (h' : m'.objs[o]? = some x) (hl : m'.lists.getD x.times [] = m.lists.getD x.times [])
    (hv : m'.lists.getD x.values [] = m.lists.getD x.values []) : m'.look o = m.look o := by
  unfold Mem.look
  rw [h, h']
  simp only [hl, hv]

theorem getD_append_lt {α : Type} {l l' : List α} {i : Nat} {d : α} (h : i < l.length) : (l ++ l').getD i d = l.getD i d := by
  rw [List.getD_eq_getElem?_getD, List.getD_eq_getElem?_getD, List.getElem?_append_left h]

/-- The memory after a new object `x` was appended, with new lists `ls`. -/
theorem Good.grow (hg : Good comp fam ext m vs) {x : Obj} {ls : List (List ℚ)} (hv : m.lists.length ≤ x.values ∧ x.values < m.lists.length + ls.length)
    (ht : x.times < m.lists.length + ls.length) (htv : x.times ≠ x.values) {F : Nat} (hF : x.times < m.lists.length → ∀ (o : Nat) (y : Obj), m.objs[o]? = some y → x.times = y.times → fam o = F)
    (hT : ∀ (o : Nat) (y : Obj), m.objs[o]? = some y → x.times ≠ y.values) :
    let m' : Mem := { m with lists := m.lists ++ ls, objs := m.objs ++ [x] }
    (∀ o < m.objs.length, m'.look o = m.look o) ∧
    Good comp (fun o => if o = m.objs.length then F else fam o) ext m' vs := by
  intro m'
  have hold : ∀ (o : Nat) (y : Obj), m.objs[o]? = some y → m'.objs[o]? = some y := fun o y h => by
    show (m.objs ++ [x])[o]? = some y
    rw [List.getElem?_append_left (List.getElem?_eq_some_iff.mp h).1]; exact h
  have hnew : ∀ (o : Nat) (y : Obj), m'.objs[o]? = some y → (m.objs[o]? = some y ∧ o < m.objs.length) ∨ (o = m.objs.length ∧ y = x) := by
    intro o y h
    have h : (m.objs ++ [x])[o]? = some y := h
    rw [List.getElem?_append] at h
    split at h
    · rename_i hlt; exact Or.inl ⟨h, hlt⟩
    · right
      have h0 := (List.getElem?_eq_some_iff.mp h).1
      simp only [List.length_singleton] at h0
      have h1 : o = m.objs.length := by omega
      refine ⟨h1, ?_⟩
      rw [h1] at h
      simpa using h.symm
  have hlook : ∀ o < m.objs.length, m'.look o = m.look o := by
    intro o ho
    have h := List.getElem?_eq_getElem ho
    obtain ⟨r1, r2⟩ := hg.ref o _ h
    exact look_lt h (hold o _ h) (getD_append_lt r1) (getD_append_lt r2)
  have hfam : ∀ o < m.objs.length, (if o = m.objs.length then F else fam o) = fam o := fun o ho => if_neg (by omega)
  refine ⟨hlook, ⟨hg.len, ?_, ?_, ?_, ?_, ?_, ?_, ?_, ?_⟩⟩
  · intro o y h
    show y.times < (m.lists ++ ls).length ∧ y.values < (m.lists ++ ls).length
    rw [List.length_append]
    rcases hnew o y h with ⟨h, _⟩ | ⟨_, rfl⟩
    · have := hg.ref o y h; omega
    · omega
  · intro o o' y y' h h' he
    rcases hnew o y h with ⟨k, hl⟩ | ⟨h1, e1⟩ <;> rcases hnew o' y' h' with ⟨k', hl'⟩ | ⟨h1', e1'⟩
    · exact hg.own o o' y y' k k' he
    · have := (hg.ref o y k).2; rw [he, e1'] at this; omega
    · have := (hg.ref o' y' k').2; rw [← he, e1] at this; omega
    · omega
  · intro o o' y y' h h' he
    rcases hnew o y h with ⟨k, hl⟩ | ⟨h1, e1⟩ <;> rcases hnew o' y' h' with ⟨k', hl'⟩ | ⟨h1', e1'⟩
    · exact hg.apart o o' y y' k k' he
    · have := (hg.ref o y k).1; rw [he, e1'] at this; omega
    · exact hT o' y' k' (by rw [← e1]; exact he)
    · exact htv (by rw [e1, e1'] at he; exact he)
  · intro o o' y y' h h' he
    show (if o = m.objs.length then F else fam o) = (if o' = m.objs.length then F else fam o')
    rcases hnew o y h with ⟨k, hl⟩ | ⟨h1, e1⟩ <;> rcases hnew o' y' h' with ⟨k', hl'⟩ | ⟨h1', e1'⟩
    · rw [hfam o hl, hfam o' hl']; exact hg.shared o o' y y' k k' he
    · rw [hfam o hl, if_pos h1']
      rw [e1'] at he
      exact hF (by have := (hg.ref o y k).1; omega) o y k he.symm
    · rw [hfam o' hl', if_pos h1]
      rw [e1] at he
      exact (hF (by have := (hg.ref o' y' k').1; omega) o' y' k' he).symm
    · rw [if_pos h1, if_pos h1']
  · intro i o v hi hv
    obtain ⟨a1, a2, a3, a4, a5⟩ := hg.held i o v hi hv
    simp only [hfam o a1]
    refine ⟨?_, a2, fun hu => ?_, a4, a5⟩
    · show o < (m.objs ++ [x]).length
      simp only [List.length_append, List.length_singleton]; omega
    · rw [hlook o a1]; exact a3 hu
  · intro i j o hi hj hij
    have := hg.same i j o hi hj hij
    obtain ⟨_, v, _, hv⟩ := (var_spec hg (a := i)).resolve_left (fun h => by rw [h.1] at hi; cases hi)
    rw [hfam o (hg.held i o v hi hv).1]; exact this
  · refine hg.caches.mono ?_ hlook
    show m.objs.length ≤ (m.objs ++ [x]).length
    simp
  · intro g f h hm
    obtain ⟨a1, a2, a3, a4, a5, a6⟩ := hg.comps g f h hm
    have hle : m.objs.length ≤ m'.objs.length := by
      show m.objs.length ≤ (m.objs ++ [x]).length
      simp
    simp only [hfam h a3]
    refine ⟨by omega, by omega, by omega, a4, a5, ?_⟩
    rw [hlook g a1, hlook f a2, hlook h a3]
    exact a6

/-- The program got function `o`. -/
theorem Good.push (hg : Good comp fam ext m vs) {o : Nat} {v : Held} (ho : o < m.objs.length) (hf : fam o < vs.length + 1) (hu : v.usable = true → m.look o = v.fn)
    (hx : v.extendable = true → ext (fam o) = true ∧ v.family = fam o) (hx' : v.extendable = false → ext (fam o) = false)
    (hs : o ∈ m.vars → ext (fam o) = false) : Good comp fam ext { m with vars := m.vars ++ [o] } (vs ++ [v]) := by
  have hvar : ∀ (i p : Nat), (m.vars ++ [o])[i]? = some p → (m.vars[i]? = some p) ∨ (i = vs.length ∧ p = o) := by
    intro i p h
    rw [List.getElem?_append] at h
    split at h
    · exact Or.inl h
    · right
      have h0 := (List.getElem?_eq_some_iff.mp h).1
      simp only [List.length_singleton] at h0
      have h1 : i = m.vars.length := by omega
      rw [h1] at h
      refine ⟨by rw [h1, hg.len], by simpa using h.symm⟩
  refine ⟨by simp [hg.len], hg.ref, hg.own, hg.apart, hg.shared, ?_, ?_, hg.caches, ?_⟩
  · intro i p w hi hw
    rw [List.length_append]
    rcases hvar i p hi with hi | ⟨hi, hp⟩
    · have hil : i < vs.length := by rw [← hg.len]; exact (List.getElem?_eq_some_iff.mp hi).1
      rw [List.getElem?_append_left hil] at hw
      obtain ⟨a1, a2, a3⟩ := hg.held i p w hi hw
      exact ⟨a1, by omega, a3⟩
    · subst hi; subst hp
      rw [List.getElem?_append_right (by omega)] at hw
      simp only [Nat.sub_self, List.getElem?_cons_zero, Option.some.injEq] at hw
      subst hw
      exact ⟨ho, by simpa using hf, hu, hx, hx'⟩
  · intro i j p hi hj hij
    rcases hvar i p hi with ki | ⟨ki, kp⟩ <;> rcases hvar j p hj with kj | ⟨kj, kp'⟩
    · exact hg.same i j p ki kj hij
    · rw [kp'] at ki ⊢; exact hs (List.mem_of_getElem? ki)
    · rw [kp] at kj ⊢; exact hs (List.mem_of_getElem? kj)
    · omega
  · intro g f h hm
    obtain ⟨a1, a2, a3, a4, a5⟩ := hg.comps g f h hm
    rw [List.length_append]
    exact ⟨a1, a2, a3, by omega, a5⟩

end Verif.Caching
