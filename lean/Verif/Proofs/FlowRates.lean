import Verif.Model.FlowRates
import Verif.Proofs.RC
import Verif.Proofs.PLPiece

/-! Proofs about src/core/flow_rates_collection.py. -/

namespace Verif
open Spec

theorem bind_eq_ok {α β : Type _} {x : Py α} {f : α → Py β} {b : β} : (x >>= f) = .ok b ↔ ∃ a, x = .ok a ∧ f a = .ok b := by
  cases x with
  | error e => simp
  | ok a => simp

theorem Spec.Later.trans {a b c : ℚ} (h1 : Later eps a b) (h2 : Later eps b c) : Later eps a c := by
  have := eps_pos
  rcases h1 with rfl | h1
  · exact h2
  · rcases h2 with rfl | h2
    · exact Or.inr h1
    · right; linarith

theorem Spec.Later.le {a b : ℚ} (h : Later eps a b) : a ≤ b := by
  have := eps_pos
  rcases h with rfl | h
  · exact le_rfl
  · linarith

theorem Spec.Later.refl (a : ℚ) : Later eps a a := Or.inl rfl

namespace RC

/-- A step function from 0 to infinity whose last break point is separated from `L` and whose last
value is `v`. -/
structure Good (f : RC) (L v : ℚ) : Prop where
  wf : f.WF
  lo : f.lo = ((0 : ℚ) : WithBot ℚ)
  hi : f.hi = ⊤
  head : f.times[0]'wf.pos = 0
  last : Later eps (f.times.getLast wf.ne) L
  val : f.values.getLast wf.vne = v

theorem Good.later {f : RC} {L t v : ℚ} (h : f.Good L v) (ht : Later eps L t) : f.Good t v :=
  { h with last := h.last.trans ht }

theorem Good.fn_after {f : RC} {L v x : ℚ} (h : f.Good L v) (hx : L ≤ x) : f.fn x = v := by
  rw [fn_last h.wf (le_trans h.last.le hx), h.val]

theorem Good.inDom {f : RC} {L v x : ℚ} (h : f.Good L v) (hx : 0 ≤ x) : f.inDom x := by
  unfold RC.inDom; rw [h.lo, h.hi]
  exact ⟨WithBot.coe_le_coe.mpr hx, le_top⟩

theorem Good.extend {f : RC} {L v t w : ℚ} (h : f.Good L v) (ht : Later eps L t) (hw : Far eps v w) :
    ∃ g, f.extend t w = .ok g ∧ g.Good t w ∧ (∀ x, 0 ≤ x → g.fn x = if x < t then f.fn x else w) ∧
      (∀ x ∈ g.times, x ∈ f.times ∨ x = t) := by
  have hep := eps_pos
  have hlt := h.last.trans ht
  by_cases hv : |f.values.getLast h.wf.vne - w| ≤ eps
  · have e : w = v := by
      rcases hw with e | e
      · exact e
      · rw [h.val] at hv; exact absurd hv (not_le.mpr e)
    refine ⟨f, extend_early h.wf (by have := hlt.le; linarith) hv, ?_, ?_, fun x hx => Or.inl hx⟩
    · rw [e]; exact h.later ht
    · intro x hx
      split
      · rfl
      · rename_i hc
        rw [e]; exact h.fn_after (le_trans ht.le (not_lt.mp hc))
  · rcases hlt with e | e
    · obtain ⟨g, he, hgw, ht', hlo, hhi, h1, h2⟩ := extend_replace h.wf e hv
      refine ⟨g, he, ⟨hgw, by rw [hlo, h.lo], by rw [hhi, h.hi], ?_, ?_, ?_⟩, ?_, fun x hx => Or.inl (by rwa [ht'] at hx)⟩
      · simp only [ht', h.head]
      · left; simp only [ht', e]
      · have := h2 t le_rfl
        rwa [fn_last hgw (by simp only [ht', e]; exact le_rfl)] at this
      · intro x hx
        split
        · rename_i hc; exact h1 x (by rw [h.head]; exact hx) hc
        · rename_i hc; exact h2 x (not_lt.mp hc)
    · obtain ⟨g, he, hgw, ht', hlo, hhi, h1, h2⟩ := extend_append h.wf e (by rw [h.hi]; exact le_top) hv
      refine ⟨g, he, ⟨hgw, by rw [hlo, h.lo], by rw [hhi, h.hi], ?_, ?_, ?_⟩, ?_, fun x hx => by rw [ht'] at hx; simpa using hx⟩
      · simp only [ht']
        rw [List.getElem_append_left h.wf.pos, h.head]
      · left; simp only [ht', List.getLast_append_singleton]
      · have := h2 t le_rfl
        rwa [fn_last hgw (by simp only [ht', List.getLast_append_singleton]; exact le_rfl)] at this
      · intro x hx
        split
        · rename_i hc; exact h1 x hc
        · rename_i hc; exact h2 x (not_lt.mp hc)

end RC

namespace PL

/-- A piecewise linear function whose last break point is separated from `L` and whose last slope is
`m`. -/
structure Good (f : PL) (L m : ℚ) : Prop where
  wf : f.WF
  hi : f.hi = ⊤
  last : Later eps (f.times.getLast wf.ne) L
  slope : f.last = m

theorem Good.later {f : PL} {L t v : ℚ} (h : f.Good L v) (ht : Later eps L t) : f.Good t v :=
  { h with last := h.last.trans ht }

theorem Good.fn_after {f : PL} {L m x y : ℚ} (h : f.Good L m) (hx : L ≤ x) (hy : L ≤ y) :
    f.fn x = f.fn y + m * (x - y) := by
  rw [← h.slope]
  exact fn_right_aff h.wf (fun t ht => le_trans (le_trans (le_getLast h.wf.lt h.wf.ne ht) h.last.le) hx)
    (fun t ht => le_trans (le_trans (le_getLast h.wf.lt h.wf.ne ht) h.last.le) hy)

theorem Good.extend {f : PL} {L m t w : ℚ} (h : f.Good L m) (ht : Later eps L t) (hw : Far eps m w) :
    ∃ g, f.extendWithSlope t w = .ok g ∧ g.Good t w ∧ g.lo = f.lo ∧ (∀ x, g.fn x = ext f.fn t w x) ∧
      (∀ x ∈ g.times, x ∈ f.times ∨ x = t) ∧ (w ≠ m → g.times.getLast? = some t) ∧ g.first = f.first ∧
      (∀ x ∈ f.times, x ∈ g.times) := by
  obtain ⟨g, he, hgw, hlo, hhi, hfi, hfn, hl, hm1, hm2, hm3, hm4⟩ := extend_fn h.wf (s := t) (m := w)
    (by rw [h.hi]; exact le_top) (h.last.trans ht) (by rw [h.slope]; exact hw)
  have hlast : w ≠ m → g.times.getLast hgw.ne = t := by
    intro e
    rw [← h.slope] at e
    have hmem := hm4 e
    have hge := le_getLast hgw.lt hgw.ne hmem
    rcases hm1 _ (List.getLast_mem hgw.ne) with h1 | h1
    · have := le_getLast h.wf.lt h.wf.ne h1
      have := (h.last.trans ht).le
      linarith
    · exact h1
  refine ⟨g, he, ⟨hgw, by rw [hhi, h.hi], ?_, hl⟩, hlo, hfn, hm1, ?_, hfi, hm2⟩
  · by_cases e : w = f.last
    · have := hm3 e; subst this
      exact h.last.trans ht
    · left; rw [hlast (by rw [← h.slope]; exact e)]
  · intro e; rw [List.getLast?_eq_some_getLast hgw.ne, hlast e]

end PL

namespace Rates

/-- A valid dict of rates: distinct keys, positive values. -/
structure Ok (v : Rates) : Prop where
  nodup : (v.map Prod.fst).Nodup
  pos : ∀ p ∈ v, 0 < p.2

theorem lookup_mem {v : Rates} {i : Nat} {x : ℚ} (h : v.lookup i = some x) : (i, x) ∈ v := by
  induction v with
  | nil => simp at h
  | cons p v ih =>
    obtain ⟨j, y⟩ := p
    rw [List.lookup_cons] at h
    by_cases hij : i = j
    · subst hij; simp at h; subst h; simp
    · have : (i == j) = false := by simpa using hij
      rw [this] at h; exact List.mem_cons_of_mem _ (ih h)

theorem mem_lookup {v : Rates} (hn : (v.map Prod.fst).Nodup) {i : Nat} {x : ℚ} (h : (i, x) ∈ v) :
    v.lookup i = some x := by
  induction v with
  | nil => simp at h
  | cons p v ih =>
    obtain ⟨j, y⟩ := p
    rw [List.map_cons, List.nodup_cons] at hn
    rw [List.lookup_cons]
    rcases List.mem_cons.mp h with e | h'
    · injection e with e1 e2; subst e1; subst e2; simp
    · have : i ≠ j := by
        intro e
        exact hn.1 (List.mem_map.mpr ⟨(i, x), h', e⟩)
      have : (i == j) = false := by simpa using this
      rw [this]; exact ih hn.2 h'

theorem get_mem {v : Rates} (hn : (v.map Prod.fst).Nodup) {i : Nat} {x : ℚ} (h : (i, x) ∈ v) : v.get i = x := by
  unfold get; rw [mem_lookup hn h]; rfl

theorem has_iff {v : Rates} {i : Nat} : v.has i = true ↔ ∃ x, (i, x) ∈ v := by
  unfold has
  constructor
  · intro h
    obtain ⟨x, hx⟩ := Option.isSome_iff_exists.mp h
    exact ⟨x, lookup_mem hx⟩
  · rintro ⟨x, hx⟩
    by_contra hc
    have : v.lookup i = none := Option.not_isSome_iff_eq_none.mp hc
    rw [List.lookup_eq_none_iff] at this
    have := this (i, x) hx
    simp at this

theorem get_of_not_has {v : Rates} {i : Nat} (h : ¬ v.has i = true) : v.get i = 0 := by
  unfold has at h; unfold get
  have : v.lookup i = none := Option.not_isSome_iff_eq_none.mp h
  rw [this]; rfl

theorem has_of_mem {v : Rates} {i : Nat} {x : ℚ} (h : (i, x) ∈ v) : v.has i = true := has_iff.mpr ⟨x, h⟩

theorem get_nonneg {v : Rates} (h : v.Ok) (i : Nat) : 0 ≤ v.get i := by
  by_cases hh : v.has i = true
  · obtain ⟨x, hx⟩ := has_iff.mp hh
    rw [get_mem h.nodup hx]; exact le_of_lt (h.pos _ hx)
  · rw [get_of_not_has hh]

end Rates

namespace FRC

/-- The rate of commodity `i` at `x`. -/
def rate (d : Nat → Option RC) (i : Nat) (x : ℚ) : ℚ :=
  match d i with
  | none => 0
  | some f => f.fn x

/-- Entry `i` of the dict is a good function with last value `v`, or absent with `v = 0`. -/
def GoodAt (d : Nat → Option RC) (i : Nat) (L v : ℚ) : Prop :=
  (∀ f, d i = some f → f.Good L v) ∧ (d i = none → v = 0)

theorem newFn_good : ∃ f, newFn = .ok f ∧ f.Good 0 0 ∧ ∀ x, 0 ≤ x → f.fn x = 0 := by
  have hw : RC.WF ⟨[0], [0], ((0 : ℚ) : WithBot ℚ), ⊤⟩ := ⟨by decide, by decide, by decide, by decide +kernel⟩
  have hg : RC.Good ⟨[0], [0], ((0 : ℚ) : WithBot ℚ), ⊤⟩ 0 0 := ⟨hw, rfl, rfl, rfl, Or.inl rfl, rfl⟩
  exact ⟨_, RC.new_ok hw, hg, fun x hx => hg.fn_after hx⟩

theorem extend_entry {d : Nat → Option RC} {i : Nat} {L v t w : ℚ} (hg : GoodAt d i L v) (h0 : Later eps 0 L)
    (ht : Later eps L t) (hw : Far eps v w) :
    ∃ f g, entry d i = .ok f ∧ f.extend t w = .ok g ∧ g.Good t w ∧
      ∀ x, 0 ≤ x → g.fn x = if x < t then rate d i x else w := by
  unfold rate entry
  cases hd : d i with
  | none =>
    have hv := hg.2 hd
    obtain ⟨f, e, hf, hz⟩ := newFn_good
    obtain ⟨g, e2, hg2, hfn, _⟩ := hf.extend (h0.trans ht) (by rw [← hv]; exact hw)
    refine ⟨f, g, e, e2, hg2, ?_⟩
    intro x hx; rw [hfn x hx, hz x hx]
  | some f =>
    obtain ⟨g, e2, hg2, hfn, _⟩ := (hg.1 f hd).extend ht hw
    exact ⟨f, g, rfl, e2, hg2, hfn⟩

theorem extendLoop_ok {L t : ℚ} (h0 : Later eps 0 L) (ht : Later eps L t) (V : Nat → ℚ) :
    ∀ (vs : Rates) (d : Nat → Option RC), (vs.map Prod.fst).Nodup →
      (∀ p ∈ vs, GoodAt d p.1 L (V p.1) ∧ Far eps (V p.1) p.2) →
      ∃ d', extendLoop t vs d = .ok d' ∧ (∀ j, vs.has j = false → d' j = d j) ∧
        ∀ p ∈ vs, ∃ g, d' p.1 = some g ∧ g.Good t p.2 ∧ ∀ x, 0 ≤ x → g.fn x = if x < t then rate d p.1 x else p.2 := by
  intro vs
  induction vs with
  | nil => intro d _ _; exact ⟨d, rfl, fun _ _ => rfl, by simp⟩
  | cons p vs ih =>
    obtain ⟨i, v⟩ := p
    intro d hn hg
    rw [List.map_cons, List.nodup_cons] at hn
    obtain ⟨hgi, hfar⟩ := hg (i, v) (by simp)
    obtain ⟨f, g, e1, e2, hgood, hfn⟩ := extend_entry hgi h0 ht hfar
    have hne : ∀ p ∈ vs, p.1 ≠ i := by
      rintro p hp rfl; exact hn.1 (List.mem_map.mpr ⟨p, hp, rfl⟩)
    have hput : ∀ j, j ≠ i → put d i g j = d j := by intro j hj; simp [put, hj]
    obtain ⟨d', e3, hsame, hnew⟩ := ih (put d i g) hn.2 (by
      intro p hp
      have hpi := hne p hp
      obtain ⟨a, b⟩ := hg p (by simp [hp])
      refine ⟨?_, b⟩
      unfold GoodAt at *
      rw [hput _ hpi]; exact a)
    refine ⟨d', ?_, ?_, ?_⟩
    · simp only [extendLoop]
      rw [e1, ok_bind, e2, ok_bind, e3]
    · intro j hj
      have hji : j ≠ i := by
        rintro rfl
        have : Rates.has ((j, v) :: vs) j = true := Rates.has_iff.mpr ⟨v, by simp⟩
        rw [this] at hj; cases hj
      have hj' : Rates.has vs j = false := by
        by_contra hc
        obtain ⟨x, hx⟩ := Rates.has_iff.mp (by simpa using hc)
        have : Rates.has ((i, v) :: vs) j = true := Rates.has_iff.mpr ⟨x, by simp [hx]⟩
        rw [this] at hj; cases hj
      rw [hsame j hj', hput j hji]
    · intro p hp
      rcases List.mem_cons.mp hp with rfl | hp
      · have hi : Rates.has vs i = false := by
          by_contra hc
          obtain ⟨x, hx⟩ := Rates.has_iff.mp (by simpa using hc)
          exact hne _ hx rfl
        refine ⟨g, ?_, hgood, hfn⟩
        simp only
        rw [hsame i hi]; simp [put]
      · obtain ⟨g', a, b, c⟩ := hnew p hp
        refine ⟨g', a, b, ?_⟩
        intro x hx
        rw [c x hx]
        unfold rate
        rw [hput _ (hne p hp)]

theorem dropLoop_ok {L t : ℚ} (ht : Later eps L t) (V : Nat → ℚ) (values : Rates) :
    ∀ (vs : Rates) (d : Nat → Option RC), (vs.map Prod.fst).Nodup →
      (∀ p ∈ vs, values.has p.1 = false → (∃ f, d p.1 = some f ∧ f.Good L (V p.1)) ∧ Far eps (V p.1) 0) →
      ∃ d', dropLoop t values vs d = .ok d' ∧ (∀ j, (vs.has j = false ∨ values.has j = true) → d' j = d j) ∧
        ∀ p ∈ vs, values.has p.1 = false → ∃ g, d' p.1 = some g ∧ g.Good t 0 ∧
          ∀ x, 0 ≤ x → g.fn x = if x < t then rate d p.1 x else 0 := by
  intro vs
  induction vs with
  | nil => intro d _ _; exact ⟨d, rfl, fun _ _ => rfl, by simp⟩
  | cons p vs ih =>
    obtain ⟨i, v⟩ := p
    intro d hn hg
    rw [List.map_cons, List.nodup_cons] at hn
    have hne : ∀ p ∈ vs, p.1 ≠ i := by
      rintro p hp rfl; exact hn.1 (List.mem_map.mpr ⟨p, hp, rfl⟩)
    have hcons : ∀ j, Rates.has ((i, v) :: vs) j = false → j ≠ i ∧ Rates.has vs j = false := by
      intro j hj
      constructor
      · rintro rfl
        have : Rates.has ((j, v) :: vs) j = true := Rates.has_iff.mpr ⟨v, by simp⟩
        rw [this] at hj; cases hj
      · by_contra hc
        obtain ⟨x, hx⟩ := Rates.has_iff.mp (by simpa using hc)
        have : Rates.has ((i, v) :: vs) j = true := Rates.has_iff.mpr ⟨x, by simp [hx]⟩
        rw [this] at hj; cases hj
    have hivs : Rates.has vs i = false := by
      by_contra hc
      obtain ⟨x, hx⟩ := Rates.has_iff.mp (by simpa using hc)
      exact hne _ hx rfl
    by_cases hv : values.has i = true
    · obtain ⟨d', e3, hsame, hnew⟩ := ih d hn.2 (fun p hp => hg p (by simp [hp]))
      refine ⟨d', ?_, ?_, ?_⟩
      · simp only [dropLoop]; rw [if_pos hv, e3]
      · intro j hj
        refine hsame j ?_
        rcases hj with hj | hj
        · exact Or.inl (hcons j hj).2
        · exact Or.inr hj
      · intro p hp hpv
        rcases List.mem_cons.mp hp with rfl | hp
        · simp only at hpv; rw [hv] at hpv; cases hpv
        · exact hnew p hp hpv
    · have hv' : values.has i = false := by simpa using hv
      obtain ⟨⟨f, hd, hf⟩, hfar⟩ := hg (i, v) (by simp) hv'
      obtain ⟨g, e2, hgood, hfn, _⟩ := hf.extend ht hfar
      have hput : ∀ j, j ≠ i → put d i g j = d j := by intro j hj; simp [put, hj]
      obtain ⟨d', e3, hsame, hnew⟩ := ih (put d i g) hn.2 (by
        intro p hp hpv
        rw [hput _ (hne p hp)]
        exact hg p (by simp [hp]) hpv)
      refine ⟨d', ?_, ?_, ?_⟩
      · simp only [dropLoop]
        simp only at hd
        rw [if_neg hv, hd]
        simp only
        rw [e2, ok_bind, e3]
      · intro j hj
        rcases hj with hj | hj
        · obtain ⟨h1, h2⟩ := hcons j hj
          rw [hsame j (Or.inl h2), hput j h1]
        · have hji : j ≠ i := by rintro rfl; rw [hv'] at hj; cases hj
          rw [hsame j (Or.inr hj), hput j hji]
      · intro p hp hpv
        rcases List.mem_cons.mp hp with rfl | hp
        · refine ⟨g, ?_, hgood, ?_⟩
          · simp only
            rw [hsame i (Or.inl hivs)]; simp [put]
          · intro x hx
            rw [hfn x hx]
            unfold rate
            simp only at hd ⊢
            rw [hd]
        · obtain ⟨g', a, b, c⟩ := hnew p hp hpv
          refine ⟨g', a, b, ?_⟩
          intro x hx
          rw [c x hx]
          unfold rate
          rw [hput _ (hne p hp)]

/-- All break points lie in `H`, all values are non-negative. -/
def Within (d : Nat → Option RC) (H : List ℚ) : Prop := (∃ N : Nat, ∀ i, N ≤ i → d i = none) ∧ ∀ i f, d i = some f → (∀ x ∈ f.times, x ∈ H) ∧ ∀ v ∈ f.values, 0 ≤ v

theorem extend_mem {f g : RC} {t v : ℚ} (h : f.extend t v = .ok g) : (∀ x ∈ g.times, x ∈ f.times ∨ x = t) ∧ ∀ w ∈ g.values, w ∈ f.values ∨ w = v := by
  unfold RC.extend at h
  obtain ⟨_, _, h⟩ := bind_eq_ok.mp h
  obtain ⟨_, _, h⟩ := bind_eq_ok.mp h
  obtain ⟨_, _, h⟩ := bind_eq_ok.mp h
  split at h
  · injection h with h; subst h; exact ⟨fun x hx => .inl hx, fun x hx => .inl hx⟩
  · split at h
    · injection h with h; subst h
      refine ⟨fun x hx => .inl hx, fun w hw => ?_⟩
      rcases List.mem_append.mp hw with h1 | h1
      · exact .inl (List.dropLast_subset _ h1)
      · exact .inr (List.mem_singleton.mp h1)
    · injection h with h; subst h
      constructor
      · intro x hx
        rcases List.mem_append.mp hx with h1 | h1
        · exact .inl h1
        · exact .inr (List.mem_singleton.mp h1)
      · intro w hw
        rcases List.mem_append.mp hw with h1 | h1
        · exact .inl h1
        · exact .inr (List.mem_singleton.mp h1)

theorem Within.put {d : Nat → Option RC} {H : List ℚ} (h : Within d H) {i : Nat} {g : RC} (h1 : ∀ x ∈ g.times, x ∈ H) (h2 : ∀ v ∈ g.values, 0 ≤ v) :
    Within (put d i g) H := by
  obtain ⟨N, hN⟩ := h.1
  refine ⟨⟨max N (i + 1), fun j hj => ?_⟩, ?_⟩
  · unfold FRC.put
    have := le_max_left N (i + 1)
    have := le_max_right N (i + 1)
    rw [if_neg (by omega)]
    exact hN j (by omega)
  intro j f hf
  unfold FRC.put at hf
  split at hf
  · injection hf with hf; subst hf; exact ⟨h1, h2⟩
  · exact h.2 j f hf

theorem extendLoop_within {t : ℚ} {H : List ℚ} (h0 : (0 : ℚ) ∈ H) (ht : t ∈ H) : ∀ (vs : Rates) (d d' : Nat → Option RC), (∀ p ∈ vs, 0 < p.2) → Within d H →
    extendLoop t vs d = .ok d' → Within d' H := by
  intro vs
  induction vs with
  | nil => intro d d' _ hd h; injection h with h; subst h; exact hd
  | cons p vs ih =>
    obtain ⟨i, v⟩ := p
    intro d d' hp hd h
    unfold extendLoop at h
    obtain ⟨f, hf, h⟩ := bind_eq_ok.mp h
    obtain ⟨g, hg, h⟩ := bind_eq_ok.mp h
    have hfw : (∀ x ∈ f.times, x ∈ H) ∧ ∀ v ∈ f.values, 0 ≤ v := by
      unfold entry at hf
      cases hdi : d i with
      | none =>
        rw [hdi] at hf
        obtain ⟨f', e, _⟩ := newFn_good
        have e' : newFn = .ok ⟨[0], [0], ((0 : ℚ) : WithBot ℚ), ⊤⟩ := by decide +kernel
        simp only at hf
        rw [e'] at hf; injection hf with hf; subst hf
        exact ⟨by simpa using h0, by simp⟩
      | some f' =>
        rw [hdi] at hf; injection hf with hf; subst hf
        exact hd.2 i f' hdi
    obtain ⟨m1, m2⟩ := extend_mem hg
    refine ih _ d' (fun q hq => hp q (by simp [hq])) (hd.put (fun x hx => ?_) (fun w hw => ?_)) h
    · rcases m1 x hx with h1 | rfl
      · exact hfw.1 x h1
      · exact ht
    · rcases m2 w hw with h1 | rfl
      · exact hfw.2 w h1
      · exact le_of_lt (hp (i, w) (by simp))

theorem dropLoop_within {t : ℚ} {H : List ℚ} (ht : t ∈ H) (values : Rates) : ∀ (vs : Rates) (d d' : Nat → Option RC), Within d H →
    dropLoop t values vs d = .ok d' → Within d' H := by
  intro vs
  induction vs with
  | nil => intro d d' hd h; injection h with h; subst h; exact hd
  | cons p vs ih =>
    obtain ⟨i, v⟩ := p
    intro d d' hd h
    unfold dropLoop at h
    split at h
    · exact ih d d' hd h
    · cases hdi : d i with
      | none => rw [hdi] at h; cases h
      | some f =>
        rw [hdi] at h
        obtain ⟨g, hg, h⟩ := bind_eq_ok.mp h
        obtain ⟨m1, m2⟩ := extend_mem hg
        refine ih _ d' (hd.put (fun x hx => ?_) (fun w hw => ?_)) h
        · rcases m1 x hx with h1 | rfl
          · exact (hd.2 i f hdi).1 x h1
          · exact ht
        · rcases m2 w hw with h1 | rfl
          · exact (hd.2 i f hdi).2 w h1
          · exact le_refl 0

/-- The rate of the last item not later than `x`. -/
def qRate (q : List FRItem) (i : Nat) (x : ℚ) : ℚ :=
  match (q.filter (fun it => decide (it.time ≤ x))).getLast? with
  | none => 0
  | some it => it.values.get i

theorem qRate_snoc (q : List FRItem) (it : FRItem) (i : Nat) (x : ℚ) :
    qRate (q ++ [it]) i x = if x < it.time then qRate q i x else it.values.get i := by
  unfold qRate
  rw [List.filter_append]
  by_cases ht : x < it.time
  · rw [if_pos ht, List.filter_cons_of_neg (by simpa using ht)]
    simp
  · rw [if_neg ht, List.filter_cons_of_pos (by simpa using not_lt.mp ht)]
    simp

/-- The invariant of a collection: last extension at `L` with rates `V` and sum `R`, all tolerances
clear. -/
structure Good (c : FRC) (L : ℚ) (V : Rates) (R : ℚ) : Prop where
  start : Later eps 0 L
  acc : c.acc.Good L R
  accLo : c.acc.lo = ((0 : ℚ) : WithBot ℚ)
  accZero : c.acc.fn 0 = 0
  zero : (0 : ℚ) ∈ c.acc.times
  ok : V.Ok
  funs : ∀ i, GoodAt c.funs i L (V.get i)
  tail : c.queue.getLast? = some ⟨L, V⟩
  hist : ∃ pre, ∀ i x, 0 ≤ x → rate c.funs i x = qRate (pre ++ c.queue) i x
  items : ∀ it ∈ c.queue, it.values.Ok
  sorted : c.queue.Pairwise (fun a b => a.time ≤ b.time)
  chain : ∃ H : List ℚ, (∀ a ∈ H, Later eps a L) ∧ Apart eps H ∧ (0 : ℚ) ∈ H ∧ Within c.funs H

theorem Good.le_tail {c : FRC} {L R : ℚ} {V : Rates} (h : c.Good L V R) : ∀ it ∈ c.queue, it.time ≤ L := by
  intro it hit
  have hne : c.queue ≠ [] := List.ne_nil_of_mem hit
  have h1 := h.tail
  rw [List.getLast?_eq_some_getLast hne] at h1
  injection h1 with h1
  have h2 := h.sorted
  rw [← List.dropLast_append_getLast hne, List.pairwise_append] at h2
  rw [← List.dropLast_append_getLast hne] at hit
  rcases List.mem_append.mp hit with h3 | h3
  · have := h2.2.2 it h3 (c.queue.getLast hne) (by simp)
    rw [h1] at this; exact this
  · rw [List.mem_singleton.mp h3, h1]

theorem Good.extend {c : FRC} {L t R s : ℚ} {V vs : Rates} (h : c.Good L V R) (ht : Later eps L t)
    (hok : vs.Ok) (hs : Far eps R s) (hfar : ∀ i, Far eps (V.get i) (vs.get i)) :
    ∃ c', c.extend t vs s = .ok c' ∧ c'.Good t vs s ∧ (∀ x, c'.acc.fn x = PL.ext c.acc.fn t s x) ∧
      (∀ i x, 0 ≤ x → rate c'.funs i x = if x < t then rate c.funs i x else vs.get i) ∧
      c'.queue = c.queue ++ [⟨t, vs⟩] ∧ (∀ x ∈ c'.acc.times, x ∈ c.acc.times ∨ x = t) := by
  have hep := eps_pos
  obtain ⟨d1, e1, same1, new1⟩ := extendLoop_ok h.start ht (fun i => V.get i) vs c.funs hok.nodup (by
    intro p hp
    refine ⟨h.funs p.1, ?_⟩
    have := hfar p.1
    rwa [Rates.get_mem hok.nodup (show (p.1, p.2) ∈ vs from hp)] at this)
  obtain ⟨d2, e2, same2, new2⟩ := dropLoop_ok ht (fun i => V.get i) vs V d1 h.ok.nodup (by
    intro p hp hpv
    have hV := Rates.get_mem h.ok.nodup (show (p.1, p.2) ∈ V from hp)
    have hpos := h.ok.pos p hp
    have hg := h.funs p.1
    constructor
    · rw [same1 p.1 hpv]
      cases hd : c.funs p.1 with
      | none => have := hg.2 hd; rw [hV] at this; linarith
      | some f => exact ⟨f, rfl, hg.1 f hd⟩
    · have := hfar p.1
      rwa [Rates.get_of_not_has (v := vs) (by simpa using hpv)] at this)
  obtain ⟨acc, e3, hacc, hlo, hfn, hmem, _, _, hkeep⟩ := h.acc.extend ht hs
  have hrate : ∀ i, GoodAt d2 i t (vs.get i) ∧
      ∀ x, 0 ≤ x → rate d2 i x = if x < t then rate c.funs i x else vs.get i := by
    intro i
    by_cases h1 : vs.has i = true
    · obtain ⟨v, hv⟩ := Rates.has_iff.mp h1
      obtain ⟨g, a, b, cc⟩ := new1 (i, v) hv
      have hd2 : d2 i = some g := by rw [same2 i (Or.inr h1)]; exact a
      have hgv := Rates.get_mem hok.nodup hv
      rw [hgv]
      refine ⟨⟨fun f hf => ?_, fun hn => ?_⟩, ?_⟩
      · rw [hd2] at hf; injection hf with hf; subst hf; exact b
      · rw [hd2] at hn; cases hn
      · intro x hx
        unfold rate; rw [hd2]
        exact cc x hx
    · have h1' : vs.has i = false := by simpa using h1
      rw [Rates.get_of_not_has h1]
      by_cases h2 : V.has i = true
      · obtain ⟨v, hv⟩ := Rates.has_iff.mp h2
        obtain ⟨g, a, b, cc⟩ := new2 (i, v) hv h1'
        simp only at a
        refine ⟨⟨fun f hf => ?_, fun hn => ?_⟩, ?_⟩
        · rw [a] at hf; injection hf with hf; subst hf; exact b
        · rfl
        · intro x hx
          have := cc x hx
          unfold rate at this ⊢
          rw [a]
          simp only at this ⊢
          rw [this, same1 i h1']
      · have hd2 : d2 i = c.funs i := by
          rw [same2 i (Or.inl (by simpa using h2)), same1 i h1']
        have hg := h.funs i
        rw [Rates.get_of_not_has h2] at hg
        refine ⟨⟨fun f hf => ?_, fun _ => rfl⟩, ?_⟩
        · rw [hd2] at hf; exact (hg.1 f hf).later ht
        · intro x hx
          unfold rate; rw [hd2]
          split
          · split <;> rfl
          · rename_i f hf
            split
            · rfl
            · rename_i hc
              exact (hg.1 f hf).fn_after (le_trans ht.le (not_lt.mp hc))
  refine ⟨{ funs := d2, queue := c.queue ++ [⟨t, vs⟩], acc := acc }, ?_, ?_, hfn, fun i => (hrate i).2, rfl, hmem⟩
  · unfold FRC.extend FRItem.new
    rw [pyAssert_true hok.pos, ok_bind]
    simp only [py_pure, ok_bind]
    rw [h.tail]
    simp only
    rw [pyAssert_true (by have := ht.le; linarith), ok_bind, e1, ok_bind, e2, ok_bind, e3, ok_bind]
  · refine ⟨h.start.trans ht, hacc, by rw [hlo, h.accLo], ?_, hkeep _ h.zero, hok, fun i => (hrate i).1, by simp, ?_, ?_, ?_, ?_⟩
    · rw [hfn]; unfold PL.ext
      rw [if_pos (h.start.trans ht).le, h.accZero]
    · obtain ⟨pre, hp⟩ := h.hist
      refine ⟨pre, fun i x hx => ?_⟩
      rw [(hrate i).2 x hx, ← List.append_assoc, qRate_snoc, hp i x hx]
    · intro it hit
      rcases List.mem_append.mp hit with h1 | h1
      · exact h.items it h1
      · rw [List.mem_singleton.mp h1]; exact hok
    · refine List.pairwise_append.mpr ⟨h.sorted, by simp, ?_⟩
      intro a ha b hb
      rw [List.mem_singleton.mp hb]
      exact le_trans (h.le_tail a ha) ht.le
    · obtain ⟨H, c1, c2, c3, c4⟩ := h.chain
      have c4' : Within c.funs (t :: H) := ⟨c4.1, fun i f hf => ⟨fun x hx => List.mem_cons_of_mem _ ((c4.2 i f hf).1 x hx), (c4.2 i f hf).2⟩⟩
      have hlater : ∀ a ∈ t :: H, Later eps a t := by
        intro a ha
        rcases List.mem_cons.mp ha with rfl | ha
        · exact Or.inl rfl
        · exact (c1 a ha).trans ht
      refine ⟨t :: H, hlater, ?_, List.mem_cons_of_mem _ c3, dropLoop_within (by simp) vs V d1 d2 (extendLoop_within (by simp [c3]) (by simp) vs c.funs d1 hok.pos c4' e1) e2⟩
      intro a ha b hb hab
      rcases List.mem_cons.mp ha with rfl | ha'
      · have := (hlater b hb).le; linarith
      · rcases List.mem_cons.mp hb with rfl | hb'
        · rcases hlater a ha with h1 | h1
          · linarith
          · linarith
        · exact c2 a ha' b hb' hab

theorem empty_good : ∃ c, FRC.empty = .ok c ∧ c.Good 0 [] 0 ∧ (∀ x, c.acc.fn x = 0) ∧
    (∀ i x, rate c.funs i x = 0) ∧ c.queue = [⟨0, []⟩] ∧ c.acc.times = [0] := by
  have hw : PL.WF ⟨[0], [0], 0, 0, ((0 : ℚ) : WithBot ℚ), ⊤⟩ :=
    ⟨by decide, by decide, by decide, by decide +kernel⟩
  refine ⟨⟨fun _ => none, [⟨0, []⟩], ⟨[0], [0], 0, 0, ((0 : ℚ) : WithBot ℚ), ⊤⟩⟩, ?_, ?_, ?_, ?_, rfl, rfl⟩
  · have e1 : FRItem.new 0 [] = .ok ⟨0, []⟩ := rfl
    have e2 : RC.sum [] ((0 : ℚ) : WithBot ℚ) ⊤ = .ok ⟨[0], [0], ((0 : ℚ) : WithBot ℚ), ⊤⟩ := by decide +kernel
    have e3 : RC.integral ⟨[0], [0], ((0 : ℚ) : WithBot ℚ), ⊤⟩ = .ok ⟨[0], [0], 0, 0, ((0 : ℚ) : WithBot ℚ), ⊤⟩ := by
      decide +kernel
    unfold FRC.empty
    rw [e1, ok_bind, e2, ok_bind, e3]; rfl
  · refine ⟨Or.inl rfl, ⟨hw, rfl, Or.inl rfl, rfl⟩, rfl, ?_, by simp, ⟨by simp, by simp⟩, ?_, rfl, ⟨[], ?_⟩, ?_, by simp, ⟨[0], by simp [Later], by simp [Apart], by simp, ⟨⟨0, fun _ _ => rfl⟩, fun i f hf => by cases hf⟩⟩⟩
    · show PL.fn ⟨[0], [0], 0, 0, ((0 : ℚ) : WithBot ℚ), ⊤⟩ 0 = 0
      rw [PL.fn_left hw hw.pos (x := 0) le_rfl]; simp
    · intro i; exact ⟨(by intro f hf; cases hf), fun _ => rfl⟩
    · intro i x hx
      have : decide ((0 : ℚ) ≤ x) = true := by simpa using hx
      simp [rate, qRate, this, Rates.get]
    · intro it hit
      simp only [List.mem_singleton] at hit
      subst hit
      exact ⟨by simp, by simp⟩
  · intro x
    by_cases hx : x ≤ 0
    · rw [PL.fn_left hw hw.pos hx]; simp
    · rw [PL.fn_right hw (le_of_lt (not_le.mp hx))]; simp
  · intro i x; rfl

end FRC
end Verif
