import Verif.Proofs.BuilderTime

/-! Property C68 (src/core/flow_rates_collection.py): collections made from a dict of functions. -/

namespace Verif.Props
open Verif Verif.Spec

/-- Queries in turn. -/
def askAll : FRC → List ℚ → Py (List Rates)
  | _, [] => .ok []
  | c, t :: ts => do
    let (v, c) ← c.getValuesAtTime t
    let vs ← askAll c ts
    pure (v :: vs)

/-- Valid functions: non-negative step functions on `[0, ∞)`, one of them starting at 0, break points apart. -/
structure FunctionsOk (l : List (Nat × RC)) : Prop where
  keys : (l.map Prod.fst).Nodup
  funs : ∀ p ∈ l, InflowOk p.2
  start : l ≠ [] → ∃ p ∈ l, (0 : ℚ) ∈ p.2.times
  apart : Apart eps (l.map (fun p => p.2.times)).flatten

/-- The value of function `i` at time `t`, 0 if there is none. -/
def valueIn (l : List (Nat × RC)) (i : Nat) (t : ℚ) : ℚ :=
  match l.lookup i with
  | none => 0
  | some f => stepValue f t

/-- **C68.** A collection made from a dict of functions answers queries at non-decreasing times with the values of the functions. -/
theorem C68_rates {l : List (Nat × RC)} (h : FunctionsOk l) (ts : List ℚ) (hs : ts.Pairwise (· ≤ ·)) (h0 : ∀ t ∈ ts, 0 ≤ t) :
    ∃ c vs, FRC.ofDict l = .ok c ∧ askAll c ts = .ok vs ∧ vs.length = ts.length ∧
      ∀ (k : Nat) (t : ℚ) (v : Rates), ts[k]? = some t → vs[k]? = some v → ∀ i, v.get i = valueIn l i t := by
  have hd : FRC.DictOk l := ⟨h.keys, fun p hp => Builder.inflowOk_wf (h.funs p hp), fun p hp => by rw [(h.funs p hp).lo], fun p hp => (h.funs p hp).hi,
    fun p hp => (h.funs p hp).pos, h.start, h.apart, fun p hp => (h.funs p hp).vals⟩
  obtain ⟨c, h1, h2, _⟩ := FRC.ofDict_reads hd
  have key : ∀ (ts : List ℚ) (c : FRC) (φ : ℚ), c.Reads φ (FRC.dictRate l) → ts.Pairwise (· ≤ ·) → (∀ t ∈ ts, φ ≤ t) →
      ∃ vs, askAll c ts = .ok vs ∧ vs.length = ts.length ∧ ∀ (k : Nat) (t : ℚ) (v : Rates), ts[k]? = some t → vs[k]? = some v → ∀ i, v.get i = FRC.dictRate l i t := by
    intro ts
    induction ts with
    | nil => intro c φ _ _ _; exact ⟨[], rfl, rfl, by simp⟩
    | cons t ts ih =>
      intro c φ hr hs hb
      rw [List.pairwise_cons] at hs
      obtain ⟨v, c', q1, _, q3, q4, _⟩ := (hr.later (hb t (by simp))).query
      obtain ⟨vs, i1, i2, i3⟩ := ih c' t q4 hs.2 hs.1
      refine ⟨v :: vs, ?_, by simp [i2], ?_⟩
      · unfold askAll; rw [q1, ok_bind]; simp only; rw [i1, ok_bind]; rfl
      · intro k t' v' ht hv i
        cases k with
        | zero => simp at ht hv; subst ht; subst hv; exact q3 i
        | succ k => exact i3 k t' v' (by simpa using ht) (by simpa using hv) i
  obtain ⟨vs, k1, k2, k3⟩ := key ts c 0 h2 hs h0
  refine ⟨c, vs, h1, k1, k2, ?_⟩
  intro k t v ht hv i
  rw [k3 k t v ht hv i]
  unfold valueIn FRC.dictRate
  cases hl : l.lookup i with
  | none => rfl
  | some f => exact (Builder.stepValue_fn (h.funs _ (FRC.mem_of_lookup hl)) (h0 t (List.mem_of_getElem? ht))).symm

/-- **C68**, hypotheses met: two functions with a common break point. -/
example : FunctionsOk [(3, ⟨[0, 2], [1, 0], ((0 : ℚ) : WithBot ℚ), ⊤⟩), (5, ⟨[2, 5], [4, 1], ((0 : ℚ) : WithBot ℚ), ⊤⟩)] := by
  refine ⟨by simp, ?_, ?_, ?_⟩
  · intro p hp
    simp only [List.mem_cons, List.not_mem_nil, or_false] at hp
    rcases hp with rfl | rfl
    · exact ⟨rfl, by simp, by decide +kernel, by decide +kernel, rfl, rfl, by decide +kernel⟩
    · exact ⟨rfl, by simp, by decide +kernel, by decide +kernel, rfl, rfl, by decide +kernel⟩
  · intro _; exact ⟨_, List.mem_cons_self, by simp⟩
  · unfold Apart eps; decide +kernel

/-- **C68**: the condition on the start is needed, the constructor raises `AssertionError` if the only function starts later. -/
theorem C68_late_start {i : Nat} {f : RC} (hf : InflowOk f) (h : (0 : ℚ) ∉ f.times) (ha : f.times.Pairwise (fun a b => eps < b - a)) :
    FRC.ofDict [(i, f)] = .error .assertion := by
  have hw := Builder.inflowOk_wf hf
  obtain ⟨s, e1, e2, e3, e4, e5, e6⟩ := RC.sum_ok (fs := [f]) (lo := ((0 : ℚ) : WithBot ℚ)) (hi := ⊤) (by simpa using hw) (by simp)
    (by
      intro g hg t ht
      rw [List.mem_singleton] at hg; subst hg
      exact ⟨WithBot.coe_le_coe.mpr (hf.pos t ht), le_top⟩)
    (by
      simp only [List.map_cons, List.map_nil, List.flatten_cons, List.flatten_nil, List.append_nil]
      intro a ha' b hb hab
      obtain ⟨x, hx, rfl⟩ := List.getElem_of_mem ha'
      obtain ⟨y, hy, rfl⟩ := List.getElem_of_mem hb
      have hxy : x < y := by
        by_contra hc
        rcases Nat.lt_or_ge y x with h' | h'
        · exact absurd (List.pairwise_iff_getElem.mp hw.lt y x hy hx h') (not_lt.mpr (le_of_lt hab))
        · have : x = y := by omega
          subst this; exact lt_irrefl _ hab
      exact List.pairwise_iff_getElem.mp ha x y hx hy hxy)
  have hnew : FRItem.new 0 [] = .ok ⟨0, []⟩ := by decide +kernel
  unfold FRC.ofDict
  rw [hnew, ok_bind]
  simp only [List.map_cons, List.map_nil]
  rw [e1, ok_bind]
  have hne : s.times[0]'e2.pos ≠ 0 := by
    intro hc
    have : (0 : ℚ) ∈ s.times := hc ▸ List.getElem_mem _
    obtain ⟨g, hg, ht⟩ := (e6 0).mp this
    rw [List.mem_singleton] at hg; subst hg
    exact h ht
  have : s.integral = .error .assertion := by
    unfold RC.integral
    rw [rd_lt _ 0 e2.pos, ok_bind]
    obtain ⟨l, hl⟩ : ∃ l, rdLast s.times = .ok l := by
      unfold rdLast
      cases hg : s.times.getLast? with
      | none => rw [List.getLast?_eq_none_iff] at hg; exact absurd hg e2.ne
      | some l => exact ⟨l, rfl⟩
    rw [hl, ok_bind, pyAssert_false, error_bind]
    rintro ⟨hc, _⟩
    rw [e3] at hc
    exact hne (WithBot.coe_inj.mp hc)
  rw [this, error_bind]

example : InflowOk ⟨[1, 2], [1, 0], ((0 : ℚ) : WithBot ℚ), ⊤⟩ ∧ (0 : ℚ) ∉ [(1 : ℚ), 2] :=
  ⟨⟨rfl, by simp, by decide +kernel, by decide +kernel, rfl, rfl, by decide +kernel⟩, by decide +kernel⟩

end Verif.Props
