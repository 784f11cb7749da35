import Verif.Proofs.DFlow

/-! Facts about every run of `DynamicFlow.extend` that does not raise, without any separation. -/

namespace Verif
open PL (ext)

namespace PL

/-- Growth between 0 and `c` per unit of time. -/
def Lip (f : PL) (c : ℚ) : Prop := ∀ x y, x ≤ y → 0 ≤ f.fn y - f.fn x ∧ f.fn y - f.fn x ≤ c * (y - x)

theorem extend_any {f g : PL} (h : f.WF) {s m : ℚ} (hhi : f.hi = ⊤) (he : f.extendWithSlope s m = .ok g) :
    g.WF ∧ g.hi = ⊤ ∧ g.lo = f.lo ∧ (g = f ∨ ∃ r, ∀ x, g.fn x = ext f.fn r m x) := by
  obtain ⟨w, l, hh, _⟩ := extend_wf h (by rw [hhi]; exact le_top) he
  refine ⟨w, by rw [hh, hhi], l, ?_⟩
  have hep := eps_pos
  unfold extendWithSlope at he
  rw [rdLast_eq _ h.ne, ok_bind] at he
  by_cases c : s ≥ f.times.getLast h.ne - eps
  · rw [pyAssert_true c, ok_bind] at he
    by_cases c1 : |f.last - m| ≤ eps
    · rw [if_pos c1, py_pure] at he; injection he with he; subst he; exact Or.inl rfl
    · have hfar : m = f.last ∨ eps < |f.last - m| := Or.inr (not_le.mp c1)
      rw [if_neg c1] at he
      by_cases c2 : |s - f.times.getLast h.ne| > eps
      · right
        have hlt : f.times.getLast h.ne + eps < s := by
          rcases lt_abs.mp c2 with h1 | h1 <;> linarith
        obtain ⟨g', e1, _, _, _, _, hfn, _⟩ := extend_fn h (s := s) (m := m) (by rw [hhi]; exact le_top) (Or.inr hlt) hfar
        refine ⟨s, ?_⟩
        have : g' = g := by
          unfold extendWithSlope at e1
          rw [rdLast_eq _ h.ne, ok_bind, pyAssert_true c, ok_bind, if_neg c1, he] at e1
          injection e1 with e1; exact e1.symm
        subst this; exact hfn
      · right
        obtain ⟨g', e1, _, _, _, _, hfn, _⟩ := extend_fn h (s := f.times.getLast h.ne) (m := m) (by rw [hhi]; exact le_top) (Or.inl rfl) hfar
        refine ⟨f.times.getLast h.ne, ?_⟩
        have : g' = g := by
          unfold extendWithSlope at e1
          rw [rdLast_eq _ h.ne, ok_bind, pyAssert_true (by linarith), ok_bind, if_neg c1, if_neg (by simp [le_of_lt hep])] at e1
          rw [if_neg c2] at he
          rw [he] at e1
          injection e1 with e1; exact e1.symm
        subst this; exact hfn
  · rw [pyAssert_false c] at he; cases he

theorem Lip.extend {f g : PL} {c s m : ℚ} (h : f.Lip c) (hw : f.WF) (hhi : f.hi = ⊤) (he : f.extendWithSlope s m = .ok g)
    (hm : 0 ≤ m) (hc : m ≤ c) : g.Lip c := by
  obtain ⟨_, _, _, e | ⟨r, e⟩⟩ := extend_any hw hhi he
  · subst e; exact h
  · intro x y hxy
    rw [e x, e y]
    exact ext_lip h hm hc x y hxy

end PL

theorem FRC.extend_inv {c c' : FRC} {t s : ℚ} {v : Rates} (h : c.extend t v s = .ok c') :
    c'.queue = c.queue ++ [⟨t, v⟩] ∧ c.acc.extendWithSlope t s = .ok c'.acc ∧ ∀ p ∈ v, 0 < p.2 := by
  unfold FRC.extend at h
  obtain ⟨item, h1, h2⟩ := bind_eq_ok.mp h
  unfold FRItem.new at h1
  obtain ⟨u, h3, h4⟩ := bind_eq_ok.mp h1
  have hp := pyAssert_eq_ok.mp h3
  injection h4 with h4
  subst h4
  cases hq : c.queue.getLast? with
  | none =>
    rw [hq] at h2
    obtain ⟨d, _, h5⟩ := bind_eq_ok.mp h2
    obtain ⟨a, h6, h7⟩ := bind_eq_ok.mp h5
    injection h7 with h7
    subst h7
    have : c.queue = [] := List.getLast?_eq_none_iff.mp hq
    exact ⟨by rw [this]; rfl, h6, hp⟩
  | some tl =>
    rw [hq] at h2
    obtain ⟨_, _, h5⟩ := bind_eq_ok.mp h2
    obtain ⟨d, _, h5⟩ := bind_eq_ok.mp h5
    obtain ⟨d, _, h5⟩ := bind_eq_ok.mp h5
    obtain ⟨a, h6, h7⟩ := bind_eq_ok.mp h5
    injection h7 with h7
    subst h7
    exact ⟨rfl, h6, hp⟩

theorem Rates.total_nonneg {v : Rates} (h : ∀ p ∈ v, 0 < p.2) : 0 ≤ v.total := by
  unfold Rates.total
  induction v with
  | nil => simp
  | cons p v ih =>
    rw [List.map_cons, List.sum_cons]
    have := ih (fun p hp => h p (by simp [hp]))
    have := h p (by simp)
    linarith

namespace DFlow

variable {net : EdgeData}

/-- The plan never sends more than the capacity, and plans depletions in the future. -/
theorem plan_bounds {cap φ q : ℚ} {v : Rates} (hc : 0 < cap) (hq : 0 ≤ q) (hv : ∀ p ∈ v, 0 < p.2) :
    0 ≤ (plan cap φ q v).outSum ∧ (plan cap φ q v).outSum ≤ cap ∧
    ∀ D x, (plan cap φ q v).dep = some (D, x) → φ < D ∧ ∀ w a, x = some (w, a) → 0 ≤ a ∧ a ≤ cap := by
  have hep := eps_pos
  have ha := Rates.total_nonneg hv
  unfold plan
  by_cases h0 : v.total = 0
  · rw [if_pos h0]
    refine ⟨le_rfl, le_of_lt hc, ?_⟩
    intro D x h
    simp only at h
    split at h
    · rename_i hqp
      injection h with h; injection h with h1 h2
      subst h1; subst h2
      refine ⟨?_, fun w a hx => by cases hx⟩
      have := div_pos hqp hc
      linarith
    · cases h
  · rw [if_neg h0]
    by_cases hb : q = 0 ∨ v.total ≥ cap - eps
    · rw [if_pos hb]
      refine ⟨le_min (le_of_lt hc) ha, min_le_left _ _, fun D x h => by cases h⟩
    · rw [if_neg hb]
      refine ⟨le_of_lt hc, le_rfl, ?_⟩
      intro D x h
      injection h with h; injection h with h1 h2
      subst h1; subst h2
      rw [not_or] at hb
      have hqp : 0 < q := lt_of_le_of_ne hq (Ne.symm hb.1)
      have hsl : v.total - cap < 0 := by linarith [not_le.mp hb.2]
      refine ⟨?_, ?_⟩
      · have := div_neg_of_pos_of_neg hqp hsl
        linarith
      · intro w a hx; injection hx with hx; injection hx with h1 h2; subst h2
        exact ⟨ha, by linarith⟩

/-- The invariant inside a call: `φ0` the time before the call, `lo` a lower bound of all pending changes,
`Q0` the outflow records before the call. -/
structure Mid (net : EdgeData) (φ0 lo : ℚ) (Q0 : Nat → List FRItem) (s : DFlow) (P : Nat → Pend) (C : Nat × ℚ → Bool) : Prop where
  rep : Rep net s P C
  dep : ∀ e D x, P e = some (D, x) → φ0 < D ∧ ∀ v a, x = some (v, a) → 0 ≤ a ∧ a ≤ net.capacity e ∧ lo ≤ D + net.travelTime e
  chg : ∀ e y, C (e, y) = true → lo ≤ y ∧ ∃ it ∈ (s.outflow e).queue, it.time = y
  items : ∀ e, ∃ new, (s.outflow e).queue = Q0 e ++ new ∧ (∀ it ∈ Q0 e, φ0 < it.time → C (e, it.time) = true) ∧
    ∀ it ∈ new, C (e, it.time) = true
  wf : ∀ e, (s.outflow e).acc.WF
  hi : ∀ e, (s.outflow e).acc.hi = ⊤
  lo0 : ∀ e, (s.outflow e).acc.lo = ((0 : ℚ) : WithBot ℚ)
  lip : ∀ e, (s.outflow e).acc.Lip (net.capacity e)

theorem setAt_self {α : Type _} (d : Nat → α) (e : Nat) (x : α) : setAt d e x e = x := if_pos rfl
theorem setAt_ne {α : Type _} (d : Nat → α) {e j : Nat} (x : α) (h : j ≠ e) : setAt d e x j = d j := if_neg h

/-- Extending the outflow of one edge at `y`, with the change recorded. -/
theorem Mid.out {φ0 lo : ℚ} {Q0 : Nat → List FRItem} {s s' : DFlow} {P P' : Nat → Pend} {C : Nat × ℚ → Bool}
    (h : Mid net φ0 lo Q0 s P C) {e : Nat} {y r : ℚ} {v : Rates} {out : FRC} (he : (s.outflow e).extend y v r = .ok out)
    (hout : s'.outflow = setAt s.outflow e out) (hrep : Rep net s' P' (addC C (e, y))) (hy : lo ≤ y)
    (hr : 0 ≤ r ∧ r ≤ net.capacity e)
    (hdep : ∀ e D x, P' e = some (D, x) → φ0 < D ∧ ∀ v a, x = some (v, a) → 0 ≤ a ∧ a ≤ net.capacity e ∧ lo ≤ D + net.travelTime e) :
    Mid net φ0 lo Q0 s' P' (addC C (e, y)) := by
  obtain ⟨hq, hacc, _⟩ := FRC.extend_inv he
  obtain ⟨w1, w2, w3, _⟩ := PL.extend_any (h.wf e) (h.hi e) hacc
  have hl := (h.lip e).extend (h.wf e) (h.hi e) hacc hr.1 hr.2
  have hcase : ∀ j, (j = e ∧ s'.outflow j = out) ∨ (j ≠ e ∧ s'.outflow j = s.outflow j) := by
    intro j
    rw [hout]
    by_cases hj : j = e
    · left; exact ⟨hj, by rw [hj, setAt_self]⟩
    · right; exact ⟨hj, setAt_ne _ _ hj⟩
  refine ⟨hrep, hdep, ?_, ?_, ?_, ?_, ?_, ?_⟩
  · intro j z hz
    rcases addC_iff.mp hz with hz | hz
    · injection hz with z1 z2
      subst z1; subst z2
      refine ⟨hy, ⟨z, v⟩, ?_, rfl⟩
      rw [hout, setAt_self, hq]; simp
    · obtain ⟨a, it, b, c⟩ := h.chg j z hz
      refine ⟨a, it, ?_, c⟩
      rcases hcase j with ⟨h1, h2⟩ | ⟨h1, h2⟩
      · rw [h2, hq]; subst h1; exact List.mem_append_left _ b
      · rw [h2]; exact b
  · intro j
    obtain ⟨new, n1, n2, n3⟩ := h.items j
    rcases hcase j with ⟨h1, h2⟩ | ⟨h1, h2⟩
    · subst h1
      refine ⟨new ++ [⟨y, v⟩], by rw [h2, hq, n1, List.append_assoc], fun it hi hφ => addC_iff.mpr (Or.inr (n2 it hi hφ)), ?_⟩
      intro it hit
      rcases List.mem_append.mp hit with hit | hit
      · exact addC_iff.mpr (Or.inr (n3 it hit))
      · simp at hit; subst hit; exact addC_self _ _
    · exact ⟨new, by rw [h2, n1], fun it hi hφ => addC_iff.mpr (Or.inr (n2 it hi hφ)), fun it hit => addC_iff.mpr (Or.inr (n3 it hit))⟩
  · intro j; rcases hcase j with ⟨h1, h2⟩ | ⟨h1, h2⟩ <;> rw [h2]
    · exact w1
    · exact h.wf j
  · intro j; rcases hcase j with ⟨h1, h2⟩ | ⟨h1, h2⟩ <;> rw [h2]
    · exact w2
    · exact h.hi j
  · intro j; rcases hcase j with ⟨h1, h2⟩ | ⟨h1, h2⟩ <;> rw [h2]
    · rw [w3]; exact h.lo0 e
    · exact h.lo0 j
  · intro j; rcases hcase j with ⟨h1, h2⟩ | ⟨h1, h2⟩ <;> rw [h2]
    · rw [h1]; exact hl
    · exact h.lip j

/-- Steps that leave the outflows alone. -/
theorem Mid.same {φ0 lo : ℚ} {Q0 : Nat → List FRItem} {s s' : DFlow} {P P' : Nat → Pend} {C : Nat × ℚ → Bool}
    (h : Mid net φ0 lo Q0 s P C) (hout : s'.outflow = s.outflow) (hrep : Rep net s' P' C)
    (hdep : ∀ e D x, P' e = some (D, x) → φ0 < D ∧ ∀ v a, x = some (v, a) → 0 ≤ a ∧ a ≤ net.capacity e ∧ lo ≤ D + net.travelTime e) :
    Mid net φ0 lo Q0 s' P' C :=
  ⟨hrep, hdep, by rw [hout]; exact h.chg, by rw [hout]; exact h.items, by rw [hout]; exact h.wf, by rw [hout]; exact h.hi,
    by rw [hout]; exact h.lo0, by rw [hout]; exact h.lip⟩

open Spec (NetOk)

theorem setInflow_mid (hn : NetOk net) {Q0 : Nat → List FRItem} {s s' : DFlow} {P : Nat → Pend} {C : Nat × ℚ → Bool}
    (h : Mid net s.phi s.phi Q0 s P C) {e : Nat} {v : Rates} (he : setInflow net s e v = .ok s') :
    s'.phi = s.phi ∧ ∃ P' C', Mid net s.phi s.phi Q0 s' P' C' := by
  have he' := he
  unfold setInflow at he
  obtain ⟨⟨cur, c⟩, hcur, he⟩ := bind_eq_ok.mp he
  simp only at he
  by_cases hd : cur.dictEq v = true
  · rw [if_pos hd] at he
    injection he with he
    subst he
    exact ⟨rfl, P, C, h.same rfl ⟨h.rep.deps, h.rep.chg⟩ h.dep⟩
  · rw [if_neg hd] at he
    obtain ⟨qv, hq, _⟩ := bind_eq_ok.mp he
    obtain ⟨ch, deps, rd, rc, heq⟩ := setInflow_eq h.rep hcur hq (v := v) (by simpa using hd)
    rw [heq] at he'
    obtain ⟨cin, _, he'⟩ := bind_eq_ok.mp he'
    rename_i hcin
    obtain ⟨out, hout, he'⟩ := bind_eq_ok.mp he'
    obtain ⟨q', _, he'⟩ := bind_eq_ok.mp he'
    obtain ⟨_, _, he'⟩ := bind_eq_ok.mp he'
    injection he' with he'
    subst he'
    have hv := (FRC.extend_inv hcin).2.2
    have hq0 : (0 : ℚ) ≤ max qv 0 := le_max_right _ _
    obtain ⟨b1, b2, b3⟩ := plan_bounds (φ := s.phi) (hn.cap e) hq0 hv
    have harr : s.phi ≤ s.phi + max qv 0 / net.capacity e + net.travelTime e := by
      have := div_nonneg hq0 (le_of_lt (hn.cap e))
      have := hn.tt e
      linarith
    refine ⟨rfl, _, _, h.out hout rfl ⟨rd, rc⟩ harr ⟨b1, b2⟩ ?_⟩
    intro j D x hj
    unfold DepQ.upd at hj
    split at hj
    · rename_i hje; subst hje
      obtain ⟨c1, c2⟩ := b3 D x hj
      refine ⟨c1, fun w a hx => ⟨(c2 w a hx).1, (c2 w a hx).2, ?_⟩⟩
      have := hn.tt j
      linarith
    · exact h.dep j D x hj

theorem setInflows_mid (hn : NetOk net) {Q0 : Nat → List FRItem} : ∀ (l : List (Nat × Rates)) {s s' : DFlow} {P : Nat → Pend} {C : Nat × ℚ → Bool},
    Mid net s.phi s.phi Q0 s P C → setInflows net l s = .ok s' →
    s'.phi = s.phi ∧ ∃ P' C', Mid net s.phi s.phi Q0 s' P' C' := by
  intro l
  induction l with
  | nil => intro s s' P C h he; injection he with he; subst he; exact ⟨rfl, P, C, h⟩
  | cons p l ih =>
    obtain ⟨e, v⟩ := p
    intro s s' P C h he
    unfold setInflows at he
    obtain ⟨s1, h1, h2⟩ := bind_eq_ok.mp he
    obtain ⟨e1, P1, C1, m1⟩ := setInflow_mid hn h h1
    rw [← e1] at m1
    obtain ⟨e2, P2, C2, m2⟩ := ih m1 h2
    rw [e1] at m2
    exact ⟨by rw [e2, e1], P2, C2, m2⟩

theorem processDepletions_mid {φ0 : ℚ} {Q0 : Nat → List FRItem} : ∀ (fuel : Nat) {s s' : DFlow} {P : Nat → Pend} {C : Nat × ℚ → Bool},
    Mid net φ0 s.phi Q0 s P C → processDepletions fuel s = .ok s' →
    s'.phi = s.phi ∧ ∃ P' C', Mid net φ0 s.phi Q0 s' P' C' ∧ (∀ e D x, P' e = some (D, x) → s.phi < D) ∧
      (∀ p, C p = true → C' p = true) ∧
      ∀ e D va, P e = some (D, some va) → D ≤ s.phi → C' (e, D + net.travelTime e) = true := by
  intro fuel
  induction fuel with
  | zero => intro s s' P C h he; cases he
  | succ fuel ih =>
    intro s s' P C h he
    unfold processDepletions at he
    obtain ⟨k, hk, he⟩ := bind_eq_ok.mp he
    rcases processDepletion_eq h.rep with ⟨h1, h2⟩ | ⟨e, D, x, deps, hp, hlen, hmk, hmin, hrep, hl, hx1, hx2⟩
    · rw [if_neg (by omega)] at he
      injection he with he; subst he
      exact ⟨rfl, P, C, h, fun e D x hp => (by rw [h2] at hp; cases hp), fun _ hp => hp, fun e D x hp => (by rw [h2] at hp; cases hp)⟩
    · rw [hmk] at hk
      injection hk with hk
      subst hk
      by_cases hle : D ≤ s.phi
      · rw [if_pos ⟨ev_le.mpr hle, hlen⟩] at he
        obtain ⟨s1, e1, e2⟩ := bind_eq_ok.mp he
        have hdep : ∀ j D' x', DepQ.upd P e none j = some (D', x') → φ0 < D' ∧ ∀ v a, x' = some (v, a) → 0 ≤ a ∧ a ≤ net.capacity j ∧ s.phi ≤ D' + net.travelTime j := by
          intro j D' x' hj
          unfold DepQ.upd at hj
          split at hj
          · cases hj
          · exact h.dep j D' x' hj
        have key : s1.phi = s.phi ∧ ∃ C1, Mid net φ0 s.phi Q0 s1 (DepQ.upd P e none) C1 ∧ (∀ p, C p = true → C1 p = true) ∧
            ∀ va, x = some va → C1 (e, D + net.travelTime e) = true := by
          cases x with
          | none =>
            rw [hx1 rfl] at e1
            obtain ⟨q, _, e1⟩ := bind_eq_ok.mp e1
            obtain ⟨l, _, e1⟩ := bind_eq_ok.mp e1
            obtain ⟨_, _, e1⟩ := bind_eq_ok.mp e1
            injection e1 with e1; subst e1
            exact ⟨rfl, C, h.same rfl ⟨hrep, h.rep.chg⟩ hdep, fun _ hp => hp, fun va hva => by cases hva⟩
          | some va =>
            obtain ⟨v, a⟩ := va
            obtain ⟨ch, rc, hx⟩ := hx2 v a rfl
            rw [hx] at e1
            obtain ⟨q, _, e1⟩ := bind_eq_ok.mp e1
            obtain ⟨l, _, e1⟩ := bind_eq_ok.mp e1
            obtain ⟨_, _, e1⟩ := bind_eq_ok.mp e1
            obtain ⟨out, ho, e1⟩ := bind_eq_ok.mp e1
            injection e1 with e1; subst e1
            obtain ⟨_, hb⟩ := h.dep e D _ hp
            obtain ⟨b1, b2, b3⟩ := hb v a rfl
            exact ⟨rfl, _, h.out ho rfl ⟨hrep, rc⟩ b3 ⟨b1, b2⟩ hdep, fun p hp => addC_iff.mpr (Or.inr hp), fun _ _ => addC_self _ _⟩
        obtain ⟨p1, C1, m1, k1, k2⟩ := key
        rw [← p1] at m1
        obtain ⟨p2, P2, C2, m2, m3, m4, m5⟩ := ih m1 e2
        rw [p1] at m2 p2 m3 m5
        refine ⟨p2, P2, C2, m2, m3, fun p hp => m4 p (k1 p hp), ?_⟩
        intro j D' va hj hD
        by_cases hje : j = e
        · subst hje
          rw [hp] at hj; injection hj with hj; injection hj with j1 j2
          subst j1
          exact m4 _ (k2 va j2)
        · exact m5 j D' va (by rw [DepQ.upd_ne _ _ hje]; exact hj) hD
      · rw [if_neg (fun hc => hle (ev_le.mp hc.1))] at he
        injection he with he; subst he
        refine ⟨rfl, P, C, h, fun j D' x' hj => lt_of_lt_of_le (not_le.mp hle) (hmin j D' x' hj), fun _ hp => hp, ?_⟩
        intro j D' va hj hD
        exact absurd (le_trans (hmin j D' _ hj) hD) hle

/-- The loop over the change events. -/
theorem collect_spec : ∀ (fuel : Nat) (s : DFlow) (acc : List Nat) (C : Nat × ℚ → Bool),
    s.changes.Rep (fun p => if C p then some (ev p.2) else none) → s.changes.len < fuel →
    ∃ (h' : Heap EVal (Nat × ℚ)) (C' : Nat × ℚ → Bool) (ch : List Nat), collectChanges fuel s acc = .ok ({ s with changes := h' }, ch) ∧
      h'.Rep (fun p => if C' p then some (ev p.2) else none) ∧
      (∀ p, C' p = true ↔ C p = true ∧ s.phi < p.2) ∧
      (∀ e, e ∈ ch ↔ e ∈ acc ∨ ∃ y, C (e, y) = true ∧ y ≤ s.phi) := by
  intro fuel
  induction fuel with
  | zero => intro s acc C _ h; omega
  | succ fuel ih =>
    intro s acc C hr hlen
    unfold collectChanges
    rcases hr.cases with ⟨hd, hnone⟩ | ⟨h1, x, k, hd, hk, hi, hpop, hM, hmin, hr1, hl⟩
    · have hl0 : s.changes.len = 0 := by unfold Heap.len; rw [hd]; rfl
      have hmk : s.changes.minKey = .ok ⊤ := by unfold Heap.minKey; rw [if_pos (by rw [hd]; rfl)]
      have hC : ∀ p, C p = false := by
        intro p
        have := hnone p
        by_contra hc
        have : C p = true := by simpa using hc
        simp [this] at hnone
        exact absurd (hnone p.1 p.2) (by simp [this])
      rw [hmk, ok_bind, if_neg (by omega)]
      refine ⟨s.changes, C, acc, rfl, hr, fun p => by simp [hC], fun e => by simp [hC]⟩
    · have hpos : s.changes.data.length > 0 := List.length_pos_iff.mpr hd
      have hCx : C x = true := by
        by_contra hc
        simp [hc] at hM
      simp only [hCx, if_true, Option.some.injEq] at hM
      subst hM
      have hmk : s.changes.minKey = .ok (ev x.2) := by
        unfold Heap.minKey
        rw [if_neg (by omega), rd_lt _ _ hpos, ok_bind]
        rw [List.getElem?_eq_getElem hpos] at hk
        simp at hk
        rw [hk]; rfl
      have hmin' : ∀ p, C p = true → x.2 ≤ p.2 := by
        intro p hp
        exact ev_le.mp (hmin p (ev p.2) (by simp [hp]))
      rw [hmk, ok_bind]
      by_cases hle : x.2 ≤ s.phi
      · rw [if_pos ⟨ev_le.mpr hle, hpos⟩, hpop, ok_bind]
        simp only
        have hr1' : h1.Rep (fun p => if (decide (p ≠ x) && C p) then some (ev p.2) else none) := hr1.congr (fun p => by
          by_cases hp : p = x <;> simp [hp])
        obtain ⟨h', C', ch, r1, r2, r3, r4⟩ := ih { s with changes := h1 } (x.1 :: acc) _ hr1' (by
          have : h1.len + 1 = s.changes.len := hl
          simp only; omega)
        refine ⟨h', C', ch, r1, r2, ?_, ?_⟩
        · intro p
          rw [r3]
          simp only [Bool.and_eq_true, decide_eq_true_eq]
          constructor
          · rintro ⟨⟨a, b⟩, c⟩; exact ⟨b, c⟩
          · rintro ⟨a, b⟩
            refine ⟨⟨?_, a⟩, b⟩
            rintro rfl
            exact absurd hle (not_le.mpr b)
        · intro e
          rw [r4]
          simp only [Bool.and_eq_true, decide_eq_true_eq, List.mem_cons]
          constructor
          · rintro ((rfl | h) | ⟨y, ⟨_, h1⟩, h2⟩)
            · exact Or.inr ⟨x.2, hCx, hle⟩
            · exact Or.inl h
            · exact Or.inr ⟨y, h1, h2⟩
          · rintro (h | ⟨y, h1, h2⟩)
            · exact Or.inl (Or.inr h)
            · by_cases hp : (e, y) = x
              · left; left; rw [← hp]
              · right; exact ⟨y, ⟨hp, h1⟩, h2⟩
      · rw [if_neg (fun hc => hle (ev_le.mp hc.1))]
        refine ⟨s.changes, C, acc, rfl, hr, ?_, ?_⟩
        · intro p
          constructor
          · intro hp; exact ⟨hp, lt_of_lt_of_le (not_le.mp hle) (hmin' p hp)⟩
          · exact fun h => h.1
        · intro e
          constructor
          · exact Or.inl
          · rintro (h | ⟨y, h1, h2⟩)
            · exact h
            · exact absurd (hmin' _ h1) (not_le.mpr (lt_of_le_of_lt h2 (not_le.mp hle)))

/-- The invariant between calls. -/
structure Safe (net : EdgeData) (s : DFlow) (P : Nat → Pend) (C : Nat × ℚ → Bool) : Prop where
  rep : Rep net s P C
  dep : ∀ e D x, P e = some (D, x) → s.phi < D ∧ ∀ v a, x = some (v, a) → 0 ≤ a ∧ a ≤ net.capacity e
  chg : ∀ e y, C (e, y) = true → s.phi < y ∧ ∃ it ∈ (s.outflow e).queue, it.time = y
  items : ∀ e, ∀ it ∈ (s.outflow e).queue, s.phi < it.time → C (e, it.time) = true
  wf : ∀ e, (s.outflow e).acc.WF
  hi : ∀ e, (s.outflow e).acc.hi = ⊤
  lo0 : ∀ e, (s.outflow e).acc.lo = ((0 : ℚ) : WithBot ℚ)
  lip : ∀ e, (s.outflow e).acc.Lip (net.capacity e)

theorem Safe.mid (hn : NetOk net) {s : DFlow} {P : Nat → Pend} {C : Nat × ℚ → Bool} (h : Safe net s P C) :
    Mid net s.phi s.phi (fun e => (s.outflow e).queue) s P C := by
  refine ⟨h.rep, ?_, ?_, ?_, h.wf, h.hi, h.lo0, h.lip⟩
  · intro e D x hp
    obtain ⟨a, b⟩ := h.dep e D x hp
    refine ⟨a, fun v w hx => ⟨(b v w hx).1, (b v w hx).2, ?_⟩⟩
    have := hn.tt e
    linarith
  · intro e y hc
    obtain ⟨a, b⟩ := h.chg e y hc
    exact ⟨le_of_lt a, b⟩
  · intro e
    exact ⟨[], by simp, h.items e, by simp⟩

/-- The least planned change. -/
theorem next_event (s : DFlow) {P : Nat → Pend} {C : Nat × ℚ → Bool} (hr : Rep net s P C) (T : ℚ) :
    ∃ a b φ, s.deps.changeTimes.minKey = .ok a ∧ s.changes.minKey = .ok b ∧ (min (min a b) (ev T)).toRat = .ok φ ∧
      φ ≤ T ∧ (∀ p, C p = true → φ ≤ p.2) ∧ (∀ e D va, P e = some (D, some va) → φ ≤ D + net.travelTime e) ∧
      (φ = T ∨ (∃ p, C p = true ∧ φ = p.2) ∨ ∃ e D va, P e = some (D, some va) ∧ φ = D + net.travelTime e) := by
  obtain ⟨a, ha, ha1, ha2⟩ := hr.deps.chg.minKey
  obtain ⟨b, hb, hb1, hb2⟩ := hr.chg.minKey
  have ha2' : a = ⊤ ∨ ∃ e D va, P e = some (D, some va) ∧ a = ev (D + net.travelTime e) := by
    rcases ha2 with ⟨e, he⟩ | ⟨h, _⟩
    · right
      unfold DepQ.cmap at he
      cases hp : P e with
      | none => rw [hp] at he; cases he
      | some p =>
        obtain ⟨D, x⟩ := p
        rw [hp] at he
        cases x with
        | none => cases he
        | some va => exact ⟨e, D, va, hp, by simp at he; exact he.symm⟩
    · exact Or.inl h
  have hb2' : b = ⊤ ∨ ∃ p, C p = true ∧ b = ev p.2 := by
    rcases hb2 with ⟨p, hp⟩ | ⟨h, _⟩
    · right
      by_cases hc : C p = true
      · rw [if_pos hc] at hp; injection hp with hp; exact ⟨p, hc, hp.symm⟩
      · rw [if_neg hc] at hp; cases hp
    · exact Or.inl h
  have hval : ∃ φ, min (min a b) (ev T) = ev φ ∧ (φ = T ∨ (∃ p, C p = true ∧ φ = p.2) ∨ ∃ e D va, P e = some (D, some va) ∧ φ = D + net.travelTime e) := by
    rcases min_choice (min a b) (ev T) with h | h
    · rcases min_choice a b with h' | h'
      · rcases ha2' with e | ⟨e, D, va, h1, h2⟩
        · have : (⊤ : EVal) ≤ ev T := by
            have hm : min a b = ⊤ := by rw [h', e]
            rw [hm] at h; rw [← h]; exact min_le_right _ _
          exact absurd this (not_le.mpr (ev_lt_top T))
        · exact ⟨D + net.travelTime e, by rw [h, h', h2], Or.inr (Or.inr ⟨e, D, va, h1, rfl⟩)⟩
      · rcases hb2' with e | ⟨p, h1, h2⟩
        · have : (⊤ : EVal) ≤ ev T := by
            have hm : min a b = ⊤ := by rw [h', e]
            rw [hm] at h; rw [← h]; exact min_le_right _ _
          exact absurd this (not_le.mpr (ev_lt_top T))
        · exact ⟨p.2, by rw [h, h', h2], Or.inr (Or.inl ⟨p, h1, rfl⟩)⟩
    · exact ⟨T, h, Or.inl rfl⟩
  obtain ⟨φ, h1, h2⟩ := hval
  refine ⟨a, b, φ, ha, hb, by rw [h1]; rfl, ?_, ?_, ?_, h2⟩
  · apply ev_le.mp; rw [← h1]; exact min_le_right _ _
  · intro p hp
    apply ev_le.mp; rw [← h1]
    exact le_trans (min_le_left _ _) (le_trans (min_le_right _ _) (hb1 p _ (by rw [if_pos hp])))
  · intro e D va hp
    apply ev_le.mp; rw [← h1]
    refine le_trans (min_le_left _ _) (le_trans (min_le_left _ _) (ha1 e _ ?_))
    unfold DepQ.cmap; rw [hp]; rfl

/-- One call of `extend` that returns. -/
theorem extend_safe (hn : NetOk net) {s s' : DFlow} {P : Nat → Pend} {C : Nat × ℚ → Bool} (h : Safe net s P C)
    {l : List (Nat × Rates)} {T : ℚ} {ch : List Nat} (hT : s.phi ≤ T) (he : s.extend net l T = .ok (s', ch)) :
    (∃ P' C', Safe net s' P' C') ∧ s'.phi ≤ T ∧ s.phi ≤ s'.phi ∧ (s'.phi = T ∨ ch ≠ []) ∧
    (∀ e, ∃ new, (s'.outflow e).queue = (s.outflow e).queue ++ new ∧
      ∀ it ∈ (s'.outflow e).queue, (s.phi < it.time ∨ it ∈ new) → s'.phi ≤ it.time ∧ (it.time = s'.phi → e ∈ ch)) ∧
    (∀ e ∈ ch, ∃ it ∈ (s'.outflow e).queue, it.time = s'.phi) := by
  unfold DFlow.extend at he
  obtain ⟨s1, h1, he⟩ := bind_eq_ok.mp he
  obtain ⟨p1, P1, C1, m1⟩ := setInflows_mid hn l (h.mid hn) h1
  obtain ⟨a, b, φ, ea, eb, eφ, n1, n2, n3, n4⟩ := next_event s1 m1.rep T
  rw [ea, ok_bind, eb, ok_bind, eφ, ok_bind] at he
  simp only at he
  obtain ⟨s2, h2, he⟩ := bind_eq_ok.mp he
  have m1' : Mid net s.phi φ (fun e => (s.outflow e).queue) { s1 with phi := φ } P1 C1 := by
    refine ⟨⟨m1.rep.deps, m1.rep.chg⟩, ?_, ?_, m1.items, m1.wf, m1.hi, m1.lo0, m1.lip⟩
    · intro e D x hp
      obtain ⟨c1, c2⟩ := m1.dep e D x hp
      refine ⟨c1, fun v w hx => ⟨(c2 v w hx).1, (c2 v w hx).2.1, ?_⟩⟩
      subst hx
      exact n3 e D _ hp
    · intro e y hc
      exact ⟨n2 (e, y) hc, (m1.chg e y hc).2⟩
  obtain ⟨p2, P2, C2, m2, m3, m4, m5⟩ := processDepletions_mid _ m1' h2
  simp only at p2 m2 m3 m5
  obtain ⟨h', C', ch', e3, r3, c3, c4⟩ := collect_spec (s2.changes.len + 1) s2 [] C2 m2.rep.chg (by omega)
  rw [e3] at he
  injection he with he
  injection he with he1 he2
  subst he1; subst he2
  have hsp : s.phi ≤ φ := by
    rcases n4 with n4 | ⟨p, hp, n4⟩ | ⟨e, D, va, hp, n4⟩
    · rw [n4]; exact hT
    · rw [n4]; exact (m1.chg p.1 p.2 hp).1
    · rw [n4]; exact ((m1.dep e D _ hp).2 va.1 va.2 rfl).2.2
  simp only
  refine ⟨⟨P2, C', ⟨m2.rep.deps, r3⟩, ?_, ?_, ?_, m2.wf, m2.hi, m2.lo0, m2.lip⟩, by rw [p2]; exact n1, ?_, ?_, ?_, ?_⟩
  · intro e D x hp
    simp only [p2]
    exact ⟨m3 e D x hp, fun v w hx => ⟨((m2.dep e D x hp).2 v w hx).1, ((m2.dep e D x hp).2 v w hx).2.1⟩⟩
  · intro e y hc
    obtain ⟨a1, a2⟩ := (c3 _).mp hc
    exact ⟨a2, (m2.chg e y a1).2⟩
  · intro e it hit hφ
    simp only at hφ
    refine (c3 _).mpr ⟨?_, hφ⟩
    obtain ⟨new, i1, i2, i3⟩ := m2.items e
    simp only at hit
    rw [i1] at hit
    rcases List.mem_append.mp hit with hit | hit
    · exact i2 it hit (by rw [p2] at hφ; exact lt_of_le_of_lt hsp hφ)
    · exact i3 it hit
  · rw [p2]; exact hsp
  · rw [p2]
    have hmem : ∀ e y, C2 (e, y) = true → y ≤ φ → ch' ≠ [] := by
      intro e y hc hy hnil
      have : e ∈ ch' := (c4 e).mpr (Or.inr ⟨y, hc, by rw [p2]; exact hy⟩)
      rw [hnil] at this; cases this
    rcases n4 with n4 | ⟨p, hp, n4⟩ | ⟨e, D, va, hp, n4⟩
    · exact Or.inl n4
    · right; exact hmem p.1 p.2 (m4 p hp) (le_of_eq n4.symm)
    · right
      refine hmem e _ (m5 e D va hp ?_) (le_of_eq n4.symm)
      have := hn.tt e
      linarith
  · intro e
    obtain ⟨new, i1, i2, i3⟩ := m2.items e
    refine ⟨new, i1, ?_⟩
    intro it hit hor
    have hc : C2 (e, it.time) = true := by
      rcases hor with h5 | h5
      · rw [i1] at hit
        rcases List.mem_append.mp hit with hit | hit
        · exact i2 it hit h5
        · exact i3 it hit
      · exact i3 it h5
    rw [p2]
    refine ⟨(m2.chg e _ hc).1, fun heq => ?_⟩
    exact (c4 e).mpr (Or.inr ⟨it.time, hc, by rw [p2, heq]⟩)
  · intro e hch
    rcases (c4 e).mp hch with h5 | ⟨y, h5, h6⟩
    · cases h5
    · obtain ⟨g1, it, g2, g3⟩ := m2.chg e y h5
      refine ⟨it, g2, ?_⟩
      rw [g3, p2]
      rw [p2] at h6
      exact le_antisymm h6 g1

end DFlow
end Verif
