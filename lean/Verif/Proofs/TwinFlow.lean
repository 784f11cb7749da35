import Verif.Proofs.EdgeLocal

/-! Flows that cannot be told apart: the effect of `extend` on them. -/

namespace Verif
open Spec

namespace DFlow

/-- The same planned depletion. -/
def SamePend (p p' : Pend) : Prop :=
  (p = none ∧ p' = none) ∨ (∃ D, p = some (D, none) ∧ p' = some (D, none)) ∨
    ∃ D v w a, p = some (D, some (v, a)) ∧ p' = some (D, some (w, a)) ∧ SameDict v w

theorem SamePend.symm {p p' : Pend} (h : SamePend p p') : SamePend p' p := by
  rcases h with ⟨h1, h2⟩ | ⟨D, h1, h2⟩ | ⟨D, v, w, a, h1, h2, h3⟩
  · exact Or.inl ⟨h2, h1⟩
  · exact Or.inr (Or.inl ⟨D, h2, h1⟩)
  · exact Or.inr (Or.inr ⟨D, w, v, a, h2, h1, h3.symm⟩)

/-- The same about one edge, up to the order of dicts and the heads of the event lists. -/
structure TwinLoc (φ : ℚ) (L M : Loc) : Prop where
  inflow : FRC.Twin φ L.inflow M.inflow
  outflow : FRC.Twin φ L.outflow M.outflow
  queue : L.queue = M.queue
  pend : SamePend L.pend M.pend

theorem TwinLoc.symm {φ : ℚ} {L M : Loc} (h : TwinLoc φ L M) : TwinLoc φ M L :=
  ⟨h.inflow.symm, h.outflow.symm, h.queue.symm, h.pend.symm⟩

theorem TwinLoc.later {φ ψ : ℚ} {L M : Loc} (h : TwinLoc φ L M) (hle : φ ≤ ψ) : TwinLoc ψ L M :=
  ⟨h.inflow.later hle, h.outflow.later hle, h.queue, h.pend⟩

theorem plan_same {cap φ q : ℚ} {v w : Rates} (h : SameDict v w) : SameDict (plan cap φ q v).out (plan cap φ q w).out ∧
    (plan cap φ q v).outSum = (plan cap φ q w).outSum ∧ (plan cap φ q v).slope = (plan cap φ q w).slope ∧ SamePend (plan cap φ q v).dep (plan cap φ q w).dep := by
  unfold plan
  rw [← h.total]
  by_cases h0 : v.total = 0
  · rw [if_pos h0, if_pos h0]
    refine ⟨SameDict.refl (by simp), rfl, rfl, ?_⟩
    simp only
    by_cases hq : q > 0
    · rw [if_pos hq]; exact Or.inr (Or.inl ⟨_, rfl, rfl⟩)
    · rw [if_neg hq]; exact Or.inl ⟨rfl, rfl⟩
  · rw [if_neg h0, if_neg h0]
    by_cases h1 : q = 0 ∨ v.total ≥ cap - eps
    · rw [if_pos h1, if_pos h1]
      exact ⟨h.scale _, rfl, rfl, Or.inl ⟨rfl, rfl⟩⟩
    · rw [if_neg h1, if_neg h1]
      exact ⟨h.scale _, rfl, rfl, Or.inr (Or.inr ⟨_, _, _, _, rfl, rfl, h⟩)⟩

theorem depCheck_same {q : PL} {p p' : Pend} (h : SamePend p p') : depCheck q p = depCheck q p' := by
  rcases h with ⟨rfl, rfl⟩ | ⟨D, rfl, rfl⟩ | ⟨D, v, w, a, rfl, rfl, _⟩ <;> rfl

theorem TwinLoc.set {cap tt φ : ℚ} {L M L' : Loc} {v w : Rates} (h : TwinLoc φ L M) (hv : SameDict v w) (he : L.set cap tt φ v = .ok L') :
    ∃ M', M.set cap tt φ w = .ok M' ∧ TwinLoc φ L' M' ∧ (L.chg = M.chg → L'.chg = M'.chg) := by
  obtain ⟨cv, cw, c, d, r1, r2, r3, r4, _⟩ := h.inflow.read
  unfold Loc.set at he ⊢
  rw [r1, ok_bind] at he
  rw [r2, ok_bind]
  simp only at he ⊢
  rw [← r3.dictEq hv]
  by_cases hd : cv.dictEq v = true
  · rw [if_pos hd] at he ⊢
    injection he with he; subst he
    exact ⟨_, rfl, ⟨r4, h.outflow, h.queue, h.pend⟩, fun hc => hc⟩
  · rw [if_neg hd] at he ⊢
    obtain ⟨qv, h1, he⟩ := bind_eq_ok.mp he
    obtain ⟨cin, h2, he⟩ := bind_eq_ok.mp he
    obtain ⟨out, h3, he⟩ := bind_eq_ok.mp he
    obtain ⟨q, h4, he⟩ := bind_eq_ok.mp he
    obtain ⟨u, h5, he⟩ := bind_eq_ok.mp he
    injection he with he; subst he
    obtain ⟨p1, p2, p3, p4⟩ := plan_same (cap := cap) (φ := φ) (q := max qv 0) hv
    obtain ⟨cin', a1, a2⟩ := r4.extend hv h2
    obtain ⟨out', b1, b2⟩ := h.outflow.extend p1 h3
    rw [← h.queue, h1, ok_bind, ← hv.total, a1, ok_bind, ← p2, b1, ok_bind, ← p3, h4, ok_bind, ← depCheck_same p4, h5, ok_bind]
    exact ⟨_, rfl, ⟨a2, b2, rfl, p4⟩, fun hc => by simp only; rw [hc]⟩

theorem TwinLoc.drain {tt φ ψ : ℚ} {L M L' : Loc} (h : TwinLoc ψ L M) (he : L.drain tt φ = .ok L') : ∃ M', M.drain tt φ = .ok M' ∧ TwinLoc ψ L' M' ∧ (L.chg = M.chg → L'.chg = M'.chg) := by
  unfold Loc.drain at he ⊢
  rcases h.pend with ⟨h1, h2⟩ | ⟨D, h1, h2⟩ | ⟨D, v, w, a, h1, h2, h3⟩
  · rw [h1] at he; rw [h2]
    injection he with he; subst he
    exact ⟨M, rfl, h, fun hc => hc⟩
  · rw [h1] at he; rw [h2]
    simp only at he ⊢
    by_cases hD : D ≤ φ
    · rw [if_pos hD] at he ⊢
      obtain ⟨q, e1, he⟩ := bind_eq_ok.mp he
      obtain ⟨l, e2, he⟩ := bind_eq_ok.mp he
      obtain ⟨u, e3, he⟩ := bind_eq_ok.mp he
      injection he with he; subst he
      rw [← h.queue, e1, ok_bind, e2, ok_bind, e3, ok_bind]
      exact ⟨_, rfl, ⟨h.inflow, h.outflow, rfl, Or.inl ⟨rfl, rfl⟩⟩, fun hc => hc⟩
    · rw [if_neg hD] at he ⊢
      injection he with he; subst he
      exact ⟨M, rfl, h, fun hc => hc⟩
  · rw [h1] at he; rw [h2]
    simp only at he ⊢
    by_cases hD : D ≤ φ
    · rw [if_pos hD] at he ⊢
      obtain ⟨q, e1, he⟩ := bind_eq_ok.mp he
      obtain ⟨l, e2, he⟩ := bind_eq_ok.mp he
      obtain ⟨u, e3, he⟩ := bind_eq_ok.mp he
      obtain ⟨out, e4, he⟩ := bind_eq_ok.mp he
      injection he with he; subst he
      obtain ⟨out', b1, b2⟩ := h.outflow.extend h3 e4
      rw [← h.queue, e1, ok_bind, e2, ok_bind, e3, ok_bind, b1, ok_bind]
      exact ⟨_, rfl, ⟨h.inflow, b2, rfl, Or.inl ⟨rfl, rfl⟩⟩, fun hc => by simp only; rw [hc]⟩
    · rw [if_neg hD] at he ⊢
      injection he with he; subst he
      exact ⟨M, rfl, h, fun hc => hc⟩

/-- Flows that cannot be told apart. -/
structure Twin (net : EdgeData) (s t : DFlow) : Prop where
  phi : s.phi = t.phi
  loc : ∃ P C P' C', Rep net s P C ∧ Rep net t P' C' ∧ (∀ e, TwinLoc s.phi (loc s P C e) (loc t P' C' e)) ∧ ∀ e y, C (e, y) = C' (e, y)

/-- The same dict of dicts. -/
structure SameTable (l l' : List (Nat × Rates)) : Prop where
  keys : (l.map Prod.fst).Nodup
  keys' : (l'.map Prod.fst).Nodup
  none : ∀ e, l.lookup e = none ↔ l'.lookup e = none
  vals : ∀ e v w, l.lookup e = some v → l'.lookup e = some w → SameDict v w

variable {net : EdgeData}

theorem Twin.symm {s t : DFlow} (h : Twin net s t) : Twin net t s := by
  obtain ⟨P, C, P', C', h1, h2, h3, h4⟩ := h.loc
  exact ⟨h.phi.symm, P', C', P, C, h2, h1, fun e => by rw [← h.phi]; exact (h3 e).symm, fun e y => (h4 e y).symm⟩

theorem lookup_of_mem {α : Type} : ∀ {l : List (Nat × α)} {p : Nat × α}, (l.map Prod.fst).Nodup → p ∈ l → l.lookup p.1 = some p.2 := by
  intro l
  induction l with
  | nil => intro p _ h; cases h
  | cons q l ih =>
    intro p hn h
    rw [List.map_cons, List.nodup_cons] at hn
    obtain ⟨k, x⟩ := q
    rw [List.lookup_cons]
    rcases List.mem_cons.mp h with rfl | h
    · simp
    · have hne : p.1 ≠ k := fun e => hn.1 (List.mem_map.mpr ⟨p, h, e⟩)
      rw [show (p.1 == k) = false by simpa using hne]
      exact ih hn.2 h

theorem next_same {s t : DFlow} {P P' : Nat → Pend} {C C' : Nat × ℚ → Bool} (hr : Rep net s P C) (hr' : Rep net t P' C')
    (hp : ∀ e, SamePend (P e) (P' e)) (hc : ∀ e y, C (e, y) = C' (e, y)) (T : ℚ) : ∃ a b a' b' φ,
      s.deps.changeTimes.minKey = .ok a ∧ s.changes.minKey = .ok b ∧ (min (min a b) (ev T)).toRat = .ok φ ∧
      t.deps.changeTimes.minKey = .ok a' ∧ t.changes.minKey = .ok b' ∧ (min (min a' b') (ev T)).toRat = .ok φ := by
  obtain ⟨a, b, φ, h1, h2, h3, h4, h5, h6, h7⟩ := next_event s hr T
  obtain ⟨a', b', φ', h1', h2', h3', h4', h5', h6', h7'⟩ := next_event t hr' T
  have key : ∀ {P P' : Nat → Pend} {C C' : Nat × ℚ → Bool} {φ φ' : ℚ}, (∀ e, SamePend (P e) (P' e)) → (∀ e y, C (e, y) = C' (e, y)) → φ ≤ T →
      (∀ p, C p = true → φ ≤ p.2) → (∀ e D va, P e = some (D, some va) → φ ≤ D + net.travelTime e) →
      (φ' = T ∨ (∃ p, C' p = true ∧ φ' = p.2) ∨ ∃ e D va, P' e = some (D, some va) ∧ φ' = D + net.travelTime e) → φ ≤ φ' := by
    intro P P' C C' φ φ' hp hc h4 h5 h6 h7
    rcases h7 with rfl | ⟨p, hp1, rfl⟩ | ⟨e, D, va, he, rfl⟩
    · exact h4
    · exact h5 p (by rw [show p = (p.1, p.2) from rfl, hc]; exact hp1)
    · rcases hp e with ⟨_, x⟩ | ⟨D', _, x⟩ | ⟨D', v, w, a, y, x, _⟩
      · rw [x] at he; cases he
      · rw [x] at he; cases he
      · rw [x] at he; injection he with he; injection he with he1 he2
        subst he1
        exact h6 e D' _ y
  have e : φ = φ' := le_antisymm (key hp hc h4 h5 h6 h7') (key (fun e => (hp e).symm) (fun e y => (hc e y).symm) h4' h5' h6' h7)
  subst e
  exact ⟨a, b, a', b', φ, h1, h2, h3, h1', h2', h3'⟩

/-- `extend` with the same dict of dicts on flows that cannot be told apart. -/
theorem extend_twin (hn : NetOk net) {s t s' : DFlow} (h : Twin net s t) (hs : ∃ P C, Safe net s P C) {l l' : List (Nat × Rates)} (hl : SameTable l l') {T : ℚ} (hT : s.phi ≤ T) {ch : List Nat}
    (he : s.extend net l T = .ok (s', ch)) : ∃ t' ch', t.extend net l' T = .ok (t', ch') ∧ Twin net s' t' ∧ ∀ e, e ∈ ch ↔ e ∈ ch' := by
  obtain ⟨P0, C0, hsafe⟩ := hs
  obtain ⟨_, _, hmono, _⟩ := extend_safe hn hsafe hT he
  obtain ⟨P, C, Q, D, r1, r2, tw, twc⟩ := h.loc
  unfold extend at he
  obtain ⟨s1, e1, he⟩ := bind_eq_ok.mp he
  obtain ⟨P1, C1, x1, x2, x3⟩ := setInflows_loc l r1 hl.keys e1
  -- the other flow takes the inflows too
  have hset : ∀ e v w, l.lookup e = some v → l'.lookup e = some w → ∃ M', (loc t Q D e).set (net.capacity e) (net.travelTime e) t.phi w = .ok M' ∧ TwinLoc s.phi (loc s1 P1 C1 e) M' ∧ (loc s1 P1 C1 e).chg = M'.chg := by
    intro e v w hv hw
    rw [← h.phi]
    obtain ⟨M', a1, a2, a3⟩ := (tw e).set (hl.vals e v w hv hw) ((x3 e).2 v hv)
    exact ⟨M', a1, a2, a3 (funext (fun y => twc e y))⟩
  obtain ⟨t1, f1⟩ := setInflows_any l' r2 hl.keys' (by
    intro p hp
    have hw := lookup_of_mem hl.keys' hp
    cases hv : l.lookup p.1 with
    | none => rw [(hl.none p.1).mp hv] at hw; cases hw
    | some v =>
      obtain ⟨M', a, _⟩ := hset p.1 v p.2 hv hw
      exact ⟨M', a⟩)
  obtain ⟨Q1, D1, y1, y2, y3⟩ := setInflows_loc l' r2 hl.keys' f1
  have tw1 : ∀ e, TwinLoc s.phi (loc s1 P1 C1 e) (loc t1 Q1 D1 e) ∧ (loc s1 P1 C1 e).chg = (loc t1 Q1 D1 e).chg := by
    intro e
    cases hv : l.lookup e with
    | none => rw [(x3 e).1 hv, (y3 e).1 ((hl.none e).mp hv)]; exact ⟨tw e, funext (fun y => twc e y)⟩
    | some v =>
      cases hw : l'.lookup e with
      | none => rw [(hl.none e).mpr hw] at hv; cases hv
      | some w =>
        obtain ⟨M', a, b⟩ := hset e v w hv hw
        have := (y3 e).2 w hw
        rw [a] at this; injection this with this
        rw [← this]; exact b
  obtain ⟨a, b, a', b', φ, n1, n2, n3, n4, n5, n6⟩ := next_same x1 y1 (fun e => (tw1 e).1.pend) (fun e y => congrFun (tw1 e).2 y) T
  rw [n1, ok_bind, n2, ok_bind, n3, ok_bind] at he
  simp only at he
  obtain ⟨s2, e2, he⟩ := bind_eq_ok.mp he
  unfold extend
  rw [f1, ok_bind, n4, ok_bind, n5, ok_bind, n6, ok_bind]
  simp only
  obtain ⟨u1, _⟩ := processDepletions_loc (net := net) (s1.deps.depletions.len + 1) (s := { s1 with phi := φ }) (P := P1) (C := C1) ⟨x1.deps, x1.chg⟩ (by simp)
  obtain ⟨P2, C2, v1, v2, v3⟩ := u1 s2 e2
  simp only at v2 v3
  obtain ⟨w1, w2⟩ := processDepletions_loc (net := net) (t1.deps.depletions.len + 1) (s := { t1 with phi := φ }) (P := Q1) (C := D1) ⟨y1.deps, y1.chg⟩ (by simp)
  have tw2 : ∀ e, ∃ M', (loc { t1 with phi := φ } Q1 D1 e).drain (net.travelTime e) φ = .ok M' ∧ TwinLoc s.phi (loc s2 P2 C2 e) M' ∧ (loc s2 P2 C2 e).chg = M'.chg := by
    intro e
    obtain ⟨M', a1, a2, a3⟩ := (tw1 e).1.drain (v3 e)
    exact ⟨M', a1, a2, a3 (tw1 e).2⟩
  obtain ⟨t2, f2⟩ := w2 (fun e => (tw2 e).imp (fun _ h => h.1))
  obtain ⟨Q2, D2, z1, z2, z3⟩ := w1 t2 f2
  simp only at z2 z3
  have tw3 : ∀ e, TwinLoc s.phi (loc s2 P2 C2 e) (loc t2 Q2 D2 e) ∧ (loc s2 P2 C2 e).chg = (loc t2 Q2 D2 e).chg := by
    intro e
    obtain ⟨M', a, b⟩ := tw2 e
    rw [z3 e] at a; injection a with a
    rw [a]; exact b
  obtain ⟨h3, C3, ch3, k1, k2, k3, k4⟩ := collect_spec (s2.changes.len + 1) s2 [] C2 v1.chg (by omega)
  obtain ⟨h4, D3, ch4, m1, m2, m3, m4⟩ := collect_spec (t2.changes.len + 1) t2 [] D2 z1.chg (by omega)
  rw [k1] at he
  injection he with he; injection he with he1 he2
  subst he1; subst he2
  rw [f2, ok_bind, m1]
  have hphi : s2.phi = t2.phi := by rw [v2, z2]
  have hC : ∀ e y, C2 (e, y) = D2 (e, y) := fun e y => congrFun (tw3 e).2 y
  refine ⟨_, _, rfl, ⟨hphi, P2, C3, Q2, D3, ⟨v1.deps, k2⟩, ⟨z1.deps, m2⟩, fun e => ?_, fun e y => ?_⟩, fun e => ?_⟩
  · have ht := (tw3 e).1.later (ψ := s2.phi) (by simpa using hmono)
    exact ⟨ht.inflow, ht.outflow, ht.queue, ht.pend⟩
  · rw [Bool.eq_iff_iff, k3, m3, hC, hphi]
  · rw [k4, m4, hphi]
    simp only [hC]

/-- Reading outflow rates does not show. -/
theorem look_twin {s t s' : DFlow} (h : Twin net s t) {e : Nat} {v : Rates} (he : s.lookOutflow e = .ok (v, s')) : Twin net s' t ∧
    ∃ w t', t.lookOutflow e = .ok (w, t') ∧ SameDict v w ∧ Twin net s' t' := by
  obtain ⟨P, C, Q, D, r1, r2, tw, twc⟩ := h.loc
  obtain ⟨a, b, c, d, x1, x2, x3, x4, x5, x6⟩ := (tw e).outflow.read
  simp only [loc] at x1 x2
  unfold lookOutflow at he ⊢
  rw [x1, ok_bind] at he
  injection he with he; injection he with he1 he2
  subst he1; subst he2
  have hrep : Rep net { s with outflow := setAt s.outflow e c } P C := ⟨r1.deps, r1.chg⟩
  rw [← h.phi, x2, ok_bind]
  refine ⟨⟨h.phi, P, C, Q, D, hrep, r2, fun j => ?_, twc⟩, _, _, rfl, x3, rfl, P, C, Q, D, hrep, ⟨r2.deps, r2.chg⟩, fun j => ?_, twc⟩
  · by_cases hj : j = e
    · subst hj
      exact ⟨(tw j).inflow, by simpa only [loc, setAt_self] using x6, (tw j).queue, (tw j).pend⟩
    · exact ⟨(tw j).inflow, by simpa only [loc, setAt_ne _ _ hj] using (tw j).outflow, (tw j).queue, (tw j).pend⟩
  · by_cases hj : j = e
    · subst hj
      exact ⟨(tw j).inflow, by simpa only [loc, setAt_self] using x4, (tw j).queue, (tw j).pend⟩
    · exact ⟨(tw j).inflow, by simpa only [loc, setAt_ne _ _ hj] using (tw j).outflow, (tw j).queue, (tw j).pend⟩

/-- An outflow can be read. -/
theorem Twin.read {s t : DFlow} (h : Twin net s t) (e : Nat) : ∃ w s', s.lookOutflow e = .ok (w, s') := by
  obtain ⟨P, C, Q, D, r1, r2, tw, twc⟩ := h.loc
  obtain ⟨a, b, c, d, x1, x2, x3, x4, x5, x6⟩ := (tw e).outflow.read
  simp only [DFlow.loc] at x1
  unfold lookOutflow
  rw [x1, ok_bind]
  exact ⟨_, _, rfl⟩

theorem init_twin {s : DFlow} (h : DFlow.init = .ok s) : Twin net s s ∧ ∀ e, TwinLoc 0 ⟨s.inflow e, s.outflow e, s.queues e, none, fun _ => false⟩ ⟨s.inflow e, s.outflow e, s.queues e, none, fun _ => false⟩ := by
  unfold DFlow.init at h
  obtain ⟨c, e1, g, _, _, hq, _⟩ := FRC.empty_good
  rw [e1, ok_bind] at h
  obtain ⟨q, _, h⟩ := bind_eq_ok.mp h
  injection h with h; subst h
  have hc : FRC.Twin 0 c c := ⟨rfl, rfl, ⟨⟨0, []⟩, by simp [hq], le_rfl⟩, ⟨⟨0, []⟩, by simp [hq], le_rfl⟩, by
    rw [hq]; exact .cons ⟨rfl, SameDict.refl (by simp)⟩ .nil⟩
  have hr : Rep net { phi := 0, inflow := fun _ => c, outflow := fun _ => c, queues := fun _ => q, changes := Heap.empty, deps := DepQ.empty } (fun _ => none) (fun _ => false) :=
    ⟨DepQ.rep_empty, Heap.rep_empty⟩
  exact ⟨⟨rfl, _, _, _, _, hr, hr, fun e => ⟨hc, hc, rfl, Or.inl ⟨rfl, rfl⟩⟩, fun _ _ => rfl⟩, fun e => ⟨hc, hc, rfl, Or.inl ⟨rfl, rfl⟩⟩⟩

end DFlow
end Verif
