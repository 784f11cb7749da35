import Verif.Proofs.DFlowExact

/-! Runs of calls on a dynamic flow. -/

namespace Verif
open Spec
open PL (ext)

namespace FRC

theorem advanceHead_cut (t : ℚ) : ∀ (q : List FRItem) (h : FRItem), q.head? = some h → h.time ≤ t →
    ∃ pre h' r', advanceHead t q = h' :: r' ∧ q = pre ++ h' :: r' ∧ h'.time ≤ t ∧ ∀ x ∈ pre, x.time ≤ t := by
  intro q
  induction q with
  | nil => intro h e; cases e
  | cons a q ih =>
    intro h e ht
    simp at e
    subst e
    cases q with
    | nil => exact ⟨[], a, [], rfl, rfl, ht, by simp⟩
    | cons b l =>
      unfold advanceHead
      by_cases hb : b.time ≤ t
      · rw [if_pos hb]
        obtain ⟨pre, h', r', x1, x2, x3, x4⟩ := ih b rfl hb
        refine ⟨a :: pre, h', r', x1, by rw [x2]; rfl, x3, ?_⟩
        intro x hx
        rcases List.mem_cons.mp hx with rfl | hx
        · exact ht
        · exact x4 x hx
      · rw [if_neg hb]
        exact ⟨[], a, b :: l, rfl, rfl, ht, by simp⟩

/-- A query cuts off items that are not later than it. -/
theorem query_cut {c : FRC} {t : ℚ} {h : FRItem} (hh : c.queue.head? = some h) (ht : h.time ≤ t) :
    ∃ pre h' r', c.getValuesAtTime t = .ok (h'.values, { c with queue := h' :: r' }) ∧ c.queue = pre ++ h' :: r' ∧
      h'.time ≤ t ∧ ∀ x ∈ pre, x.time ≤ t := by
  obtain ⟨pre, h', r', x1, x2, x3, x4⟩ := advanceHead_cut t c.queue h hh ht
  refine ⟨pre, h', r', ?_, x2, x3, x4⟩
  unfold getValuesAtTime
  cases hq : c.queue with
  | nil => rw [hq] at hh; cases hh
  | cons a l =>
    rw [hq] at hh
    simp at hh
    subst hh
    simp only
    rw [if_neg (not_lt.mpr ht), ← hq, x1]

end FRC

namespace DFlow
variable {net : EdgeData}

/-- Every outflow can be read at the current time. -/
def HeadOk (s : DFlow) : Prop := ∀ e, ∃ h, (s.outflow e).queue.head? = some h ∧ h.time ≤ s.phi

/-- Reading an outflow. -/
theorem look_ok {s : DFlow} (hh : HeadOk s) (e : Nat) :
    ∃ v s', s.lookOutflow e = .ok (v, s') ∧ HeadOk s' ∧ s'.phi = s.phi ∧ s'.inflow = s.inflow ∧
      (∀ P C, Safe net s P C → Safe net s' P C) ∧ (∀ P C, Exact net s P C → Exact net s' P C) := by
  obtain ⟨h, h1, h2⟩ := hh e
  obtain ⟨pre, h', r', x1, x2, x3, x4⟩ := FRC.query_cut h1 h2
  have hcase : ∀ j, (j = e ∧ setAt s.outflow e { s.outflow e with queue := h' :: r' } j = { s.outflow e with queue := h' :: r' }) ∨
      (j ≠ e ∧ setAt s.outflow e { s.outflow e with queue := h' :: r' } j = s.outflow j) := by
    intro j
    by_cases hj : j = e
    · left; exact ⟨hj, by rw [hj, setAt_self]⟩
    · right; exact ⟨hj, setAt_ne _ _ hj⟩
  refine ⟨h'.values, { s with outflow := setAt s.outflow e { s.outflow e with queue := h' :: r' } }, ?_, ?_, rfl, rfl, ?_, ?_⟩
  · unfold lookOutflow; rw [x1, ok_bind]; rfl
  · intro j
    simp only
    rcases hcase j with ⟨_, hj⟩ | ⟨_, hj⟩ <;> rw [hj]
    · exact ⟨h', rfl, x3⟩
    · exact hh j
  · intro P C hs
    refine ⟨⟨hs.rep.deps, hs.rep.chg⟩, hs.dep, ?_, ?_, ?_, ?_, ?_, ?_⟩
    · intro j y hc
      obtain ⟨a, it, b, c⟩ := hs.chg j y hc
      refine ⟨a, it, ?_, c⟩
      simp only
      rcases hcase j with ⟨hje, hj⟩ | ⟨_, hj⟩ <;> rw [hj]
      · subst hje
        rw [x2] at b
        rcases List.mem_append.mp b with b | b
        · have := x4 it b
          rw [c] at this
          exact absurd a (not_lt.mpr this)
        · exact b
      · exact b
    · intro j it hit hlt
      refine hs.items j it ?_ hlt
      simp only at hit
      rcases hcase j with ⟨hje, hj⟩ | ⟨_, hj⟩ <;> rw [hj] at hit
      · subst hje
        rw [x2]; exact List.mem_append_right _ hit
      · exact hit
    all_goals
      intro j
      simp only
      rcases hcase j with ⟨hje, hj⟩ | ⟨_, hj⟩ <;> rw [hj]
    · exact hs.wf e
    · exact hs.wf j
    · exact hs.hi e
    · exact hs.hi j
    · exact hs.lo0 e
    · exact hs.lo0 j
    · rw [hje]; exact hs.lip e
    · exact hs.lip j
  · intro P C hx
    refine ⟨⟨hx.rep.deps, hx.rep.chg⟩, hx.chg, ?_⟩
    intro j
    obtain ⟨Lin, Vin, Lout, Vout, r, hj⟩ := hx.edge j
    refine ⟨Lin, Vin, Lout, Vout, r, ?_⟩
    simp only
    rcases hcase j with ⟨hje, hj'⟩ | ⟨_, hj'⟩ <;> rw [hj']
    · subst hje
      refine ⟨hj.phi, hj.gin, hj.linle, hj.items, hj.gout.requeue _ ?_ ⟨pre, x2⟩, hj.qwf, hj.qlo, hj.qhi, hj.qlast, hj.qneg, hj.laws, hj.mix, hj.grows, hj.exits, hj.quiet, hj.pend⟩
      have := hj.gout.tail
      rw [x2] at this
      simpa using this
    · exact hj

/-- After `extend` the outflows can be read. -/
theorem extend_head (hn : NetOk net) {s s' : DFlow} {P : Nat → Pend} {C : Nat × ℚ → Bool} (h : Safe net s P C) (hh : HeadOk s)
    {l : List (Nat × Rates)} {T : ℚ} {ch : List Nat} (hT : s.phi ≤ T) (he : s.extend net l T = .ok (s', ch)) : HeadOk s' := by
  obtain ⟨_, _, hle, _, hq, _⟩ := extend_safe hn h hT he
  intro e
  obtain ⟨h0, a, b⟩ := hh e
  obtain ⟨new, q1, _⟩ := hq e
  refine ⟨h0, ?_, le_trans b hle⟩
  rw [q1, List.head?_append, a]; rfl

/-- Any run that returns. -/
theorem run_safe (hn : NetOk net) : ∀ (calls : List FlowCall) {s s' : DFlow}, (∃ P C, Safe net s P C) → HeadOk s → TimesOk net s calls →
    runFlow net s calls = .ok s' → (∃ P C, Safe net s' P C) ∧ HeadOk s' ∧ s.phi ≤ s'.phi := by
  intro calls
  induction calls with
  | nil => intro s s' h1 h2 _ he; injection he with he; subst he; exact ⟨h1, h2, le_rfl⟩
  | cons c calls ih =>
    rintro s s' ⟨P, C, h1⟩ h2 ht he
    unfold runFlow at he
    obtain ⟨s1, e1, e2⟩ := bind_eq_ok.mp he
    have ht2 := ht.2 s1 e1
    cases c with
    | extend l T =>
      have hT := ht.1 l T rfl
      simp only [stepFlow] at e1
      obtain ⟨⟨s2, ch⟩, e3, e4⟩ := bind_eq_ok.mp e1
      injection e4 with e4; subst e4
      obtain ⟨a, _, b, _⟩ := extend_safe hn h1 hT e3
      obtain ⟨c1, c2, c3⟩ := ih a (extend_head hn h1 h2 hT e3) ht2 e2
      exact ⟨c1, c2, le_trans b c3⟩
    | look e =>
      simp only [stepFlow] at e1
      obtain ⟨v, s2, e3, a1, a2, _, a3, _⟩ := look_ok (net := net) h2 e
      rw [e3, ok_bind] at e1
      injection e1 with e1; subst e1
      obtain ⟨c1, c2, c3⟩ := ih ⟨P, C, a3 P C h1⟩ a1 ht2 e2
      exact ⟨c1, c2, by rw [← a2]; exact c3⟩

theorem givenTotal_snoc (h : List (ℚ × Rates)) (p : ℚ × Rates) :
    givenTotal (h ++ [p]) = ext (givenTotal h) p.1 p.2.total := by
  unfold givenTotal
  rw [List.foldl_append]
  rfl

theorem givenRate_snoc (h : List (ℚ × Rates)) (p : ℚ × Rates) (i : Nat) (t : ℚ) :
    givenRate (h ++ [p]) i t = if t < p.1 then givenRate h i t else p.2.get i := by
  unfold givenRate
  rw [List.filter_append]
  by_cases ht : t < p.1
  · rw [if_pos ht, List.filter_cons_of_neg (by simpa using ht)]
    simp
  · rw [if_neg ht, List.filter_cons_of_pos (p := fun p : ℚ × Rates => decide (p.1 ≤ t)) (a := p) (decide_eq_true (not_lt.mp ht))]
    simp

/-- The recorded inflow of every edge is the given one. -/
def Recorded (s : DFlow) (h : Nat → List (ℚ × Rates)) : Prop :=
  ∀ e, (∀ x, (s.inflow e).acc.fn x = givenTotal (h e) x) ∧ ∀ i x, 0 ≤ x → FRC.rate (s.inflow e).funs i x = givenRate (h e) i x

/-- Any run of valid calls. -/
theorem run_exact (hn : NetOk net) : ∀ (calls : List FlowCall) {s : DFlow} (h : Nat → List (ℚ × Rates)), (∃ P C, Safe net s P C) → HeadOk s →
    (∃ P C, Exact net s P C) → Recorded s h → CallsOk net s calls →
    ∃ s', runFlow net s calls = .ok s' ∧ (∃ P C, Safe net s' P C) ∧ HeadOk s' ∧ (∃ P C, Exact net s' P C) ∧
      Recorded s' (fun e => h e ++ given net e s calls) := by
  intro calls
  induction calls with
  | nil => intro s h h1 h2 h3 h4 _; exact ⟨s, rfl, h1, h2, h3, by simpa [given] using h4⟩
  | cons c calls ih =>
    rintro s h ⟨P, C, h1⟩ h2 ⟨P2, C2, h3⟩ h4 hok
    cases c with
    | extend l T =>
      have hcall := hok.1 l T rfl
      obtain ⟨s1, ch, P3, C3, e1, x1, i1, i2, _⟩ := extend_exact hn h3 hcall
      have estep : stepFlow net s (.extend l T) = .ok s1 := by simp only [stepFlow]; rw [e1, ok_bind]; rfl
      have hok2 := hok.2 s1 estep
      obtain ⟨a, _, _, _⟩ := extend_safe hn h1 hcall.time e1
      have hrec : Recorded s1 (fun e => h e ++ ((l.lookup e).map (fun v => (s.phi, v))).toList) := by
        intro e
        simp only
        cases hl : l.lookup e with
        | none =>
          rw [i2 e (by
            intro hm
            obtain ⟨p, hp, rfl⟩ := List.mem_map.mp hm
            rw [List.lookup_eq_none_iff] at hl
            have := hl p hp
            simp at this)]
          simpa using h4 e
        | some v =>
          have hmem : (e, v) ∈ l := by
            have : ∀ (l : List (Nat × Rates)), l.lookup e = some v → (e, v) ∈ l := by
              intro l
              induction l with
              | nil => intro h; cases h
              | cons p l ihl =>
                obtain ⟨j, y⟩ := p
                intro h
                rw [List.lookup_cons] at h
                by_cases hj : e = j
                · subst hj; simp at h; subst h; simp
                · have : (e == j) = false := by simpa using hj
                  rw [this] at h
                  exact List.mem_cons_of_mem _ (ihl h)
            exact this l hl
          obtain ⟨k1, k2⟩ := i1 (e, v) hmem
          obtain ⟨k3, k4⟩ := h4 e
          constructor
          · intro x
            rw [Option.map_some, Option.toList_some, givenTotal_snoc]
            rw [k1 x]
            have : (s.inflow e).acc.fn = givenTotal (h e) := funext k3
            simp only [this]
          · intro i x hx
            rw [Option.map_some, Option.toList_some, givenRate_snoc, k2 i x hx, k4 i x hx]
      obtain ⟨s', r1, r2, r3, r4, r5⟩ := ih _ a (extend_head hn h1 h2 hcall.time e1) ⟨P3, C3, x1⟩ hrec hok2
      refine ⟨s', ?_, r2, r3, r4, ?_⟩
      · unfold runFlow; rw [estep, ok_bind, r1]
      · intro e
        have := r5 e
        simp only [given, estep]
        simpa [List.append_assoc] using this
    | look e =>
      obtain ⟨v, s2, e3, a1, a2, a5, a3, a4⟩ := look_ok (net := net) h2 e
      have estep : stepFlow net s (.look e) = .ok s2 := by simp only [stepFlow]; rw [e3, ok_bind]; rfl
      have hok2 := hok.2 s2 estep
      obtain ⟨s', r1, r2, r3, r4, r5⟩ := ih h ⟨P, C, a3 P C h1⟩ a1 ⟨P2, C2, a4 P2 C2 h3⟩ (by intro e; rw [a5]; exact h4 e) hok2
      refine ⟨s', ?_, r2, r3, r4, ?_⟩
      · unfold runFlow; rw [estep, ok_bind, r1]
      · intro e
        have := r5 e
        simp only [given, estep]
        simpa using this

theorem init_head {s : DFlow} (h : DFlow.init = .ok s) : HeadOk s := by
  unfold DFlow.init at h
  obtain ⟨c, e1, g, _, _, hq, _⟩ := FRC.empty_good
  rw [e1, ok_bind] at h
  obtain ⟨q, _, h⟩ := bind_eq_ok.mp h
  injection h with h; subst h
  intro e
  exact ⟨⟨0, []⟩, by simp [hq], le_rfl⟩

theorem init_recorded {s : DFlow} (h : DFlow.init = .ok s) : Recorded s (fun _ => []) := by
  unfold DFlow.init at h
  obtain ⟨c, e1, g, ha, hr, hq, _⟩ := FRC.empty_good
  rw [e1, ok_bind] at h
  obtain ⟨q, _, h⟩ := bind_eq_ok.mp h
  injection h with h; subst h
  intro e
  exact ⟨fun x => ha x, fun i x _ => hr i x⟩

end DFlow
theorem runFlow_append {D : EdgeData} (l m : List FlowCall) {s s' : DFlow} (h : runFlow D s l = .ok s') : runFlow D s (l ++ m) = runFlow D s' m := by
  induction l generalizing s with
  | nil => injection h with h; subst h; rfl
  | cons a l ih =>
    unfold runFlow at h
    obtain ⟨s2, h1, h2⟩ := bind_eq_ok.mp h
    rw [List.cons_append, runFlow, h1, ok_bind]; exact ih h2

theorem callsOk_append {D : EdgeData} : ∀ (l m : List FlowCall) {s s' : DFlow}, CallsOk D s l → runFlow D s l = .ok s' → CallsOk D s' m → CallsOk D s (l ++ m) := by
  intro l
  induction l with
  | nil => intro m s s' _ h hm; injection h with h; subst h; exact hm
  | cons c l ih =>
    intro m s s' hl h hm
    rw [List.cons_append]
    refine ⟨hl.1, fun s1 h1 => ?_⟩
    unfold runFlow at h
    obtain ⟨s2, h2, h3⟩ := bind_eq_ok.mp h
    rw [h1] at h2; injection h2 with h2; subst h2
    exact ih m (hl.2 s1 h1) h3 hm

end Verif
