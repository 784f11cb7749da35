import Verif.Spec.Reproducible
import Verif.Proofs.EdgeHistory
import Verif.Props.DynamicFlow

/-! Property theorems C107 and C108 (src/core/dynamic_flow.py): what the record of a flow depends on. -/

namespace Verif.Props
open Verif Verif.Spec

theorem sameDict_of_equal {v w : Rates} (h : EqualDicts v w) : SameDict v w := by
  refine ⟨(List.perm_ext_iff_of_nodup (List.Nodup.of_map _ h.nodup) (List.Nodup.of_map _ h.nodup')).mpr (fun p => ?_), h.nodup⟩
  constructor
  · intro hp
    have := Rates.mem_lookup h.nodup (i := p.1) (x := p.2) hp
    rw [h.same] at this
    exact Rates.lookup_mem this
  · intro hp
    have := Rates.mem_lookup h.nodup' (i := p.1) (x := p.2) hp
    rw [← h.same] at this
    exact Rates.lookup_mem this

theorem equal_of_sameDict {v w : Rates} (h : SameDict v w) : EqualDicts v w := ⟨h.nodup, h.nodup', h.lookup⟩

theorem sameTable_of_equal {l l' : List (Nat × Rates)} (h : EqualTables l l') : DFlow.SameTable l l' :=
  ⟨h.nodup, h.nodup', h.keys, fun e v w h1 h2 => sameDict_of_equal (h.vals e v w h1 h2)⟩

theorem record_of_twin {net : EdgeData} {s t : DFlow} (h : DFlow.Twin net s t) : SameRecord s t := by
  obtain ⟨P, C, Q, D, _, _, tw, _⟩ := h.loc
  exact ⟨h.phi, fun e => ⟨(tw e).inflow.funs, (tw e).inflow.acc, (tw e).outflow.funs, (tw e).outflow.acc, (tw e).queue⟩⟩

theorem reading_of_twin {net : EdgeData} {s t : DFlow} (h : DFlow.Twin net s t) (e : Nat) : SameReading s t e := by
  obtain ⟨v, s', h1⟩ := h.read e
  obtain ⟨_, w, t', h2, h3, _⟩ := DFlow.look_twin h h1
  exact ⟨v, w, s', t', h1, h2, equal_of_sameDict h3⟩

theorem alike_twin {net : EdgeData} (hn : NetOk net) {cs cs' : List FlowCall} (ha : Alike cs cs') : ∀ {s t s' : DFlow}, DFlow.Twin net s t → (∃ P C, DFlow.Safe net s P C) → s.HeadOk →
    TimesOk net s cs → runFlow net s cs = .ok s' → ∃ t', runFlow net t cs' = .ok t' ∧ DFlow.Twin net s' t' := by
  induction ha with
  | nil => intro s t s' h _ _ _ hr; injection hr with hr; subst hr; exact ⟨t, rfl, h⟩
  | extend T hl _ ih =>
    intro s t s' h hs hh ht hr
    unfold runFlow at hr ⊢
    obtain ⟨s1, e1, e2⟩ := bind_eq_ok.mp hr
    have ht2 := ht.2 s1 e1
    have hT := ht.1 _ T rfl
    simp only [stepFlow] at e1 ⊢
    obtain ⟨⟨s2, ch⟩, e3, e4⟩ := bind_eq_ok.mp e1
    injection e4 with e4; subst e4
    obtain ⟨t1, ch', f1, f2, _⟩ := DFlow.extend_twin hn h hs (sameTable_of_equal hl) hT e3
    rw [f1, ok_bind]
    simp only [py_pure, ok_bind]
    obtain ⟨P, C, hs⟩ := hs
    exact ih f2 (DFlow.extend_safe hn hs hT e3).1 (DFlow.extend_head hn hs hh hT e3) ht2 e2
  | left e _ ih =>
    intro s t s' h hs hh ht hr
    unfold runFlow at hr
    obtain ⟨s1, e1, e2⟩ := bind_eq_ok.mp hr
    have ht2 := ht.2 s1 e1
    simp only [stepFlow] at e1
    obtain ⟨⟨v, s2⟩, e3, e4⟩ := bind_eq_ok.mp e1
    injection e4 with e4; subst e4
    obtain ⟨v', s2', e3', a1, a2, _, a3, _⟩ := DFlow.look_ok (net := net) hh e
    rw [e3] at e3'; injection e3' with e3'; injection e3' with x1 x2; subst x1; subst x2
    obtain ⟨P, C, hs⟩ := hs
    exact ih (DFlow.look_twin h e3).1 ⟨P, C, a3 P C hs⟩ a1 ht2 e2
  | right e _ ih =>
    intro s t s' h hs hh ht hr
    obtain ⟨w, t1, f1⟩ := h.symm.read e
    obtain ⟨t', f2, f3⟩ := ih (DFlow.look_twin h.symm f1).1.symm hs hh ht hr
    refine ⟨t', ?_, f3⟩
    unfold runFlow
    simp only [stepFlow]
    rw [f1, ok_bind]
    exact f2

/-- **C107**: the order of dict entries does not matter, nor does looking. If a series of calls of `extend` on a new `DynamicFlow` returns, then so does
every series with the same times and equal dicts (whatever the order of their entries, and of the entries of the inner dicts), with whatever readings of
outflow rates in between; the flows then have the same time, rates, cumulative flows and queues on all edges, the same outflow rates are read off them,
and a further call of `extend` reports the same set of changed edges. -/
theorem C107_order (net : EdgeData) (hn : NetOk net) (s0 s : DFlow) (cs cs' : List FlowCall) (h0 : DFlow.init = .ok s0) (ha : Alike cs cs')
    (ht : TimesOk net s0 cs) (hr : runFlow net s0 cs = .ok s) :
    ∃ t, runFlow net s0 cs' = .ok t ∧ SameRecord s t ∧ (∀ e, SameReading s t e) ∧
      ∀ l l' T s1 ch, EqualTables l l' → s.phi ≤ T → s.extend net l T = .ok (s1, ch) →
        ∃ t1 ch', t.extend net l' T = .ok (t1, ch') ∧ SameRecord s1 t1 ∧ ∀ e, e ∈ ch ↔ e ∈ ch' := by
  obtain ⟨s2, e1, _, _, h2⟩ := DFlow.init_ok hn
  rw [h0] at e1; injection e1 with e1; subst e1
  obtain ⟨t, f1, f2⟩ := alike_twin hn ha (DFlow.init_twin h0).1 ⟨_, _, h2⟩ (DFlow.init_head h0) ht hr
  refine ⟨t, f1, record_of_twin f2, reading_of_twin f2, ?_⟩
  intro l l' T s1 ch hl hT he
  obtain ⟨t1, ch', g1, g2, g3⟩ := DFlow.extend_twin hn f2 (reach hn h0 ht hr).1 (sameTable_of_equal hl) hT he
  exact ⟨t1, ch', g1, record_of_twin g2, g3⟩

/-- The calls of the sample run with the dicts in another order, and other readings. -/
def sampleCalls' : List FlowCall :=
  [.look 1, .extend [(0, [(1, 1), (0, 3)])] 1, .extend [(0, [(0, 1/2)])] 10, .look 1,
   .extend [(1, [(1, 1/4), (0, 3/4)])] 10, .look 0, .look 0, .extend [] 10, .extend [] 10, .extend [(0, [])] 12]

theorem lookup_cases {v w : Rates} (h : ∀ p ∈ v, w.lookup p.1 = v.lookup p.1) (h' : ∀ p ∈ w, v.lookup p.1 = w.lookup p.1) (i : Nat) : v.lookup i = w.lookup i := by
  cases hv : v.lookup i with
  | some x => rw [← hv]; exact (h _ (Rates.lookup_mem hv)).symm
  | none =>
    cases hw : w.lookup i with
    | none => rfl
    | some x => rw [← hw, ← h' _ (Rates.lookup_mem hw), hv]

theorem equalTables_one {e : Nat} {v w : Rates} (h : EqualDicts v w) : EqualTables [(e, v)] [(e, w)] := by
  refine ⟨by simp, by simp, fun j => ?_, fun j a b h1 h2 => ?_⟩
  · rw [List.lookup_cons, List.lookup_cons]
    cases hj : j == e <;> simp
  · rw [List.lookup_cons] at h1 h2
    cases hj : j == e with
    | true => rw [hj] at h1 h2; injection h1 with h1; injection h2 with h2; subst h1; subst h2; exact h
    | false => rw [hj] at h1; simp at h1

theorem equalTables_nil : EqualTables [] [] := ⟨by simp, by simp, fun _ => Iff.rfl, fun _ _ _ h => by cases h⟩

theorem sample_alike : Alike sampleCalls sampleCalls' :=
  .right _ (.extend _ (equalTables_one ⟨by decide, by decide, lookup_cases (by decide +kernel) (by decide +kernel)⟩)
    (.left _ (.extend _ (equalTables_one ⟨by decide, by decide, fun _ => rfl⟩) (.left _ (.right _
    (.extend _ (equalTables_one ⟨by decide, by decide, lookup_cases (by decide +kernel) (by decide +kernel)⟩)
    (.right _ (.right _ (.extend _ equalTables_nil (.extend _ equalTables_nil (.left _ (.extend _ (equalTables_one ⟨by decide, by decide, fun _ => rfl⟩) .nil))))))))))))

/-- The hypotheses of C107 are met by the sample run: two commodities, entries in another order, other readings. -/
example : ∃ s0 s, NetOk sampleNet ∧ DFlow.init = .ok s0 ∧ Alike sampleCalls sampleCalls' ∧ TimesOk sampleNet s0 sampleCalls ∧ runFlow sampleNet s0 sampleCalls = .ok s ∧
    s.phi = 11 ∧ sampleCalls ≠ sampleCalls' := by
  obtain ⟨s0, s, h0, h1, h2, h3, _⟩ := sample_run
  exact ⟨s0, s, sampleNet_ok, h0, sample_alike, callsOk_times h1, h2, h3, fun h => by simp [sampleCalls, sampleCalls'] at h⟩

theorem sameGiven_refl : ∀ {h : List (ℚ × Rates)}, (∀ p ∈ h, (p.2.map Prod.fst).Nodup) → List.Forall₂ (fun p q => p.1 = q.1 ∧ SameDict p.2 q.2) h h := by
  intro h
  induction h with
  | nil => intro _; exact .nil
  | cons p h ih => intro hp; exact .cons ⟨rfl, SameDict.refl (hp p (by simp))⟩ (ih (fun q hq => hp q (by simp [hq])))

/-- **C108**: edges are independent. What a flow records about an edge depends on nothing but the capacity and travel time of this edge and the inflows given
to it: two series of calls of `extend`, on new flows of any two networks, that return, end at the same time, and give the edge equal inflows at the same
times leave the same rates, cumulative flows and queue of the edge, and the same outflow rates are read off it, whatever happened on other edges, whichever
events the time stopped at, and whatever was read. -/
theorem C108_edge (net net' : EdgeData) (hn : NetOk net) (hn' : NetOk net') (s0 s t : DFlow) (cs cs' : List FlowCall) (e : Nat) (h0 : DFlow.init = .ok s0)
    (ht : TimesOk net s0 cs) (ht' : TimesOk net' s0 cs') (hk : KeysOk cs) (hk' : KeysOk cs')
    (hr : runFlow net s0 cs = .ok s) (hr' : runFlow net' s0 cs' = .ok t) (hc : net.capacity e = net'.capacity e) (htt : net.travelTime e = net'.travelTime e)
    (hphi : s.phi = t.phi) (hg : SameGiven (given net e s0 cs) (given net' e s0 cs')) :
    SameEdge s t e ∧ SameReading s t e := by
  obtain ⟨s2, e1, p1, _, h2⟩ := DFlow.init_ok hn
  rw [h0] at e1; injection e1 with e1; subst e1
  obtain ⟨s2, e1, _, _, h2'⟩ := DFlow.init_ok hn'
  rw [h0] at e1; injection e1 with e1; subst e1
  have hl := (DFlow.init_twin (net := net) h0).2 e
  have hd : ∀ tt φ, (⟨s0.inflow e, s0.outflow e, s0.queues e, none, fun _ => false⟩ : DFlow.Loc).drain tt φ = .ok ⟨s0.inflow e, s0.outflow e, s0.queues e, none, fun _ => false⟩ := fun _ _ => rfl
  have hgd : List.Forall₂ (fun p q => p.1 = q.1 ∧ SameDict p.2 q.2) (given net' e s0 cs') (given net e s0 cs) := by
    have := hg.flip
    exact this.imp (fun p q h => ⟨h.1.symm, (sameDict_of_equal h.2).symm⟩)
  have hgs : List.Forall₂ (fun p q => p.1 = q.1 ∧ SameDict p.2 q.2) (given net e s0 cs) (given net e s0 cs) := by
    apply sameGiven_refl
    have key : ∀ {h h' : List (ℚ × Rates)}, SameGiven h h' → ∀ p ∈ h, (p.2.map Prod.fst).Nodup := by
      intro h h' hf
      induction hf with
      | nil => intro p hp; cases hp
      | cons h1 _ ih =>
        intro p hp
        rcases List.mem_cons.mp hp with rfl | hp
        · exact h1.2.nodup
        · exact ih p hp
    exact key hg
  obtain ⟨L1, L2, P, C, a1, a2, a3, a4⟩ := DFlow.run_replay hn (e := e) cs ⟨_, _, h2⟩ (DFlow.init_head h0) ht (fun c hcs l T h => (hk c hcs l T h).1) h2.rep (hd _ _) (by rw [p1]; exact hl) hr hgs
  obtain ⟨M1, M2, Q, D, b1, b2, b3, b4⟩ := DFlow.run_replay hn' (e := e) cs' ⟨_, _, h2'⟩ (DFlow.init_head h0) ht' (fun c hcs l T h => (hk' c hcs l T h).1) h2'.rep (hd _ _) (by rw [p1]; exact hl) hr' hgd
  rw [← hc, ← htt, a1] at b1; injection b1 with b1; subst b1
  rw [← hphi, ← htt, a2] at b2; injection b2 with b2; subst b2
  refine ⟨⟨?_, ?_, ?_, ?_, ?_⟩, ?_⟩
  · exact a4.inflow.funs.trans b4.inflow.funs.symm
  · exact a4.inflow.acc.trans b4.inflow.acc.symm
  · exact a4.outflow.funs.trans b4.outflow.funs.symm
  · exact a4.outflow.acc.trans b4.outflow.acc.symm
  · exact a4.queue.trans b4.queue.symm
  · obtain ⟨v, w, c, d, x1, x2, x3, _⟩ := a4.outflow.read
    obtain ⟨v', w', c', d', y1, y2, y3, _⟩ := b4.outflow.read
    simp only [DFlow.loc] at x1 y1
    rw [← hphi] at y2
    rw [x2] at y2; injection y2 with y2; injection y2 with y2 _; subst y2
    refine ⟨v, v', { s with outflow := setAt s.outflow e c }, { t with outflow := setAt t.outflow e c' }, ?_, ?_, equal_of_sameDict (x3.trans y3.symm)⟩
    · unfold DFlow.lookOutflow; rw [x1, ok_bind]; rfl
    · unfold DFlow.lookOutflow; rw [y1, ok_bind]; rfl

/-- The network of the sample run with another second edge. -/
def otherNet : EdgeData := ⟨fun e => if e = 0 then 1 else 5, fun e => if e = 0 then 1 else 3⟩

theorem otherNet_ok : NetOk otherNet :=
  ⟨fun e => by unfold otherNet; simp only; split <;> norm_num, fun e => by unfold otherNet; simp only; split <;> norm_num⟩

/-- Calls that give edge 0 two commodities, and nothing from time 1 on; edge 1 is used in between. -/
def busyCalls : List FlowCall :=
  [.extend [(0, [(0, 2), (1, 1)])] (1/2), .look 0, .extend [(1, [(0, 1)])] 1, .extend [(0, []), (1, [(0, 2)])] (5/4)]

/-- The same for edge 0, in fewer calls. -/
def quietCalls : List FlowCall := [.extend [(0, [(1, 1), (0, 2)])] 1, .extend [(0, [])] (5/4)]

/-- The hypotheses of C108 are met by two runs on different networks; a queue of length 2 has built up and begun to drain. -/
example : ∃ s0 s t, NetOk sampleNet ∧ NetOk otherNet ∧ DFlow.init = .ok s0 ∧ TimesOk sampleNet s0 busyCalls ∧ TimesOk otherNet s0 quietCalls ∧ KeysOk busyCalls ∧ KeysOk quietCalls ∧
    runFlow sampleNet s0 busyCalls = .ok s ∧ runFlow otherNet s0 quietCalls = .ok t ∧ sampleNet.capacity 0 = otherNet.capacity 0 ∧ sampleNet.travelTime 0 = otherNet.travelTime 0 ∧
    s.phi = t.phi ∧ SameGiven (given sampleNet 0 s0 busyCalls) (given otherNet 0 s0 quietCalls) ∧ (s.queues 0).values = [0, 2] := by
  obtain ⟨s0, s, h0, h1, h2, h3⟩ := runB_sound (net := sampleNet) (calls := busyCalls)
    (post := fun s => decide (s.phi = 5/4) && decide ((s.queues 0).values = [0, 2])) (by decide +kernel)
  obtain ⟨s0', t, h0', g1, g2, g3⟩ := runB_sound (net := otherNet) (calls := quietCalls) (post := fun s => decide (s.phi = 5/4)) (by decide +kernel)
  rw [h0] at h0'; injection h0' with h0'; subst h0'
  simp only [Bool.and_eq_true, decide_eq_true_eq] at h3 g3
  have k1 : (match DFlow.init with
    | .ok s0 => decide (given sampleNet 0 s0 busyCalls = [(0, [(0, 2), (1, 1)]), (1, [])])
    | .error _ => false) = true := by decide +kernel
  have k2 : (match DFlow.init with
    | .ok s0 => decide (given otherNet 0 s0 quietCalls = [(0, [(1, 1), (0, 2)]), (1, [])])
    | .error _ => false) = true := by decide +kernel
  rw [h0] at k1 k2
  simp only [decide_eq_true_eq] at k1 k2
  refine ⟨s0, s, t, sampleNet_ok, otherNet_ok, h0, callsOk_times h1, callsOk_times g1, ?_, ?_, h2, g2, rfl, rfl, by rw [h3.1, g3], ?_, h3.2⟩
  · intro c hc l T he
    simp only [busyCalls, List.mem_cons, List.not_mem_nil, or_false] at hc
    rcases hc with rfl | rfl | rfl | rfl <;> cases he <;> exact ⟨by decide, by decide⟩
  · intro c hc l T he
    simp only [quietCalls, List.mem_cons, List.not_mem_nil, or_false] at hc
    rcases hc with rfl | rfl <;> cases he <;> exact ⟨by decide, by decide⟩
  · rw [k1, k2]
    exact .cons ⟨rfl, by decide, by decide, lookup_cases (by decide +kernel) (by decide +kernel)⟩ (.cons ⟨rfl, by decide, by decide, fun _ => rfl⟩ .nil)

end Verif.Props
