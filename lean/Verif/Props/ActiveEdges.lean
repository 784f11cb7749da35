import Verif.Proofs.ActiveEdges
import Verif.Props.Dijkstra
import Verif.Proofs.PL

/-! Property theorems C95: `get_active_edges` (src/core/active_edges.py). -/

namespace Verif.Props
open Verif Verif.Spec Verif.Dijkstra Verif.ActiveEdges

/-- Times only grow along a walk. -/
theorem arrives_later {g : Graph} {c : Nat → ℚ → ℚ} {relevant : List Nat} {phi t0 : ℚ} {u : Nat} (hn : ∀ e ∈ g.edges, ∀ t, phi ≤ t → 0 ≤ c e t) (h0 : phi ≤ t0) {v : Nat} {t : ℚ}
    (h : Arrives g c relevant u t0 v t) : t0 ≤ t := by
  induction h with
  | start => exact le_refl _
  | step e he hw _ ih => have := hn e he _ (le_trans h0 ih); linarith

/-- Walks can be joined. -/
theorem arrives_trans {g : Graph} {c : Nat → ℚ → ℚ} {relevant : List Nat} {phi t0 : ℚ} {s u : Nat} (h0 : Arrives g c relevant s phi u t0) {v : Nat} {t : ℚ}
    (h : Arrives g c relevant u t0 v t) : Arrives g c relevant s phi v t := by
  induction h with
  | start => exact h0
  | step e he hw _ ih => exact .step e he hw ih

/-- **C95.** Costs are first in first out strictly, every edge takes some time, the sink can be reached, and at least two edges out of the source lead to relevant nodes. Then `get_active_edges` (with
`strong_fifo`) returns, without an exception, each once, exactly the edges that start a fastest trip: who takes them can be at the sink as early as anybody. The graph is as before. -/
theorem C95_fastest_partial {g : Graph} {costs : List PL} {c : Nat → ℚ → ℚ} {theta : ℚ} {source sink : Nat} {relevant : List Nat} (hg : Consistent g) (hc : FifoCosts g theta (costs.map PL.eval) c)
    (hstrong : StrongFifo g theta c) (hpos : PositiveCosts g theta c) (hs : source ∈ g.nodes) (ht : sink ∈ g.nodes) (hsub : ∀ v ∈ relevant, v ∈ g.nodes)
    (hreach : ∃ t, Arrives g c relevant source theta sink t) (htwo : 2 ≤ ((g.outgoing source).filter (fun e => g.nodeTo e ∈ relevant)).length) :
    ∃ S, getActiveEdges g costs theta source sink relevant true = (g, .ok S) ∧ S.Nodup ∧ ∀ e, e ∈ S ↔ StartsFastest g c relevant source sink theta e := by
  obtain ⟨res, h1, h2⟩ := dynamicDijkstra_spec (sink := sink) hg hc hs hsub
  obtain ⟨t, hr⟩ := hreach
  have hb : ∃ b, res.arrival sink = some b := by
    rcases h2.all sink t hr with h | ⟨b, hb, _⟩
    · exact h
    · exact ⟨b, hb⟩
  obtain ⟨S, q1, q2, q3⟩ := backwardSearch_spec (source := source) (c := c) (arr := res.arrival) (costs := costs.map PL.eval) hg
    (fun e he a ha => by
      obtain ⟨f, f1, f2⟩ := hc.call e he
      exact ⟨f, f1, f2 a (h2.earliest _ a ha).1⟩) hb ht
  obtain ⟨b, hb⟩ := hb
  refine ⟨S, ?_, q2, fun e => ?_⟩
  · unfold getActiveEdges
    rw [if_neg (by omega), h1]
    simp only [if_true, q1]
  have hsrc : ∀ a, res.arrival source = some a → a = theta := fun a ha =>
    le_antisymm ((h2.earliest _ a ha).2.2 _ .start) (h2.earliest _ a ha).1
  -- an edge that is on time is part of a walk that is on time
  have tight : ∀ e ∈ g.edges, OnTimeEdge g c res.arrival e → g.nodeTo e ∈ relevant ∧ ∀ a, res.arrival (g.nodeFrom e) = some a → res.arrival (g.nodeTo e) = some (a + c e a) := by
    rintro e he ⟨a, b', y1, y2, y3⟩
    obtain ⟨p1, p2, p3⟩ := h2.earliest _ a y1
    obtain ⟨r1, r2, r3⟩ := h2.earliest _ b' y2
    have hrel : g.nodeTo e ∈ relevant := by
      generalize hv : g.nodeTo e = v at r2 y2
      cases r2 with
      | start =>
        exfalso
        have := hpos e he a p1
        linarith
      | step e' he' hw' _ => exact hw'
    refine ⟨hrel, fun a' ha' => ?_⟩
    rw [y1] at ha'; injection ha' with ha'; subst ha'
    rw [y2]
    exact congrArg some (le_antisymm (r3 _ (.step e he hrel p2)) y3)
  rw [q3]
  constructor
  · rintro ⟨x1, x2, x3, x4⟩
    obtain ⟨hrel, hto⟩ := tight e x1 x3
    obtain ⟨a, b', y1, y2, y3⟩ := x3
    have ha : a = theta := hsrc a (by rw [← x2]; exact y1)
    subst ha
    refine ⟨x1, x2, hrel, b, ?_, (h2.earliest _ b hb).2.2⟩
    have hw := hto a y1
    -- the walk
    have walk : ∀ v, OnTimePath g c res.arrival v sink → ∀ tv, res.arrival v = some tv → Arrives g c relevant v tv sink b := by
      intro v hv
      unfold OnTimePath at hv
      induction hv using Relation.ReflTransGen.head_induction_on with
      | refl => intro tv htv; rw [hb] at htv; injection htv with htv; subst htv; exact .start
      | head hstep _ ih =>
        obtain ⟨e', he', rfl, rfl, hte⟩ := hstep
        intro tv htv
        obtain ⟨hrel', hto'⟩ := tight e' he' hte
        exact arrives_trans (.step e' he' hrel' .start) (ih _ (hto' tv htv))
    exact walk _ x4 _ hw
  · rintro ⟨x1, x2, x3, T, x4, x5⟩
    have hT : T = b := le_antisymm (x5 _ (h2.earliest _ b hb).2.1) ((h2.earliest _ b hb).2.2 _ (arrives_trans (by have := Arrives.step (g := g) (c := c) (nodes := relevant) (source := source) (phi := theta) (t := theta) e x1 x3 (by rw [x2]; exact .start); exact this) x4))
    subst hT
    have hstart : Arrives g c relevant source theta (g.nodeTo e) (theta + c e theta) := .step e x1 x3 (by rw [x2]; exact .start)
    have hc0 := hc.nonneg e x1 theta (le_refl _)
    -- a walk that is early at its end is early everywhere
    have early : ∀ v t, Arrives g c relevant (g.nodeTo e) (theta + c e theta) v t → res.arrival v = some t → t ≤ T →
        res.arrival (g.nodeTo e) = some (theta + c e theta) ∧ OnTimePath g c res.arrival (g.nodeTo e) v := by
      intro v t hv
      induction hv with
      | start => intro h _; exact ⟨h, .refl⟩
      | @step t' e' he' hw' h' ih =>
        intro harr hle
        have hge : theta ≤ t' := by
          have := arrives_later (phi := theta) hc.nonneg (by linarith) h'
          linarith
        have hpe := hpos e' he' t' hge
        have hfrom : Arrives g c relevant source theta (g.nodeFrom e') t' := arrives_trans hstart h'
        have hlab : res.arrival (g.nodeFrom e') = some t' := by
          rcases h2.all _ _ hfrom with ⟨a, ha⟩ | ⟨b', hb', hle'⟩
          · obtain ⟨p1, p2, p3⟩ := h2.earliest _ a ha
            rcases lt_or_eq_of_le (p3 _ hfrom) with hlt | heq
            · exfalso
              have h5 := hstrong e' he' a t' p1 hlt
              have h6 := (h2.earliest _ _ harr).2.2 _ (.step e' he' hw' p2)
              linarith
            · rw [ha, heq]
          · exfalso
            rw [hb] at hb'; injection hb' with hb'; subst hb'
            linarith
        obtain ⟨i1, i2⟩ := ih hlab (by linarith)
        exact ⟨i1, i2.tail ⟨e', he', rfl, rfl, t', _, hlab, harr, le_refl _⟩⟩
    obtain ⟨z1, z2⟩ := early sink T x4 hb (le_refl _)
    refine ⟨x1, x2, ?_, z2⟩
    have hsl : res.arrival source = some theta := by
      rcases h2.all source theta .start with ⟨a, ha⟩ | ⟨b', hb', hle'⟩
      · rw [ha, hsrc a ha]
      · exfalso
        rw [hb] at hb'; injection hb' with hb'; subst hb'
        have h7 := hpos e x1 theta (le_refl _)
        have h8 := arrives_later (phi := theta) hc.nonneg (by linarith) x4
        linarith
    exact ⟨theta, _, by rw [x2]; exact hsl, z1, le_refl _⟩

/-- **C95 is false** of the code as it is without `strong_fifo`: when at least two edges out of the source lead to relevant nodes, `get_active_edges` always raises, whatever the costs. -/
theorem C95_weak_raises {g : Graph} {costs : List PL} {theta : ℚ} {source sink : Nat} {relevant : List Nat}
    (htwo : 2 ≤ ((g.outgoing source).filter (fun e => g.nodeTo e ∈ relevant)).length) : ∃ err, (getActiveEdges g costs theta source sink relevant false).2 = .error err := by
  unfold getActiveEdges
  rw [if_neg (by omega)]
  cases dynamicDijkstra g theta source sink relevant (costs.map PL.eval) with
  | error err => exact ⟨err, rfl⟩
  | ok res =>
    simp only [Bool.false_eq_true, if_false]
    cases secondSearch g.reverse costs res.arrival source sink relevant with
    | error err => exact ⟨err, rfl⟩
    | ok traversals =>
      simp only
      cases ho : g.outgoing source with
      | nil => rw [ho] at htwo; simp at htwo
      | cons e es =>
        show ∃ err, (do
          let trav ← rd traversals (g.edge e).id
          let _ ← trav.eval theta
          .error .typeErr : Py (List Nat)) = .error err
        cases h1 : rd traversals (g.edge e).id with
        | error err => exact ⟨err, rfl⟩
        | ok trav =>
          rw [ok_bind]
          cases h2 : trav.eval theta with
          | error err => exact ⟨err, rfl⟩
          | ok x => exact ⟨.typeErr, rfl⟩

/-- A cost that grows by `s` per unit of time from `v` at time 0 on. -/
def lineCost (v s : ℚ) : PL := { times := [0], values := [v], first := 0, last := s, lo := (0 : ℚ), hi := ⊤ }

theorem lineCost_eval (v s : ℚ) {t : ℚ} (ht : 0 ≤ t) : (lineCost v s).eval t = .ok (v + t * s) := by
  have hw : (lineCost v s).WF := ⟨rfl, by simp [lineCost], by simp [lineCost], by simp [lineCost, PL.inDom]⟩
  rw [PL.eval_eq hw ⟨WithBot.coe_le_coe.mpr ht, le_top⟩, PL.fn_right hw (by simpa [lineCost] using ht)]
  simp [lineCost]

/-- The costs of the example: the routes over 1 and over 2 tie. -/
def diamondLines : List PL := [lineCost 1 0, lineCost 1 (1/2), lineCost (1/2) 0, lineCost 2 0, lineCost 5 0]

/-- **C95 is false** of the code as it is for a single relevant edge: all edges out of the source are returned, also those from which the sink cannot be reached. -/
theorem C95_dead_end_wrong : ∃ (n : Network Unit) (S : List Nat) (e : Nat), Holds n [⟨0, 1, 1, 1⟩, ⟨0, 2, 1, 1⟩] false ∧
    getActiveEdges n.graph [lineCost 1 0, lineCost 1 0] 0 0 2 [0, 2] true = (n.graph, .ok S) ∧ e ∈ S ∧ ∀ c t T, ¬ Arrives n.graph c [0, 1, 2] (n.graph.nodeTo e) t 2 T := by
  obtain ⟨n, h1, h2⟩ := C49_aligned (P := Unit) [.add ⟨0, 1, 1, 1⟩, .add ⟨0, 2, 1, 1⟩] (by simp [RoadOpsOk, stepRev])
  simp only [runNet, stepNet, ok_bind, Except.ok.injEq] at h1
  refine ⟨n, [0, 1], 0, h2, ?_, by simp, ?_⟩
  · subst h1; rfl
  · intro c t T h
    have key : ∀ v s, Arrives n.graph c [0, 1, 2] (n.graph.nodeTo 0) t v s → v = 1 := by
      intro v s hv
      induction hv with
      | start => subst h1; rfl
      | step e he hw _ ih =>
        exfalso
        have : ∀ e ∈ n.graph.edges, n.graph.nodeFrom e ≠ 1 := by subst h1; decide
        exact this e he ih
    exact absurd (key 2 T h) (by decide)

/-- **C95 is false** of the code as it is without `strong_fifo`: the exception may leave the shared graph reversed. -/
theorem C95_weak_reversed : ∃ n : Network Unit, runNet Network.empty diamond = .ok n ∧ n.graph.reversed = false ∧
    (getActiveEdges n.graph diamondLines 0 0 3 [0, 1, 2, 3] false).1.reversed = true ∧ (getActiveEdges n.graph diamondLines 0 0 3 [0, 1, 2, 3] false).2 = .error .assertion := by
  obtain ⟨n, h1, h2⟩ := C49_aligned (P := Unit) diamond (by simp [diamond, RoadOpsOk, stepRev])
  have hn := h1
  simp only [diamond, runNet, stepNet, ok_bind, Except.ok.injEq] at hn
  refine ⟨n, h1, by subst hn; rfl, ?_, ?_⟩
  · subst hn; unfold diamondLines lineCost; decide +kernel
  · subst hn; unfold diamondLines lineCost; decide +kernel

/-- **C95 is false** of the code as it is for edges that take no time: the search stops at the sink before it labels a node from which the sink is reached in no time, so that an edge that starts a
fastest trip is missing. -/
theorem C95_zero_wrong : ∃ (n : Network Unit) (c : Nat → ℚ → ℚ) (e : Nat) (S : List Nat), Holds n [⟨0, 2, 1, 1⟩, ⟨0, 1, 1, 1⟩, ⟨1, 2, 1, 1⟩] false ∧
    FifoCosts n.graph 0 ([lineCost 1 0, lineCost 1 0, lineCost 0 0].map PL.eval) c ∧ StrongFifo n.graph 0 c ∧ (getActiveEdges n.graph [lineCost 1 0, lineCost 1 0, lineCost 0 0] 0 0 2 [0, 1, 2] true).2 = .ok S ∧
    StartsFastest n.graph c [0, 1, 2] 0 2 0 e ∧ e ∉ S := by
  obtain ⟨n, h1, h2⟩ := C49_aligned (P := Unit) [.add ⟨0, 2, 1, 1⟩, .add ⟨0, 1, 1, 1⟩, .add ⟨1, 2, 1, 1⟩] (by simp [RoadOpsOk, stepRev])
  have hn := h1
  simp only [runNet, stepNet, ok_bind, Except.ok.injEq] at hn
  have hedges : n.graph.edges = [0, 1, 2] := by subst hn; rfl
  have hids : (n.graph.edge 0).id = 0 ∧ (n.graph.edge 1).id = 1 ∧ (n.graph.edge 2).id = 2 := by subst hn; exact ⟨rfl, rfl, rfl⟩
  have hto : n.graph.nodeTo 0 = 2 ∧ n.graph.nodeTo 1 = 1 ∧ n.graph.nodeTo 2 = 2 := by subst hn; exact ⟨rfl, rfl, rfl⟩
  have hfrom : n.graph.nodeFrom 0 = 0 ∧ n.graph.nodeFrom 1 = 0 ∧ n.graph.nodeFrom 2 = 1 := by subst hn; exact ⟨rfl, rfl, rfl⟩
  refine ⟨n, fun e t => match e with | 2 => 0 + t * 0 | _ => 1 + t * 0, 1, [0], h2, ⟨?_, ?_, ?_⟩, ?_, ?_, ⟨by rw [hedges]; simp, hfrom.2.1, by rw [hto.2.1]; simp, 1, ?_, ?_⟩, by simp⟩
  · intro e he
    rw [hedges] at he
    simp only [List.mem_cons, List.not_mem_nil, or_false] at he
    rcases he with rfl | rfl | rfl
    · rw [hids.1]; exact ⟨_, rfl, fun t ht => lineCost_eval _ _ ht⟩
    · rw [hids.2.1]; exact ⟨_, rfl, fun t ht => lineCost_eval _ _ ht⟩
    · rw [hids.2.2]; exact ⟨_, rfl, fun t ht => lineCost_eval _ _ ht⟩
  · intro e he t ht
    rw [hedges] at he
    simp only [List.mem_cons, List.not_mem_nil, or_false] at he
    rcases he with rfl | rfl | rfl <;> simp only <;> linarith
  · intro e he s t hs ht
    rw [hedges] at he
    simp only [List.mem_cons, List.not_mem_nil, or_false] at he
    rcases he with rfl | rfl | rfl <;> simp only <;> linarith
  · intro e he s t hs ht
    rw [hedges] at he
    simp only [List.mem_cons, List.not_mem_nil, or_false] at he
    rcases he with rfl | rfl | rfl <;> simp only <;> linarith
  · subst hn
    unfold lineCost
    decide +kernel
  · have h := Arrives.step (g := n.graph) (c := fun e t => match e with | 2 => 0 + t * 0 | _ => 1 + t * 0) (nodes := [0, 1, 2]) (source := n.graph.nodeTo 1) (phi := 1) (t := 1) 2
      (by rw [hedges]; simp) (by rw [hto.2.2]; simp) (by rw [hfrom.2.2, hto.2.1]; exact .start)
    rw [hto.2.2] at h
    simpa using h
  · -- before time 1 only the source is reached
    have key : ∀ v t, Arrives n.graph (fun e t => match e with | 2 => 0 + t * 0 | _ => 1 + t * 0) [0, 1, 2] 0 0 v t → (v = 0 ∧ t = 0) ∨ 1 ≤ t := by
      intro v t h
      induction h with
      | start => exact .inl ⟨rfl, rfl⟩
      | @step t' e he hw _ ih =>
        right
        rw [hedges] at he
        simp only [List.mem_cons, List.not_mem_nil, or_false] at he
        rcases he with rfl | rfl | rfl
        · simp only; rcases ih with ⟨-, h0⟩ | h0 <;> linarith
        · simp only; rcases ih with ⟨-, h0⟩ | h0 <;> linarith
        · simp only
          rcases ih with ⟨h0, -⟩ | h0
          · rw [hfrom.2.2] at h0; exact absurd h0 (by decide)
          · linarith
    intro t h
    rcases key 2 t h with ⟨h0, -⟩ | h0
    · exact absurd h0 (by decide)
    · exact h0

/-- **C95**, hypotheses met: two fastest routes tie, the direct edge is slower. -/
example : ∃ n : Network Unit, runNet Network.empty diamond = .ok n ∧ Consistent n.graph ∧ (∃ c, FifoCosts n.graph 0 (diamondLines.map PL.eval) c ∧ StrongFifo n.graph 0 c ∧
    PositiveCosts n.graph 0 c ∧ ∃ t, Arrives n.graph c [0, 1, 2, 3] 0 0 3 t) ∧ 0 ∈ n.graph.nodes ∧ 3 ∈ n.graph.nodes ∧ (∀ v ∈ [0, 1, 2, 3], v ∈ n.graph.nodes) ∧
    2 ≤ ((n.graph.outgoing 0).filter (fun e => n.graph.nodeTo e ∈ [0, 1, 2, 3])).length ∧ (getActiveEdges n.graph diamondLines 0 0 3 [0, 1, 2, 3] true).2 = .ok [2, 0] := by
  obtain ⟨n, h1, h2⟩ := C49_aligned (P := Unit) diamond (by simp [diamond, RoadOpsOk, stepRev])
  have hn := h1
  simp only [diamond, runNet, stepNet, ok_bind, Except.ok.injEq] at hn
  have hedges : n.graph.edges = [0, 1, 2, 3, 4] := by subst hn; rfl
  have hids : (n.graph.edge 0).id = 0 ∧ (n.graph.edge 1).id = 1 ∧ (n.graph.edge 2).id = 2 ∧ (n.graph.edge 3).id = 3 ∧ (n.graph.edge 4).id = 4 := by
    subst hn; exact ⟨rfl, rfl, rfl, rfl, rfl⟩
  refine ⟨n, h1, h2.graph, ⟨fun e t => match e with
    | 0 => 1 + t * 0 | 1 => 1 + t * (1/2) | 2 => 1/2 + t * 0 | 3 => 2 + t * 0 | _ => 5 + t * 0, ⟨?_, ?_, ?_⟩, ?_, ?_, ?_⟩, by subst hn; decide, by subst hn; decide, by subst hn; decide,
    by subst hn; decide, ?_⟩
  · intro e he
    rw [hedges] at he
    simp only [List.mem_cons, List.not_mem_nil, or_false] at he
    rcases he with rfl | rfl | rfl | rfl | rfl
    · rw [hids.1]; exact ⟨_, rfl, fun t ht => lineCost_eval _ _ ht⟩
    · rw [hids.2.1]; exact ⟨_, rfl, fun t ht => lineCost_eval _ _ ht⟩
    · rw [hids.2.2.1]; exact ⟨_, rfl, fun t ht => lineCost_eval _ _ ht⟩
    · rw [hids.2.2.2.1]; exact ⟨_, rfl, fun t ht => lineCost_eval _ _ ht⟩
    · rw [hids.2.2.2.2]; exact ⟨_, rfl, fun t ht => lineCost_eval _ _ ht⟩
  · intro e he t ht
    rw [hedges] at he
    simp only [List.mem_cons, List.not_mem_nil, or_false] at he
    rcases he with rfl | rfl | rfl | rfl | rfl <;> simp only <;> linarith
  · intro e he s t hs ht
    rw [hedges] at he
    simp only [List.mem_cons, List.not_mem_nil, or_false] at he
    rcases he with rfl | rfl | rfl | rfl | rfl <;> simp only <;> linarith
  · intro e he s t hs ht
    rw [hedges] at he
    simp only [List.mem_cons, List.not_mem_nil, or_false] at he
    rcases he with rfl | rfl | rfl | rfl | rfl <;> simp only <;> linarith
  · intro e he t ht
    rw [hedges] at he
    simp only [List.mem_cons, List.not_mem_nil, or_false] at he
    rcases he with rfl | rfl | rfl | rfl | rfl <;> simp only <;> linarith
  · subst hn
    exact ⟨_, Arrives.step 4 (by decide) (by decide) Arrives.start⟩
  · subst hn
    unfold diamondLines lineCost
    decide +kernel

end Verif.Props
