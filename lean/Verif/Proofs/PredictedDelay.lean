import Verif.Spec.PredictedDelay
import Verif.Proofs.BuilderActive
import Verif.Proofs.Positive

/-! Delays and their maximum. -/

namespace Verif
namespace Delay
open Verif.Spec Builder Dijkstra

variable {P : Type} {n : Network P}

theorem comNodes_eq (n : Network P) (c : Commodity P) : comNodes n c = importantOf n.graph c := rfl

/-- The earliest arrival at the sink inside `L` is the earliest arrival. -/
theorem earliest_all {g : Graph} {d : Nat → ℚ → ℚ} {sink : Nat} {L : List Nat} (hsub : ∀ v ∈ L, v ∈ g.nodes) (hcl : ClosedTo g sink L)
    {source : Nat} (hs : source ∈ L) {phi b : ℚ} (h1 : Arrives g d L source phi sink b) (h2 : ∀ t, Arrives g d L source phi sink t → b ≤ t) :
    Earliest g d source phi sink b :=
  ⟨arrives_mono hsub h1, fun t ht => h2 t (arrives_inside hcl hs ht .refl).2⟩

theorem arrival_ok {g : Graph} (hg : Consistent g) {costs : List (ℚ → Py ℚ)} {d : Nat → ℚ → ℚ} {phi : ℚ} (hc : FifoCosts g phi costs d)
    {sink : Nat} {L : List Nat} (hsub : ∀ v ∈ L, v ∈ g.nodes) (hcl : ClosedTo g sink L) {v : Nat} (hv : v ∈ L) (hp : Path g v sink) :
    ∃ res b, dynamicDijkstra g phi v sink L costs = .ok res ∧ res.arrival sink = some b ∧ Earliest g d v phi sink b := by
  obtain ⟨res, r1, post⟩ := dynamicDijkstra_spec (sink := sink) hg hc (hsub v hv) hsub
  obtain ⟨ts, hts⟩ := arrives_of_path (d := d) (phi := phi) hcl hv hp
  obtain ⟨b, hb⟩ : ∃ b, res.arrival sink = some b := by
    rcases post.all sink ts hts with h | ⟨b, hb, _⟩
    · exact h
    · exact ⟨b, hb⟩
  obtain ⟨_, e1, e2⟩ := post.earliest sink b hb
  exact ⟨res, b, r1, hb, earliest_all hsub hcl hv e1 e2⟩

theorem arrives_via {g : Graph} {d : Nat → ℚ → ℚ} {nodes : List Nat} {e : Nat} (he : e ∈ g.edges) (hw : g.nodeTo e ∈ nodes) {t : ℚ} {v : Nat} {x : ℚ}
    (h : Arrives g d nodes (g.nodeTo e) (t + d e t) v x) : Arrives g d nodes (g.nodeFrom e) t v x := by
  induction h with
  | start => exact .step e he hw .start
  | step e' he' hw' _ ih => exact .step e' he' hw' ih

theorem predEdgeDelay_spec (hg : Consistent n.graph) {costs : List PL} {d : Nat → ℚ → ℚ} {t : ℚ} (hc : FifoCosts n.graph t (costs.map PL.eval) d)
    {sink : Nat} {L : List Nat} (hsub : ∀ v ∈ L, v ∈ n.graph.nodes) (hs : sink ∈ L) (hcl : ClosedTo n.graph sink L) (hL : ∀ v ∈ L, Path n.graph v sink)
    {i e : Nat} (hi : n.graph.edges[i]? = some e) (hv : n.graph.nodeFrom e ∈ L) (hvs : n.graph.nodeFrom e ≠ sink) (hp : Path n.graph (n.graph.nodeTo e) sink) :
    ∃ x, predEdgeDelay t i n sink L costs = .ok x ∧ 0 ≤ x ∧ EdgeDelay n.graph d sink t e x := by
  have he : e ∈ n.graph.edges := List.mem_of_getElem? hi
  have hid : (n.graph.edge e).id = i := by
    obtain ⟨h1, h2⟩ := List.getElem?_eq_some_iff.mp hi
    rw [← h2]; exact hg.ids i h1
  have hw : n.graph.nodeTo e ∈ L := hcl e he hv hp
  obtain ⟨res, A, r1, r2, r3, r4⟩ := dynamic_ok hg hc hsub hs hcl hL hv hvs
  obtain ⟨res0, b, a1, a2, a3⟩ := arrival_ok hg hc hsub hcl hv (hL _ hv)
  rw [r1] at a1; injection a1 with a1; subst a1
  have hge : t ≤ t + d e t := by have := hc.nonneg e he t le_rfl; linarith
  have hc' : FifoCosts n.graph (t + d e t) (costs.map PL.eval) d := ⟨fun e he => by
      obtain ⟨f, f1, f2⟩ := hc.call e he; exact ⟨f, f1, fun x hx => f2 x (le_trans hge hx)⟩,
    fun e he x hx => hc.nonneg e he x (le_trans hge hx), fun e he x y hx hxy => hc.fifo e he x y (le_trans hge hx) hxy⟩
  obtain ⟨res', b', c1, c2, c3⟩ := arrival_ok hg hc' hsub hcl hw hp
  have hbb : b ≤ b' := a3.2 b' (arrives_via he (hsub _ hw) c3.1)
  obtain ⟨f, f1, f2⟩ := hc.call e he
  rw [hid, List.getElem?_map] at f1
  obtain ⟨p, p1, rfl⟩ := Option.map_eq_some_iff.mp f1
  unfold predEdgeDelay
  rw [rd_eq_ok.mpr hi, ok_bind, r1, ok_bind, r2, ok_bind]
  by_cases hA : e ∈ A
  · rw [if_pos hA]
    exact ⟨0, rfl, le_rfl, b, b', a3, c3, hbb, .inr ⟨rfl, r4.sound e hA⟩, fun _ _ => rfl⟩
  · rw [if_neg hA, rd_eq_ok.mpr p1, ok_bind, f2 t le_rfl, ok_bind, c1, ok_bind]
    unfold look
    rw [c2, a2]
    refine ⟨b' - b, rfl, by linarith, b, b', a3, c3, hbb, .inl rfl, fun h1 h2 => ?_⟩
    exact absurd (r4.complete h1 e ((out_mem hg (hsub _ hv)).mpr ⟨he, rfl⟩) h2) hA

/-! The loops. -/

theorem better_le (d : ℚ) (w : Witness) (m : Found) : d ≤ (better d w m).eps ∧ m.eps ≤ (better d w m).eps := by
  unfold better
  split
  · next h => exact ⟨le_rfl, le_of_lt h⟩
  · next h => exact ⟨not_lt.mp h, le_rfl⟩

/-- The report is the old one, or it has a larger delay at a witness in `G`. -/
def Step (G : Witness → ℚ → Prop) (m m' : Found) : Prop :=
  m.eps ≤ m'.eps ∧ (m' = m ∨ ∃ w, m'.witness = some w ∧ m.eps < m'.eps ∧ G w m'.eps)

theorem Step.refl {G : Witness → ℚ → Prop} (m : Found) : Step G m m := ⟨le_rfl, .inl rfl⟩

theorem Step.trans {G : Witness → ℚ → Prop} {a b c : Found} (h1 : Step G a b) (h2 : Step G b c) : Step G a c := by
  refine ⟨le_trans h1.1 h2.1, ?_⟩
  rcases h2.2 with rfl | ⟨w, w1, w2, w3⟩
  · exact h1.2
  · exact .inr ⟨w, w1, lt_of_le_of_lt h1.1 w2, w3⟩

theorem Step.mono {G G' : Witness → ℚ → Prop} (h : ∀ w x, G w x → G' w x) {a b : Found} (h1 : Step G a b) : Step G' a b := by
  refine ⟨h1.1, ?_⟩
  rcases h1.2 with e | ⟨w, w1, w2, w3⟩
  · exact .inl e
  · exact .inr ⟨w, w1, w2, h _ _ w3⟩

theorem better_step {G : Witness → ℚ → Prop} {d : ℚ} {w : Witness} (h : G w d) (m : Found) : Step G m (better d w m) := by
  refine ⟨(better_le d w m).2, ?_⟩
  unfold better
  split
  · next hd => exact .inr ⟨w, rfl, hd, h⟩
  · exact .inl rfl

/-- The witnesses of an interval. -/
def WitnessIn (n : Network P) (sink : Nat) (L : List Nat) (start stop : ℚ) (cs ce : List PL) (S : Nat → Prop) (w : Witness) (x : ℚ) : Prop :=
  w.start = start ∧ w.stop = stop ∧ S w.edge ∧
    if w.atStart then predEdgeDelay start w.edge n sink L cs = .ok x else predEdgeDelay stop w.edge n sink L ce = .ok x

/-- A dict of delays holds the delays of the edges. -/
def Holds (n : Network P) (sink : Nat) (L : List Nat) (t : ℚ) (costs : List PL) (D : Nat → Option ℚ) : Prop :=
  ∀ e x, D e = some x → predEdgeDelay t e n sink L costs = .ok x

theorem Holds.put {sink : Nat} {L : List Nat} {t : ℚ} {costs : List PL} {D : Nat → Option ℚ} (h : Holds n sink L t costs D) {e : Nat} {x : ℚ}
    (hx : predEdgeDelay t e n sink L costs = .ok x) : Holds n sink L t costs (put D e x) := by
  intro e' x' h'
  unfold Dijkstra.put at h'
  by_cases hc : e' = e
  · rw [if_pos hc] at h'; injection h' with h'; subst h' hc; exact hx
  · rw [if_neg hc] at h'; exact h e' x' h'

theorem measureEdge_spec {sink : Nat} {L : List Nat} {start stop : ℚ} {cs ce : List PL} {e : Nat} (m : Found) {ds de : Nat → Option ℚ}
    (hds : Holds n sink L start cs ds) (hde : Holds n sink L stop ce de) {x y : ℚ} (hx : predEdgeDelay start e n sink L cs = .ok x)
    (hy : predEdgeDelay stop e n sink L ce = .ok y) {S : Nat → Prop} (hS : S e) :
    ∃ m' ds' de', measureEdge n sink L start stop cs ce e m ds de = .ok (m', ds', de') ∧ Holds n sink L start cs ds' ∧ Holds n sink L stop ce de' ∧
      x ≤ m'.eps ∧ y ≤ m'.eps ∧ Step (WitnessIn n sink L start stop cs ce S) m m' := by
  unfold measureEdge
  have key : ∃ ds', startDelays n sink L start cs e ds = .ok ds' ∧ ds' e = some x ∧ Holds n sink L start cs ds' := by
    unfold startDelays
    by_cases hs : (ds e).isSome
    · rw [if_pos hs]
      obtain ⟨x', hx'⟩ := Option.isSome_iff_exists.mp hs
      have := hds e x' hx'
      rw [hx] at this; injection this with this; subst this
      exact ⟨ds, rfl, hx', hds⟩
    · rw [if_neg hs, hx, ok_bind]
      exact ⟨_, rfl, by unfold Dijkstra.put; rw [if_pos rfl], hds.put hx⟩
  obtain ⟨ds', k1, k2, k3⟩ := key
  rw [k1, ok_bind]
  have hl : look ds' e = .ok x := by unfold look; rw [k2]
  rw [hl, ok_bind]
  simp only
  rw [hy, ok_bind]
  refine ⟨_, ds', put de e y, rfl, k3, hde.put hy, ?_, (better_le _ _ _).1, ?_⟩
  · exact le_trans (better_le _ _ _).1 (better_le _ _ _).2
  · refine (better_step ?_ m).trans (better_step ?_ _)
    · exact ⟨rfl, rfl, hS, by rw [if_pos rfl]; exact hx⟩
    · exact ⟨rfl, rfl, hS, by rw [if_neg (by simp)]; exact hy⟩

/-- Edges with positive inflow. -/
def Positive (flow : DFlow) (i : Nat) (start stop : ℚ) (e : Nat) : Prop :=
  ∃ f, (flow.inflow e).funs i = some f ∧ isPositiveDuring f start stop = .ok true

theorem measureEdges_spec {flow : DFlow} {i sink : Nat} {L : List Nat} {start stop : ℚ} {cs ce : List PL} : ∀ (es : List Nat) (m : Found) {ds de : Nat → Option ℚ},
    Holds n sink L start cs ds → Holds n sink L stop ce de → (∀ e ∈ es, ∀ f, (flow.inflow e).funs i = some f → ∃ r, isPositiveDuring f start stop = .ok r) →
    (∀ e ∈ es, Positive flow i start stop e → ∃ x y, predEdgeDelay start e n sink L cs = .ok x ∧ predEdgeDelay stop e n sink L ce = .ok y) →
    ∃ m' de', measureEdges flow n i sink L start stop cs ce es m ds de = .ok (m', de') ∧ Holds n sink L stop ce de' ∧
      (∀ e ∈ es, Positive flow i start stop e → ∀ x y, predEdgeDelay start e n sink L cs = .ok x → predEdgeDelay stop e n sink L ce = .ok y → x ≤ m'.eps ∧ y ≤ m'.eps) ∧
      Step (WitnessIn n sink L start stop cs ce (fun e => e ∈ es ∧ Positive flow i start stop e)) m m' := by
  intro es
  induction es with
  | nil => intro m ds de _ h2 _ _; exact ⟨m, de, rfl, h2, by simp, Step.refl m⟩
  | cons e es ih =>
    intro m ds de h1 h2 h3 h4
    have h3' : ∀ e ∈ es, ∀ f, (flow.inflow e).funs i = some f → ∃ r, isPositiveDuring f start stop = .ok r := fun e he => h3 e (by simp [he])
    have h4' : ∀ e ∈ es, Positive flow i start stop e → ∃ x y, predEdgeDelay start e n sink L cs = .ok x ∧ predEdgeDelay stop e n sink L ce = .ok y :=
      fun e he => h4 e (by simp [he])
    have hmono : ∀ w x, WitnessIn n sink L start stop cs ce (fun e => e ∈ es ∧ Positive flow i start stop e) w x →
        WitnessIn n sink L start stop cs ce (fun e' => e' ∈ e :: es ∧ Positive flow i start stop e') w x :=
      fun w x h => ⟨h.1, h.2.1, ⟨List.mem_cons_of_mem _ h.2.2.1.1, h.2.2.1.2⟩, h.2.2.2⟩
    have skip : ∀ (hno : ¬ Positive flow i start stop e), ∃ m' de', measureEdges flow n i sink L start stop cs ce es m ds de = .ok (m', de') ∧ Holds n sink L stop ce de' ∧
      (∀ e' ∈ e :: es, Positive flow i start stop e' → ∀ x y, predEdgeDelay start e' n sink L cs = .ok x → predEdgeDelay stop e' n sink L ce = .ok y → x ≤ m'.eps ∧ y ≤ m'.eps) ∧
      Step (WitnessIn n sink L start stop cs ce (fun e' => e' ∈ e :: es ∧ Positive flow i start stop e')) m m' := by
      intro hno
      obtain ⟨m', de', a1, a2, a3, a4⟩ := ih m h1 h2 h3' h4'
      refine ⟨m', de', a1, a2, ?_, a4.mono hmono⟩
      intro e' he' hp
      rcases List.mem_cons.mp he' with rfl | he'
      · exact absurd hp hno
      · exact a3 e' he' hp
    unfold measureEdges
    cases hf : (flow.inflow e).funs i with
    | none =>
      simp only
      exact skip (by rintro ⟨f, f1, _⟩; rw [hf] at f1; cases f1)
    | some f =>
      simp only
      obtain ⟨r, hr⟩ := h3 e (by simp) f hf
      rw [hr, ok_bind]
      cases r with
      | false =>
        rw [if_neg (by simp)]
        exact skip (by rintro ⟨f', f1, f2⟩; rw [hf] at f1; injection f1 with f1; subst f1; rw [hr] at f2; cases f2)
      | true =>
        rw [if_pos rfl]
        have hpos : Positive flow i start stop e := ⟨f, hf, hr⟩
        obtain ⟨x, y, hx, hy⟩ := h4 e (by simp) hpos
        obtain ⟨m1, ds1, de1, b1, b2, b3, b4, b5, b6⟩ := measureEdge_spec m h1 h2 hx hy (S := fun e' => e' ∈ e :: es ∧ Positive flow i start stop e') ⟨by simp, hpos⟩
        rw [b1, ok_bind]
        simp only
        obtain ⟨m', de', a1, a2, a3, a4⟩ := ih m1 b2 b3 h3' h4'
        refine ⟨m', de', a1, a2, ?_, b6.trans (a4.mono hmono)⟩
        intro e' he' hp x' y' hx' hy'
        rcases List.mem_cons.mp he' with rfl | he'
        · rw [hx] at hx'; injection hx' with hx'; subst hx'
          rw [hy] at hy'; injection hy' with hy'; subst hy'
          exact ⟨le_trans b4 a4.1, le_trans b5 a4.1⟩
        · exact a3 e' he' hp x' y' hx' hy'

/-- All that is needed for measuring over the intervals from `k` on. -/
structure CanMeasure (flow : DFlow) (n : Network P) (i sink : Nat) (L : List Nat) (times : List ℚ) (preds : List (List PL)) : Prop where
  costs : ∀ (k : Nat) (a : ℚ) (p : List PL), times[k]? = some a → preds[k]? = some p → ∃ cs, costsFromPreds n p a = .ok cs
  pos : ∀ (k : Nat) (a b : ℚ), times[k]? = some a → times[k + 1]? = some b → ∀ e < n.graph.edges.length, ∀ f, (flow.inflow e).funs i = some f →
    ∃ r, isPositiveDuring f a b = .ok r
  delay : ∀ (k : Nat) (a b : ℚ) (p q : List PL) (cs ce : List PL), times[k]? = some a → times[k + 1]? = some b → preds[k]? = some p → preds[k + 1]? = some q →
    costsFromPreds n p a = .ok cs → costsFromPreds n q b = .ok ce → ∀ e < n.graph.edges.length, Positive flow i a b e →
    ∃ x y, predEdgeDelay a e n sink L cs = .ok x ∧ predEdgeDelay b e n sink L ce = .ok y

/-- A witness in some interval `k` of a list. -/
def WitnessAt (flow : DFlow) (n : Network P) (i sink : Nat) (L : List Nat) (times : List ℚ) (preds : List (List PL)) (ks : List Nat) (w : Witness) (x : ℚ) : Prop :=
  ∃ (k : Nat) (a b : ℚ) (p q : List PL) (cs ce : List PL), k ∈ ks ∧ times[k]? = some a ∧ times[k + 1]? = some b ∧ preds[k]? = some p ∧ preds[k + 1]? = some q ∧
    costsFromPreds n p a = .ok cs ∧ costsFromPreds n q b = .ok ce ∧
    WitnessIn n sink L a b cs ce (fun e => e ∈ List.range n.graph.edges.length ∧ Positive flow i a b e) w x

theorem measureIntervals_spec {flow : DFlow} {i sink : Nat} {L : List Nat} {times : List ℚ} {preds : List (List PL)} (h : CanMeasure flow n i sink L times preds)
    (hlen : preds.length = times.length) : ∀ (j k : Nat) (m : Found) (a : ℚ) (p cs : List PL) (ds : Nat → Option ℚ), k + j + 1 = times.length →
    times[k]? = some a → preds[k]? = some p → costsFromPreds n p a = .ok cs → Holds n sink L a cs ds →
    ∃ m', measureIntervals flow n i sink L times preds (List.range' k j) m cs ds = .ok m' ∧
      (∀ k' ∈ List.range' k j, ∀ (a b : ℚ) (p q : List PL) (cs ce : List PL), times[k']? = some a → times[k' + 1]? = some b → preds[k']? = some p → preds[k' + 1]? = some q →
        costsFromPreds n p a = .ok cs → costsFromPreds n q b = .ok ce → ∀ e < n.graph.edges.length, Positive flow i a b e →
        ∀ x y, predEdgeDelay a e n sink L cs = .ok x → predEdgeDelay b e n sink L ce = .ok y → x ≤ m'.eps ∧ y ≤ m'.eps) ∧
      Step (WitnessAt flow n i sink L times preds (List.range' k j)) m m' := by
  intro j
  induction j with
  | zero => intro k m a p cs ds _ _ _ _ _; exact ⟨m, rfl, by simp, Step.refl m⟩
  | succ j ih =>
    intro k m a p cs ds hk ha hp hcs hds
    have hb' : k + 1 < times.length := by omega
    have hq' : k + 1 < preds.length := by omega
    have hb := List.getElem?_eq_getElem hb'
    have hq := List.getElem?_eq_getElem hq'
    obtain ⟨ce, hce⟩ := h.costs (k + 1) _ _ hb hq
    rw [List.range'_succ]
    unfold measureIntervals
    rw [rd_eq_ok.mpr ha, ok_bind, rd_eq_ok.mpr hb, ok_bind, rd_eq_ok.mpr hq, ok_bind, hce, ok_bind]
    obtain ⟨m1, de, e1, e2, e3, e4⟩ := measureEdges_spec (flow := flow) (i := i) (List.range n.graph.edges.length) m hds (de := fun _ => none)
      (ce := ce) (stop := times[k + 1]) (fun e x hx => by cases hx)
      (fun e he f hf => h.pos k a _ ha hb e (List.mem_range.mp he) f hf)
      (fun e he hpos => h.delay k a _ p _ cs ce ha hb hp hq hcs hce e (List.mem_range.mp he) hpos)
    rw [e1, ok_bind]
    simp only
    obtain ⟨m', f1, f2, f3⟩ := ih (k + 1) m1 _ _ ce de (by omega) hb hq hce e2
    refine ⟨m', f1, ?_, ?_⟩
    · intro k' hk' a' b' p' q' cs' ce' g1 g2 g3 g4 g5 g6 e he hpos x y hx hy
      rcases List.mem_cons.mp hk' with rfl | hk'
      · rw [ha] at g1; injection g1 with g1; subst g1
        rw [hb] at g2; injection g2 with g2; subst g2
        rw [hp] at g3; injection g3 with g3; subst g3
        rw [hq] at g4; injection g4 with g4; subst g4
        rw [hcs] at g5; injection g5 with g5; subst g5
        rw [hce] at g6; injection g6 with g6; subst g6
        obtain ⟨x1, y1⟩ := e3 e (List.mem_range.mpr he) hpos x y hx hy
        exact ⟨le_trans x1 f3.1, le_trans y1 f3.1⟩
      · exact f2 k' hk' a' b' p' q' cs' ce' g1 g2 g3 g4 g5 g6 e he hpos x y hx hy
    · refine (e4.mono ?_).trans (f3.mono ?_)
      · intro w x hw
        exact ⟨k, a, _, p, _, cs, ce, by simp, ha, hb, hp, hq, hcs, hce, hw⟩
      · rintro w x ⟨k', a', b', p', q', cs', ce', g0, g⟩
        exact ⟨k', a', b', p', q', cs', ce', List.mem_cons_of_mem _ g0, g⟩

/-- The measurement times. -/
theorem predTimes_spec (future : Nat) {reroute : ℚ} (hr : 0 < reroute) (pi horizon : ℚ) :
    ∃ times, predTimes future reroute pi horizon = .ok times ∧
      ∀ (k : Nat) (x : ℚ), times[k]? = some x ↔ x = k * (reroute / 2) ∧ x ≤ horizon - (future + 1) * pi := by
  unfold predTimes
  simp only
  have h2 : (2 : ℚ) ≠ 0 := by norm_num
  have h3 : reroute / 2 ≠ 0 := by positivity
  unfold pyDiv
  rw [if_neg h2, ok_bind, if_neg h3, ok_bind]
  refine ⟨_, rfl, fun k x => ?_⟩
  have hiff : k < (⌊(horizon - (future + 1) * pi) / (reroute / 2)⌋ + 1).toNat ↔ (k : ℚ) * (reroute / 2) ≤ horizon - (future + 1) * pi := by
    rw [Int.lt_toNat, Int.lt_add_one_iff, Int.le_floor, le_div_iff₀ (by positivity)]
    simp
  rw [List.getElem?_map, Option.map_eq_some_iff]
  constructor
  · rintro ⟨j, h1, rfl⟩
    obtain ⟨hl, h1⟩ := List.getElem?_eq_some_iff.mp h1
    rw [List.getElem_range] at h1; subst h1
    rw [List.length_range] at hl
    exact ⟨rfl, hiff.mp hl⟩
  · rintro ⟨rfl, hx⟩
    exact ⟨k, List.getElem?_range (hiff.mpr hx), rfl⟩

end Delay
end Verif
