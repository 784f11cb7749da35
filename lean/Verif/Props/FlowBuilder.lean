import Verif.Proofs.BuilderCheck
import Verif.Proofs.Predictors
import Verif.Props.Graph
import Mathlib.Data.List.Dedup

/-! Properties of the flow builder (src/core/flow_builder.py) and of `build_with_times` (src/utilities/build_with_times.py).

`rounds ord preds k b` is the builder after `k` rounds of the loop; a round ends at a `yield`. The network and the predictors are
valid (`InputOk`, `PredictorsOk`), sets are iterated over in any order (`OrderOk`), the rates that are set touch no tolerance
(`ClearRounds`). -/

namespace Verif.Props
open Verif Spec Builder AvgTravelTime

variable {P : Type} [DecidableEq P]

/-- The hypotheses shared by the theorems on building: `b` is what the constructor returned for a valid input with
interval `d`, marked as being built, and the first `k` rounds touch no tolerance. -/
structure Building (n : Network P) (ord : List Nat → List Nat) (preds : P → Predictor) (d : ℚ) (b : Builder P) (k : Nat) : Prop where
  input : InputOk n
  order : OrderOk ord
  predictors : PredictorsOk n preds
  interval : 0 < d
  made : ∃ b0, Builder.init n (some d) = .ok b0 ∧ b = { b0 with built := true }
  clear : ClearRounds ord preds b k

variable {n : Network P} {ord : List Nat → List Nat} {preds : P → Predictor} {d : ℚ} {b0 : Builder P} {k : Nat}

theorem building_inv (h : Building n ord preds d b0 k) : ∃ f0 W, DFlow.init = .ok f0 ∧ Inv n preds d f0 [] (fun _ _ => none) 0 W b0 := by
  obtain ⟨b', hb, rfl⟩ := h.made
  obtain ⟨b, f0, W, h1, h2, h3, h4, h5⟩ := inv_init (preds := preds) h.input d
  rw [hb] at h1; injection h1 with h1; subst h1
  exact ⟨f0, W, h2, ⟨⟨h5.static.net, h5.static.interval, h5.static.imp, h5.static.sinks⟩, h5.flow, h5.supp, h5.reads, h5.run, h5.calls, h5.next, h5.le, fun k hk => by omega,
    h5.pred, h5.heap, h5.wbreak, h5.breaks, h5.handle, h5.past, h5.now⟩⟩

/-- **C43.** Building never raises; the flow results from valid calls of `extend`; and at every node and every time
before `phi`, every commodity leaves the node as `Routed` says: not at all at its sink, otherwise all that arrives (from
incoming edges and from outside) in equal parts on active edges and on no other edge. The active edges are those of the
predictions `hist K` made for the routing period `K` of the time. -/
theorem C43_conservation (h : Building n ord preds d b0 k) :
    ∃ b, rounds ord preds k b0 = .ok b ∧ ∃ f0 cs, ∃ hist : Nat → P → Option (List PL), DFlow.init = .ok f0 ∧ CallsOk n.data f0 cs ∧ runFlow n.data f0 cs = .ok b.flow ∧
      (∀ K p ps, hist K p = some ps → Predicted n preds d f0 cs K p ps) ∧
      ∀ v ∈ n.graph.nodes, ∀ i t, 0 ≤ t → t < b.flow.phi → ∃ K : Nat, K * d ≤ t ∧ t < (K + 1) * d ∧
        Routed n b.flow v i t (ActiveFor n preds (K * d) (hist K) i v) := by
  obtain ⟨f0, W, hf, hi⟩ := building_inv h
  obtain ⟨b, cs, hist, K, W', r1, r2, _⟩ := inv_rounds h.input h.order h.predictors h.interval hf hi k h.clear
  exact ⟨b, r1, f0, cs, hist, hf, r2.calls, r2.run, r2.pred, r2.past⟩

/-- **C43**, as a balance: whatever arrives at a node that is not the sink leaves it, if it is at least `eps`. -/
theorem C43_balance (h : Building n ord preds d b0 k) {b : Builder P} (hb : rounds ord preds k b0 = .ok b) {v i : Nat} (hv : v ∈ n.graph.nodes)
    {t : ℚ} (ht : 0 ≤ t) (ht' : t < b.flow.phi) (hs : ¬ IsSink n i v) (he : eps ≤ arriving n b.flow v i t) :
    ((n.graph.outgoing v).map (fun e => inRate b.flow (n.graph.edge e).id i t)).sum = arriving n b.flow v i t := by
  obtain ⟨b', hb', f0, cs, hist, _, _, _, _, hr⟩ := C43_conservation h
  rw [hb] at hb'; injection hb' with hb'; subst hb'
  obtain ⟨K, _, _, hr⟩ := hr v hv i t ht ht'
  obtain ⟨A, a1, a2, a3, _, a5⟩ := hr.split hs he
  have hnd := out_nodup h.input.graph hv
  have hlen : (0 : ℚ) < (A.length : ℚ) := by exact_mod_cast List.length_pos_iff.mpr a1
  rw [List.map_congr_left a5]
  have key : ∀ l : List Nat, l.Nodup → (l.map (fun e => if e ∈ A then arriving n b.flow v i t / A.length else 0)).sum =
      ((l.filter (· ∈ A)).length : ℚ) * (arriving n b.flow v i t / A.length) := by
    intro l
    induction l with
    | nil => intro _; simp
    | cons x l ih =>
      intro hnd
      rw [List.nodup_cons] at hnd
      rw [List.map_cons, List.sum_cons, ih hnd.2]
      by_cases hx : x ∈ A
      · rw [if_pos hx, List.filter_cons_of_pos (by simpa using hx), List.length_cons]; push_cast; ring
      · rw [if_neg hx, List.filter_cons_of_neg (by simpa using hx)]; ring
  rw [key _ hnd]
  have hperm : ((n.graph.outgoing v).filter (· ∈ A)).Perm A := by
    rw [List.perm_ext_iff_of_nodup (hnd.filter _) a2]
    intro x
    rw [List.mem_filter]
    constructor
    · rintro ⟨_, hx⟩; simpa using hx
    · intro hx; exact ⟨a3 x hx, by simpa using hx⟩
  rw [hperm.length_eq]
  field_simp

/-- **C44.** Where flow of commodity `i` enters an edge at time `t`, the edge does not leave the sink, and it is one of a set of active
edges of the routing period: with a constant predictor, the first edges of routes that are shortest for the predicted costs
(up to `eps` per edge), otherwise first edges of routes of earliest arrival. -/
theorem C44_active (h : Building n ord preds d b0 k) {b : Builder P} (hb : rounds ord preds k b0 = .ok b) :
    ∃ f0 cs, ∃ hist : Nat → P → Option (List PL), DFlow.init = .ok f0 ∧ runFlow n.data f0 cs = .ok b.flow ∧ (∀ K p ps, hist K p = some ps → Predicted n preds d f0 cs K p ps) ∧
      ∀ e ∈ n.graph.edges, ∀ i t, 0 ≤ t → t < b.flow.phi → inRate b.flow (n.graph.edge e).id i t ≠ 0 → ¬ IsSink n i (n.graph.nodeFrom e) ∧
        ∃ K : Nat, K * d ≤ t ∧ t < (K + 1) * d ∧ ∃ A, e ∈ A ∧ ActiveFor n preds (K * d) (hist K) i (n.graph.nodeFrom e) A := by
  obtain ⟨b', hb', f0, cs, hist, hf, _, hrun, hpred, hr⟩ := C43_conservation h
  rw [hb] at hb'; injection hb' with hb'; subst hb'
  refine ⟨f0, cs, hist, hf, hrun, hpred, ?_⟩
  intro e he i t ht ht' hne
  have hv := (h.input.graph.ends e he).1
  have hout : e ∈ n.graph.outgoing (n.graph.nodeFrom e) := (out_mem h.input.graph hv).mpr ⟨he, rfl⟩
  obtain ⟨K, k1, k2, hr⟩ := hr _ hv i t ht ht'
  have hns : ¬ (IsSink n i (n.graph.nodeFrom e) ∨ arriving n b.flow (n.graph.nodeFrom e) i t < eps) := fun hc => hne (hr.stop hc e hout)
  rw [not_or] at hns
  obtain ⟨A, _, _, _, a4, a5⟩ := hr.split hns.1 (not_lt.mp hns.2)
  refine ⟨hns.1, K, k1, k2, A, ?_, a4⟩
  by_contra hc
  have := a5 e hout
  rw [if_neg hc] at this
  exact hne this

/-- **C45.** The routing time of a round is the last multiple of the interval not after the time at its start; the
next routing time is the next multiple, and the round does not go past it. -/
theorem C45_routing_times (h : Building n ord preds d b0 k) {m : Nat} (hm : m < k) {b b' : Builder P} (hb : rounds ord preds m b0 = .ok b)
    (hb' : rounds ord preds (m + 1) b0 = .ok b') :
    ∃ K : Nat, b'.route = K * d ∧ K * d ≤ b.flow.phi ∧ b.flow.phi < (K + 1) * d ∧ b'.nextReroute = (K + 1) * d ∧ b.flow.phi ≤ b'.flow.phi ∧
      b'.flow.phi ≤ (K + 1) * d := by
  obtain ⟨f0, W, hf, hi⟩ := building_inv h
  obtain ⟨b1, cs, hist, K, W', r1, r2, _⟩ := inv_rounds h.input h.order h.predictors h.interval hf hi m (fun j hj => h.clear j (by omega))
  rw [hb] at r1; injection r1 with r1; subst r1
  obtain ⟨l, T, b2, cs', hist', k', W', H, p1, p2, p3, p4⟩ := prepare_spec h.input h.order h.predictors h.interval hf r2
  obtain ⟨b3, s1, s2, s3, s4, s5, _⟩ := step_spec h.input p3 p1 (by
    have := h.clear m hm b l T b2 hb p1
    rw [p3.static.net] at this; exact this)
  have : rounds ord preds (m + 1) b0 = .ok b3 := by
    unfold rounds; rw [hb, ok_bind]; exact s1
  rw [hb'] at this; injection this with this; subst this
  obtain ⟨x1, x2, _⟩ := s2.route k' rfl
  have hphi := p3.same.phi
  refine ⟨k', x1, by rw [← hphi]; exact p3.low, by rw [← hphi]; exact p3.high, ?_, s3, s4⟩
  rw [s2.next]; push_cast; ring

/-- **C45.** The time never jumps over a multiple of the interval. -/
theorem C45_never_past (h : Building n ord preds d b0 k) {m : Nat} (hm : m < k) {b b' : Builder P} (hb : rounds ord preds m b0 = .ok b)
    (hb' : rounds ord preds (m + 1) b0 = .ok b') {K : Nat} (hK : b.flow.phi < K * d) : b'.flow.phi ≤ K * d := by
  obtain ⟨K', _, h2, _, _, _, h6⟩ := C45_routing_times h hm hb hb'
  have hlt : (K' : ℚ) * d < K * d := by linarith
  have hle : K' + 1 ≤ K := by
    have := lt_of_mul_lt_mul_right hlt (le_of_lt h.interval)
    exact_mod_cast this
  have : ((K' : ℚ) + 1) ≤ K := by exact_mod_cast hle
  have := mul_le_mul_of_nonneg_right this (le_of_lt h.interval)
  linarith

/-- **C46** fails: the constructor accepts `reroute_interval=None`, but the first round raises `TypeError`, for every valid network. -/
theorem C46_none_raises (hn : InputOk n) : ∃ b, Builder.init n none = .ok b ∧ b.step ord preds = .error .typeErr := by
  obtain ⟨b, f0, h1, _, _, h4, _, _, _, _, _, _, _, _, _, _, _, M, h16, h17⟩ := init_spec hn none
  classical
  obtain ⟨h', W', H, p1, _⟩ := popChanges_spec (b.changes.len + 1) b (fun x => decide (Break n.commodities x)) (h16.congr (fun x => by
    by_cases hb : Break n.commodities x
    · simp [wmap, hb, (h17 x).1 hb]
    · simp [wmap, hb, (h17 x).2 hb])) (by omega)
  refine ⟨b, h1, ?_⟩
  unfold step prepare
  rw [p1, ok_bind]
  unfold reroute
  simp only [h4]
  rfl

/-- A network with parallel edges and a detour, and three commodities: the first with zero predictions, the second with constant
predictions, the third with predictions not declared constant. -/
def buildNet : Network (Fin 3) :=
  { ((((Network.empty : Network (Fin 3)).addEdge 0 1 1 1).addEdge 0 1 1 2).addEdge 0 2 4 1).addEdge 1 2 1 1 with
    commodities := [⟨[(0, ⟨[0, 2], [3, 0], ((0 : ℚ) : WithBot ℚ), ⊤⟩)], 2, 0⟩, ⟨[(0, ⟨[0, 3], [1, 0], ((0 : ℚ) : WithBot ℚ), ⊤⟩)], 2, 1⟩,
      ⟨[(1, ⟨[0, 1], [(1 / 2), 0], ((0 : ℚ) : WithBot ℚ), ⊤⟩)], 2, 2⟩] }

/-- The predictors of the example. -/
def buildPreds : Fin 3 → Predictor
  | 0 => Predictors.zero 4
  | 1 => Predictors.const 4
  | 2 => { Predictors.const 4 with constant := false }

theorem buildNet_ok : InputOk buildNet := by
  have hg : Consistent buildNet.graph := by
    refine ⟨by decide +kernel, by decide +kernel, by decide +kernel, by decide +kernel, by decide +kernel, by decide +kernel, ?_⟩
    have : ∀ i : Fin 4, (buildNet.graph.edge (buildNet.graph.edges[i.1]'(by have := i.2; exact this))).id = i.1 := by decide +kernel
    intro i h
    exact this ⟨i, h⟩
  have e01 : Path buildNet.graph 0 1 := Relation.ReflTransGen.single ⟨0, by decide +kernel, rfl, rfl⟩
  have e12 : Path buildNet.graph 1 2 := Relation.ReflTransGen.single ⟨3, by decide +kernel, rfl, rfl⟩
  have i1 : InflowOk ⟨[0, 2], [3, 0], ((0 : ℚ) : WithBot ℚ), ⊤⟩ := ⟨rfl, by simp, by decide +kernel, by decide +kernel, rfl, rfl, by decide +kernel⟩
  have i2 : InflowOk ⟨[0, 3], [1, 0], ((0 : ℚ) : WithBot ℚ), ⊤⟩ := ⟨rfl, by simp, by decide +kernel, by decide +kernel, rfl, rfl, by decide +kernel⟩
  have i3 : InflowOk ⟨[0, 1], [(1 / 2), 0], ((0 : ℚ) : WithBot ℚ), ⊤⟩ := ⟨rfl, by simp, by decide +kernel, by decide +kernel, rfl, rfl, by decide +kernel⟩
  refine ⟨hg, rfl, rfl, by decide +kernel, by decide +kernel, by decide +kernel, by decide +kernel, ?_, ?_, ?_⟩
  · intro c hc s hs
    simp only [buildNet, List.mem_cons, List.not_mem_nil, or_false] at hc
    rcases hc with rfl | rfl | rfl <;> simp only [List.mem_cons, List.not_mem_nil, or_false] at hs <;> subst hs
    · exact ⟨by decide +kernel, e01.trans e12, i1⟩
    · exact ⟨by decide +kernel, e01.trans e12, i2⟩
    · exact ⟨by decide +kernel, e12, i3⟩
  · decide +kernel
  · unfold eps
    intro c hc s hs c' hc' s' hs'
    revert c hc s hs c' hc' s' hs'
    have : ∀ c ∈ buildNet.commodities, ∀ s ∈ c.sources, ∀ c' ∈ buildNet.commodities, ∀ s' ∈ c'.sources,
      ∀ a ∈ s.2.times, ∀ b ∈ s'.2.times, (a < b → (1 : ℚ) / 10000000000 < b - a) := by decide +kernel
    exact fun c hc s hs c' hc' s' hs' _ => this c hc s hs c' hc' s' hs'

theorem buildPreds_ok : PredictorsOk buildNet buildPreds := by
  intro p f0 f calls t h0 hc hr _ ht
  match p with
  | 0 => exact Predictors.zero_ok buildNet_ok t f
  | 1 => exact Predictors.const_ok buildNet_ok h0 hc hr ht
  | 2 => exact Predictors.const_ok buildNet_ok h0 hc hr ht

theorem dedup_order : OrderOk List.dedup := fun l => ⟨List.nodup_dedup l, fun _ => List.mem_dedup⟩

/-- **C43**–**C45**, hypotheses met: seven rounds with interval 2, up to time 7. -/
theorem buildNet_building : ∃ b0 b, Building buildNet List.dedup buildPreds 2 b0 7 ∧ rounds List.dedup buildPreds 7 b0 = .ok b ∧ b.flow.phi = 7 := by
  obtain ⟨b0, h1, h2, b, h3, h4⟩ := buildB_sound (show buildB List.dedup buildPreds buildNet 2 7 (fun b => decide (b.flow.phi = 7)) = true by decide +kernel)
  exact ⟨_, b, ⟨buildNet_ok, dedup_order, buildPreds_ok, by norm_num, ⟨b0, h1, rfl⟩, h2⟩, h3, of_decide_eq_true h4⟩

/-- **C43**, not vacuous: at time 1/2 all of the first commodity's 3 arriving at node 0 leaves it, one half on each of the parallel edges. -/
example : ∃ b0 b, Building buildNet List.dedup buildPreds 2 b0 2 ∧ rounds List.dedup buildPreds 2 b0 = .ok b ∧ 1 / 2 < b.flow.phi ∧
    arriving buildNet b.flow 0 0 (1 / 2) = 3 ∧ inRate b.flow 0 0 (1 / 2) = 3 / 2 ∧ inRate b.flow 1 0 (1 / 2) = 3 / 2 ∧ inRate b.flow 2 0 (1 / 2) = 0 := by
  obtain ⟨b0, h1, h2, b, h3, h4⟩ := buildB_sound (show buildB List.dedup buildPreds buildNet 2 2 (fun b => decide (1 / 2 < b.flow.phi ∧
    arriving buildNet b.flow 0 0 (1 / 2) = 3 ∧ inRate b.flow 0 0 (1 / 2) = 3 / 2 ∧ inRate b.flow 1 0 (1 / 2) = 3 / 2 ∧ inRate b.flow 2 0 (1 / 2) = 0)) = true by decide +kernel)
  exact ⟨_, b, ⟨buildNet_ok, dedup_order, buildPreds_ok, by norm_num, ⟨b0, h1, rfl⟩, h2⟩, h3, of_decide_eq_true h4⟩

/-- **C46**, hypotheses met. -/
example : ∃ b, Builder.init buildNet none = .ok b ∧ b.step List.dedup buildPreds = .error .typeErr := C46_none_raises buildNet_ok

/-- **C47.** Generators of one builder used in any order, `g0` first: every other generator raises `RuntimeError` at its first use
and `StopIteration` later; the outcomes of `g0`, and the builder, are the same as without the others. -/
theorem C47_once {b : Builder P} (hb : b.built = false) (g0 : Nat) (gs : List Nat) :
    let r := Shared.run ord preds (Shared.fresh b) (g0 :: gs)
    let alone := Shared.run ord preds (Shared.fresh b) ((g0 :: gs).filter (· = g0))
    (∀ (i g : Nat), (g0 :: gs)[i]? = some g → g ≠ g0 → r.1[i]? = some (.error (if g ∈ (g0 :: gs).take i then none else some .runtime))) ∧
    (((g0 :: gs).zip r.1).filter (fun p => p.1 = g0)).map Prod.snd = alone.1 ∧ r.2.builder = alone.2.builder := by
  have hn : (Shared.fresh b).next ord preds g0 = (⟨fun j => if j = g0 then .running else .fresh, { b with built := true }⟩, .ok b.flow) := by
    unfold Shared.next Shared.fresh next
    simp only [hb, Bool.false_eq_true, if_false]
  have hrun : ∀ l, Shared.run ord preds (Shared.fresh b) (g0 :: l) = (.ok b.flow :: (Shared.run ord preds ⟨fun j => if j = g0 then .running else .fresh, { b with built := true }⟩ l).1,
      (Shared.run ord preds ⟨fun j => if j = g0 then .running else .fresh, { b with built := true }⟩ l).2) := by
    intro l
    unfold Shared.run
    simp only [hn]
    cases l <;> rfl
  have hown : Owned (⟨fun j => if j = g0 then .running else .fresh, { b with built := true }⟩ : Shared P) g0 := by
    refine ⟨rfl, by simp, ?_⟩
    intro g hg
    simp [hg]
  simp only
  rw [List.filter_cons_of_pos (by simp), hrun, hrun]
  obtain ⟨o1, o2⟩ := Owned.run_own (ord := ord) (preds := preds) gs _ _ hown rfl rfl
  refine ⟨?_, ?_, o2⟩
  · intro i g hg hne
    cases i with
    | zero => simp at hg; exact absurd hg.symm hne
    | succ i =>
      simp only [List.getElem?_cons_succ] at hg ⊢
      rw [Owned.run_other gs _ hown i g hg hne]
      simp [hne]
  · simp only [List.zip_cons_cons]
    rw [List.filter_cons_of_pos (by simp), List.map_cons, o1]

/-- **C47**, the first generator: it yields the flow as it is, then the flow after each round. -/
theorem C47_first {b b' : Builder P} (hb : b.built = false) (g0 m : Nat) (hr : rounds ord preds m { b with built := true } = .ok b') :
    let r := Shared.run ord preds (Shared.fresh b) (List.replicate (m + 1) g0)
    r.2.builder = b' ∧ ∀ i ≤ m, ∃ c, rounds ord preds i { b with built := true } = .ok c ∧ r.1[i]? = some (.ok c.flow) := by
  have hn : (Shared.fresh b).next ord preds g0 = (⟨fun j => if j = g0 then .running else .fresh, { b with built := true }⟩, .ok b.flow) := by
    unfold Shared.next Shared.fresh next
    simp only [hb, Bool.false_eq_true, if_false]
  simp only [List.replicate_succ]
  unfold Shared.run
  simp only [hn]
  obtain ⟨a1, a2⟩ := run_replicate (g0 := g0) (ord := ord) (preds := preds) m ⟨fun j => if j = g0 then .running else .fresh, { b with built := true }⟩ (by simp) b' hr
  refine ⟨a1, ?_⟩
  intro i hi
  cases i with
  | zero => exact ⟨_, rfl, by simp⟩
  | succ i =>
    obtain ⟨c, c1, c2⟩ := a2 i (by omega)
    exact ⟨c, c1, by simpa using c2⟩

/-- **C47**, hypotheses met: a new builder has not been built. -/
example (hn : InputOk n) : ∃ b, Builder.init n (some 1) = .ok b ∧ b.built = false := by
  obtain ⟨b, _, h1, _⟩ := init_spec hn (some 1)
  refine ⟨b, h1, ?_⟩
  unfold Builder.init at h1
  obtain ⟨_, _, h1⟩ := bind_eq_ok.mp h1
  obtain ⟨_, _, h1⟩ := bind_eq_ok.mp h1
  obtain ⟨_, _, h1⟩ := bind_eq_ok.mp h1
  obtain ⟨_, _, h1⟩ := bind_eq_ok.mp h1
  obtain ⟨_, _, h1⟩ := bind_eq_ok.mp h1
  obtain ⟨_, _, h1⟩ := bind_eq_ok.mp h1
  injection h1 with h1; rw [← h1]

/-- **C48.** If `build_with_times` returns, the builder had not been used, and the flow is that of the first round at whose
end `phi` has reached the horizon. -/
theorem C48_reaches {interval horizon : ℚ} {observe : Option (List Nat)} {suppress : Bool} {tick : Nat → Bool} {fuel : Nat} {b b' : Builder P} {f : DFlow}
    (h : buildWithTimes ord preds interval horizon observe suppress tick fuel b = .ok (f, b')) :
    b.built = false ∧ ∃ N, rounds ord preds N { b with built := true } = .ok b' ∧ f = b'.flow ∧ horizon ≤ f.phi ∧
      ∀ m < N, ∃ c, rounds ord preds m { b with built := true } = .ok c ∧ c.flow.phi < horizon := by
  unfold buildWithTimes at h
  cases hb : b.built with
  | true =>
    simp only [next, hb, if_true] at h
    cases h
  | false =>
    refine ⟨rfl, ?_⟩
    simp only [next, hb, Bool.false_eq_true, if_false] at h
    obtain ⟨⟨f1, b1, n1, bd1⟩, hl, h⟩ := bind_eq_ok.mp h
    obtain ⟨N, r1, r2, r3, r4⟩ := buildLoop_sound fuel 0 { b with built := true } b.flow.phi false false f1 b1 n1 bd1 hl
    have he : f1 = f ∧ b1 = b' := by
      simp only at h
      split at h
      · injection h with h; injection h with h1 h2; exact ⟨h1, h2⟩
      · obtain ⟨_, _, h⟩ := bind_eq_ok.mp h
        injection h with h; injection h with h1 h2; exact ⟨h1, h2⟩
    obtain ⟨rfl, rfl⟩ := he
    exact ⟨N, r1, r2, by rw [r2]; exact r3, r4⟩

/-- The network of a builder stays what it was. -/
theorem building_net (h : Building n ord preds d b0 k) {m : Nat} (hm : m ≤ k) {c : Builder P} (hc : rounds ord preds m b0 = .ok c) : c.net = n := by
  obtain ⟨f0, W, hf, hi⟩ := building_inv h
  obtain ⟨b, cs, hist, K, W', r1, r2, _⟩ := inv_rounds h.input h.order h.predictors h.interval hf hi m (fun j hj => h.clear j (by omega))
  rw [hc] at r1; injection r1 with r1; subst r1
  exact r2.static.net

theorem mapPy_all_ok {α β : Type} {f : α → Py β} : ∀ {l : List α} {r : List β}, mapPy f l = .ok r → ∀ x ∈ l, ∃ y, f x = .ok y
  | [], _, _, x, hx => by cases hx
  | a :: l, r, h, x, hx => by
    unfold mapPy at h
    obtain ⟨y, hy, h⟩ := bind_eq_ok.mp h
    obtain ⟨ys, hys, _⟩ := bind_eq_ok.mp h
    rcases List.mem_cons.mp hx with rfl | hx
    · exact ⟨y, hy⟩
    · exact mapPy_all_ok hys x hx

/-- **C48.** With logging on, `build_with_times` returns only if the average travel time of every observed commodity can be computed for the final flow. -/
theorem C48_observed {interval horizon : ℚ} {l : List Nat} {tick : Nat → Bool} {fuel : Nat} {b b' : Builder P} {f : DFlow}
    (h : buildWithTimes ord preds interval horizon (some l) false tick fuel b = .ok (f, b')) : ∀ i ∈ l, ∃ a, avgTravelTime b'.net f i f.phi = .ok a := by
  unfold buildWithTimes at h
  cases hb : b.built with
  | true =>
    simp only [next, hb, if_true] at h
    cases h
  | false =>
    simp only [next, hb, Bool.false_eq_true, if_false] at h
    obtain ⟨⟨f1, b1, n1, bd1⟩, _, h⟩ := bind_eq_ok.mp h
    obtain ⟨u, hu, h⟩ := bind_eq_ok.mp h
    injection h with h; injection h with h1 h2
    subst h1; subst h2
    unfold logTime at hu
    split at hu
    · unfold observeTimes at hu
      obtain ⟨as, has, _⟩ := bind_eq_ok.mp hu
      exact mapPy_all_ok has
    · cases hu

/-- **C48.** Conversely: on a valid network it returns as soon as the rounds have reached the horizon, with any logging (but see
`C48_name_error`), provided `reroute_interval` is not 0 and, if logging is on, the average travel times of the observed commodities can be computed whenever a round has ended. -/
theorem C48_returns {interval horizon : ℚ} (hi : interval ≠ 0) (observe : Option (List Nat)) (suppress : Bool) (tick : Nat → Bool) (h : Building n ord preds d b0 k) {b : Builder P}
    (hb : b.built = false) (hb0 : b0 = { b with built := true }) {N : Nat} (hN : 0 < N) (hNk : N ≤ k) {b' : Builder P} (hr : rounds ord preds N b0 = .ok b')
    (hh : horizon ≤ b'.flow.phi) (hm : ∀ m < N, ∃ c, rounds ord preds m b0 = .ok c ∧ c.flow.phi < horizon)
    (hobs : suppress = false → ∀ l, observe = some l → ∀ m c, 0 < m → m ≤ N → rounds ord preds m b0 = .ok c → ∀ i ∈ l, ∃ a, avgTravelTime n c.flow i c.flow.phi = .ok a) {fuel : Nat} (hf : N < fuel) :
    buildWithTimes ord preds interval horizon observe suppress tick fuel b = .ok (b'.flow, b') := by
  have hfl : b.flow = b0.flow := by rw [hb0]
  unfold buildWithTimes
  simp only [next, hb, Bool.false_eq_true, if_false]
  have hobs' : ∀ m c, 0 < m → m ≤ N → rounds ord preds m b0 = .ok c → suppress = false → observeTimes c.net c.flow observe = .ok () := by
    intro m c m1 m2 m3 m4
    rw [building_net h (by omega) m3]
    cases ho : observe with
    | none => rfl
    | some l =>
      have : ∀ l', (∀ i ∈ l', i ∈ l) → ∃ as, mapPy (fun i => avgTravelTime n c.flow i c.flow.phi) l' = .ok as := by
        intro l'
        induction l' with
        | nil => exact fun _ => ⟨[], rfl⟩
        | cons i l' ih =>
          intro hl
          obtain ⟨a, ha⟩ := hobs m4 l ho m c m1 m2 m3 i (hl i (by simp))
          obtain ⟨as, has⟩ := ih (fun j hj => hl j (by simp [hj]))
          exact ⟨a :: as, by unfold mapPy; rw [ha, ok_bind, has]; rfl⟩
      obtain ⟨as, has⟩ := this l (fun _ hi => hi)
      unfold observeTimes
      simp only
      rw [has]; rfl
  rw [← hb0, hfl, buildLoop_complete hi N 0 b0 b' b0.flow.phi false false hr hh hm ?_ hobs' fuel hf, ok_bind]
  · by_cases hs : suppress = false
    · simp [logTime, hN, hobs' N b' hN le_rfl hr hs]
    · simp [hs]
  · intro _ _ c hc
    obtain ⟨_, _, _, _, _, h5, _⟩ := C45_routing_times h (m := 0) (by omega) rfl hc
    exact h5

/-- **C48**: with logging on and nothing to do it raises `NameError` instead of returning. -/
theorem C48_name_error {interval horizon : ℚ} (observe : Option (List Nat)) (tick : Nat → Bool) (fuel : Nat) {b : Builder P} (hb : b.built = false) (hh : horizon ≤ b.flow.phi) :
    buildWithTimes ord preds interval horizon observe false tick (fuel + 1) b = .error .name := by
  unfold buildWithTimes buildLoop
  simp only [next, hb, Bool.false_eq_true, if_false, if_neg (not_lt.mpr hh)]
  rfl

/-- **C48**, hypotheses met: building up to time 5 stops after the first round that reaches it. -/
example : ∃ b f b', Builder.init buildNet (some 2) = .ok b ∧ buildWithTimes List.dedup buildPreds 2 5 (some [0]) false (fun _ => true) 100 b = .ok (f, b') ∧ 5 ≤ f.phi := by
  have key : (match Builder.init buildNet (some 2) with
    | .error _ => false
    | .ok b =>
      match buildWithTimes List.dedup buildPreds 2 5 (some [0]) false (fun _ => true) 100 b with
      | .error _ => false
      | .ok _ => true) = true := by decide +kernel
  cases h1 : Builder.init buildNet (some 2) with
  | error e => rw [h1] at key; cases key
  | ok b =>
    rw [h1] at key
    simp only at key
    cases h2 : buildWithTimes List.dedup buildPreds 2 5 (some [0]) false (fun _ => true) 100 b with
    | error e => rw [h2] at key; cases key
    | ok r =>
      obtain ⟨_, N, _, _, h3, _⟩ := C48_reaches h2
      exact ⟨b, r.1, r.2, rfl, h2, h3⟩

end Verif.Props
