import Verif.Proofs.BFHorizon
import Verif.Props.BellmanFord

/-! C42 with a horizon and costs that vary: `bellman_ford` (src/core/bellman_ford.py). -/

namespace Verif
namespace Props
open Verif.Spec Verif.BF

/-- A travel cost for searches from time `phi` up to the horizon: a valid function, defined from `phi` or earlier up to the horizon or later, constant in front of and behind its break points,
non-negative and first in first out; break points are not within eps of `phi` and slopes are equal or clearly different. -/
structure GoodCostUntil (phi horizon : ℚ) (f : PL) : Prop where
  valid : ValidPL f
  lo : f.lo ≤ (phi : WithBot ℚ)
  hi : (horizon : WithTop ℚ) ≤ f.hi
  first : f.first = 0
  last : f.last = 0
  nonneg : ∀ t x, phi ≤ t → f.eval t = .ok x → 0 ≤ x
  order : ∀ s t x y, phi ≤ s → s ≤ t → f.eval s = .ok x → f.eval t = .ok y → s + x ≤ t + y
  apart : ∀ t ∈ f.times, t ≠ phi → eps < |t - phi|
  slopes : ∀ i j m n, f.gradient i = .ok m → f.gradient j = .ok n → m = n ∨ 1000 * eps ≤ |m - n|

/-- `c e t` is the cost of edge `e` at time `t` up to the horizon. -/
def CostsUntil (g : Graph) (phi horizon : ℚ) (costs : List PL) (c : Nat → ℚ → ℚ) : Prop :=
  ∀ e ∈ g.edges, ∃ f, costs[(g.edge e).id]? = some f ∧ ∀ t, phi ≤ t → t ≤ horizon → f.eval t = .ok (c e t)

theorem GoodCostUntil.ok {phi H0 H : ℚ} {f : PL} (h : GoodCostUntil phi H f) (h0 : phi ≤ H0) (hH : H0 < H) (ht : ∀ t ∈ f.times, t ≤ H0) : CostOk phi f.free := by
  have hd : ∀ t, phi ≤ t → t ≤ H → f.eval t = .ok (f.fn t) := fun t ht ht' =>
    PL.eval_eq h.valid.wf ⟨le_trans h.lo (WithBot.coe_le_coe.mpr ht), le_trans (WithTop.coe_le_coe.mpr ht') h.hi⟩
  have hfar : ∀ t, H0 ≤ t → f.fn t = f.fn H0 := by
    intro t h1
    rw [PL.fn_right_aff h.valid.wf (y := H0) (fun s hs => le_trans (ht s hs) h1) ht, h.last]
    ring
  refine ⟨wf_free h.valid.wf, h.lo, rfl, h.first, h.last, ?_, ?_, h.apart, h.slopes⟩
  · intro t h1
    show 0 ≤ f.fn t
    rcases le_total t H0 with h2 | h2
    · exact h.nonneg t _ h1 (hd t h1 (by linarith))
    · rw [hfar t h2]; exact h.nonneg H0 _ h0 (hd H0 h0 hH.le)
  · intro s t hs hst
    show s + f.fn s ≤ t + f.fn t
    rcases le_total t H0 with h2 | h2
    · exact h.order s t _ _ hs hst (hd s hs (by linarith)) (hd t (by linarith) (by linarith))
    · rw [hfar t h2]
      rcases le_total s H0 with h3 | h3
      · have := h.order s H0 _ _ hs h3 (hd s hs (by linarith)) (hd H0 h0 hH.le)
        linarith
      · rw [hfar s h3]; linarith

/-- C42 with a horizon and costs that vary up to a time `H0` only: if no comparison is decided by the tolerances, no two of the lines cross after `H0`, and all trips that start at `H0` and have at
most as many edges as there are nodes arrive before the horizon, then the search ends after at most one round more than there are nodes. Each label is defined exactly at the times from `phi`
on from which the sink can be reached up to the horizon, and is the earliest arrival there; nodes without label have no trip. -/
theorem C42_drained_partial {g : Graph} {nodes : List Nat} {sink : Nat} {costs : List PL} {phi H0 horizon : ℚ} {c : Nat → ℚ → ℚ} {lines : List (ℚ × ℚ)} {kinks : List ℚ}
    (hg : Consistent g) (hs : sink ∈ g.nodes) (hsub : ∀ v ∈ nodes, v ∈ g.nodes) (h0 : phi ≤ H0) (hcost : ∀ f ∈ costs, GoodCostUntil phi horizon f) (hk : ∀ f ∈ costs, ∀ t ∈ f.times, t ∈ kinks)
    (hc : CostsUntil g phi horizon costs c) (hconst : ∀ e ∈ g.edges, ∀ t, H0 ≤ t → c e t = c e H0)
    (hlines : OnLines g (fun e t => t + c e t) nodes sink phi (sink :: nodes).toFinset.card lines) (hclear : ClearCut phi lines kinks) (hturn : ∀ t, Turn phi lines kinks t → t ≤ H0)
    (hend : ∀ k v y, k ≤ (sink :: nodes).toFinset.card → Ride g (fun e t => t + c e t) nodes sink k v H0 y → y < horizon)
    (fuel : Nat) (hfuel : (sink :: nodes).toFinset.card + 1 ≤ fuel) :
    ∃ labels, bellmanFord fuel g sink costs nodes phi (horizon : WithTop ℚ) = .ok labels ∧
      ∀ v, (labels v = none ∧ ∀ t y, phi ≤ t → ¬ GetsTo g (fun e t => t + c e t) nodes sink v t y) ∨
        ∃ p, labels v = some p ∧ ValidPL p ∧ ∀ t, phi ≤ t →
          ((∃ x, p.eval t = .ok x) ↔ ∃ y, GetsTo g (fun e t => t + c e t) nodes sink v t y ∧ y ≤ horizon) ∧
          ∀ x, p.eval t = .ok x → GetsTo g (fun e t => t + c e t) nodes sink v t x ∧ ∀ y, GetsTo g (fun e t => t + c e t) nodes sink v t y → x ≤ y := by
  have hH : H0 < horizon := hend 0 sink H0 (Nat.zero_le _) (.here H0)
  have htimes : ∀ f ∈ costs, ∀ t ∈ f.times, t ≤ H0 := by
    intro f hf t ht
    rcases le_total phi t with h | h
    · exact hturn t ⟨h, Or.inr (Or.inl (hk f hf t ht))⟩
    · linarith
  obtain ⟨labels, h1, h2⟩ := bellmanFord_horizon (g := g) (nodes := nodes) (sink := sink) (costs := costs) (c := c) (fuel := fuel) (kinks := kinks) (lines := lines) (phi := phi) (H0 := H0) (H := horizon)
    (by
      intro w hw
      rcases List.mem_cons.mp hw with rfl | hw
      · exact hg.inc _ hs
      · exact hg.inc _ (hsub w hw))
    h0 (fun f hf => ⟨(hcost f hf).ok h0 hH (htimes f hf), (hcost f hf).valid.wf, (hcost f hf).hi, fun t ht => ⟨htimes f hf t ht, hk f hf t ht⟩⟩)
    (by
      intro e he
      obtain ⟨f, f1, f2⟩ := hc e he
      obtain ⟨hl, rfl⟩ := List.getElem?_eq_some_iff.mp f1
      have hm := List.getElem_mem hl
      have hw := (hcost _ hm).valid.wf
      refine ⟨hl, fun t ht => ?_⟩
      rcases le_total t horizon with h | h
      · exact (eval_fn hw (f2 t ht h)).2.symm
      · have e1 := (eval_fn hw (f2 H0 h0 hH.le)).2
        rw [hconst e he t (by linarith), e1, PL.fn_right_aff hw (y := H0) (fun s hs => le_trans (htimes _ hm s hs) (by linarith)) (htimes _ hm), (hcost _ hm).last]
        ring)
    hconst hfuel hlines hclear hturn hend
  refine ⟨labels, h1, fun v => (h2 v).imp id ?_⟩
  rintro ⟨p, d, p1, p2, p3⟩
  refine ⟨p, p1, p2.wf.valid, fun t ht => ⟨⟨?_, ?_⟩, ?_⟩⟩
  · rintro ⟨x, hx⟩
    obtain ⟨hd, rfl⟩ := eval_fn p2.wf hx
    exact ⟨_, (p3 t ht).1, (p2.below ht).mpr (p2.inDom.mp hd).2⟩
  · rintro ⟨y, hy, hyH⟩
    have := (p3 t ht).2 y hy
    exact ⟨_, PL.eval_eq p2.wf (p2.inDom.mpr ⟨ht, (p2.below ht).mp (by linarith)⟩)⟩
  · intro x hx
    obtain ⟨_, rfl⟩ := eval_fn p2.wf hx
    exact p3 t ht

theorem GoodCost.until {phi : ℚ} {f : PL} (h : GoodCost phi f) (horizon : ℚ) : GoodCostUntil phi horizon f :=
  ⟨h.valid, h.lo, by rw [h.hi]; exact le_top, h.first, h.last, h.nonneg, h.order, h.apart, h.slopes⟩

/-- The hypotheses of `C42_drained_partial` hold for the network with a rush hour, with `H0 = 12` and horizon 20. -/
theorem rush_drained : ∃ n : Network Unit, runNet Network.empty rushRoads = .ok n ∧ Consistent n.graph ∧ 2 ∈ n.graph.nodes ∧ (∀ v ∈ [0, 1], v ∈ n.graph.nodes) ∧
    (∀ f ∈ rushCosts, GoodCostUntil 0 20 f) ∧ (∀ f ∈ rushCosts, ∀ t ∈ f.times, t ∈ [(0 : ℚ), 4, 8]) ∧ CostsUntil n.graph 0 20 rushCosts rushCost ∧
    (∀ e ∈ n.graph.edges, ∀ t, 12 ≤ t → rushCost e t = rushCost e 12) ∧
    OnLines n.graph (fun e t => t + rushCost e t) [0, 1] 2 0 [2, 0, 1].toFinset.card rushLines ∧ ClearCut 0 rushLines [0, 4, 8] ∧ (∀ t, Turn 0 rushLines [0, 4, 8] t → t ≤ 12) ∧
    ∀ k v y, k ≤ [2, 0, 1].toFinset.card → Ride n.graph (fun e t => t + rushCost e t) [0, 1] 2 k v 12 y → y < 20 := by
  obtain ⟨n, h1, h2⟩ := C49_aligned (P := Unit) rushRoads (by simp [rushRoads, RoadOpsOk, stepRev])
  have hn := h1
  simp only [rushRoads, runNet, stepNet, ok_bind, Except.ok.injEq] at hn
  have hedges : n.graph.edges = [0, 1, 2] := by subst hn; rfl
  have hids : (n.graph.edge 0).id = 0 ∧ (n.graph.edge 1).id = 1 ∧ (n.graph.edge 2).id = 2 := by
    subst hn; exact ⟨rfl, rfl, rfl⟩
  have hl : ∀ k, OnLines n.graph (fun e t => t + rushCost e t) [0, 1] 2 0 k rushLines := rush_lines hedges (by subst hn; decide) (by subst hn; decide) (by subst hn; decide)
  refine ⟨n, h1, h2.graph, by subst hn; decide, by subst hn; decide, fun f hf => (rush_good f hf).until 20, by unfold rushCosts; decide +kernel, ?_, ?_, hl _, rush_clear, ?_, ?_⟩
  · intro e he
    rw [hedges] at he
    simp only [List.mem_cons, List.not_mem_nil, or_false] at he
    rcases he with rfl | rfl | rfl
    · rw [hids.1]; exact ⟨_, rfl, fun t ht _ => const_eval 1 t ht⟩
    · rw [hids.2.1]; exact ⟨_, rfl, fun t ht _ => rush_eval t ht⟩
    · rw [hids.2.2]; exact ⟨_, rfl, fun t ht _ => const_eval (5 / 2) t ht⟩
  · intro e _ t ht
    unfold rushCost rush
    rw [if_neg (show ¬ t ≤ 4 by linarith), if_neg (show ¬ t ≤ 8 by linarith)]
    norm_num
  · intro t ht
    have : ∀ t ∈ [(0 : ℚ), 3, 4, 5, 7, 8, 10, 12], t ≤ 12 := by decide +kernel
    exact this t (rush_turns t ht)
  · intro k v y _ hr
    obtain ⟨l, l1, rfl⟩ := hl k k v 12 y (le_refl _) (by norm_num) hr
    have : ∀ l ∈ rushLines, lineAt l 12 < 20 := by unfold rushLines lineAt; decide +kernel
    exact this l l1

/-- The search on this network: leaving node 0 at time 4, where it takes 9/4 over node 1, is possible in time, and at time 20 it is not. -/
example : ∃ (n : Network Unit) (labels : Nat → Option PL) (p : PL), runNet Network.empty rushRoads = .ok n ∧ bellmanFord 4 n.graph 2 rushCosts [0, 1] 0 ((20 : ℚ) : WithTop ℚ) = .ok labels ∧
    labels 0 = some p ∧ (∃ x, p.eval 4 = .ok x) ∧ ¬ ∃ x, p.eval 20 = .ok x := by
  obtain ⟨n, h1, h2, h3, h4, h5, h6, h7, h8, h9, h10, h11, h12⟩ := rush_drained
  obtain ⟨labels, l1, l2⟩ := C42_drained_partial h2 h3 h4 (show (0 : ℚ) ≤ 12 by norm_num) h5 h6 h7 h8 h9 h10 h11 h12 4 (by decide)
  have hn := h1
  simp only [rushRoads, runNet, stepNet, ok_bind, Except.ok.injEq] at hn
  have hride : ∀ t, Ride n.graph (fun e t => t + rushCost e t) [0, 1] 2 1 0 t (t + 5 / 2) := by
    intro t
    have hf : n.graph.nodeFrom 2 = 0 ∧ n.graph.nodeTo 2 = 2 := by subst hn; decide
    have hc : rushCost 2 t = 5 / 2 := by simp [rushCost]
    have := Ride.drive (g := n.graph) (arr := fun e t => t + rushCost e t) (nodes := [0, 1]) (sink := 2) (t := t) 2 (by subst hn; decide) (by rw [hf.1]; decide) (by rw [hf.2]; exact .here _)
    rw [hf.1, hc] at this
    exact this
  rcases l2 0 with ⟨_, h⟩ | ⟨p, p1, _, p2⟩
  · exact absurd ⟨1, hride 0⟩ (h 0 _ (le_refl _))
  · refine ⟨n, labels, p, h1, l1, p1, ?_, ?_⟩
    · exact ((p2 4 (by norm_num)).1).mpr ⟨_, ⟨1, hride 4⟩, by norm_num⟩
    · intro h
      obtain ⟨y, ⟨k, hk⟩, hy⟩ := ((p2 20 (by norm_num)).1).mp h
      have hpos : ∀ e t, 1 ≤ rushCost e t := by
        intro e t
        unfold rushCost rush
        split_ifs <;> linarith
      have hl : ∀ k v t y, Ride n.graph (fun e t => t + rushCost e t) [0, 1] 2 k v t y → t ≤ y := by
        intro k v t y h
        induction h with
        | here t => exact le_refl _
        | @drive m t y e _ _ _ ih =>
          have h1 := hpos e t
          have h2 : t + rushCost e t ≤ y := ih
          linarith
      have h20 : ∀ k v y, 0 = v → Ride n.graph (fun e t => t + rushCost e t) [0, 1] 2 k v 20 y → 21 ≤ y := by
        intro k v y hv h
        cases h with
        | here => exact absurd hv (by decide)
        | drive e he hv' h =>
          have h1 : (20 : ℚ) + rushCost e 20 ≤ y := hl _ _ _ _ h
          have h2 := hpos e 20
          linarith
      have := h20 k 0 y rfl hk
      linarith

end Props
end Verif
