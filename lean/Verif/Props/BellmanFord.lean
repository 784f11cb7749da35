import Verif.Proofs.BFCosts
import Verif.Proofs.BFConst
import Verif.Props.Minimum
import Verif.Props.Graph

/-! C42: `bellman_ford` (src/core/bellman_ford.py). -/

namespace Verif
namespace Props
open Verif.Spec Verif.BF

/-- A travel cost for searches from time `phi` on: a valid function, without end and from `phi` or earlier on defined, constant in front of and behind its break points, non-negative
and first in first out; break points are not within eps of `phi` and slopes are equal or clearly different. -/
structure GoodCost (phi : ℚ) (f : PL) : Prop where
  valid : ValidPL f
  lo : f.lo ≤ (phi : WithBot ℚ)
  hi : f.hi = ⊤
  first : f.first = 0
  last : f.last = 0
  nonneg : ∀ t x, phi ≤ t → f.eval t = .ok x → 0 ≤ x
  order : ∀ s t x y, phi ≤ s → s ≤ t → f.eval s = .ok x → f.eval t = .ok y → s + x ≤ t + y
  apart : ∀ t ∈ f.times, t ≠ phi → eps < |t - phi|
  slopes : ∀ i j m n, f.gradient i = .ok m → f.gradient j = .ok n → m = n ∨ 1000 * eps ≤ |m - n|

/-- `c e t` is the cost of edge `e` at time `t`. -/
def CostsAre (g : Graph) (phi : ℚ) (costs : List PL) (c : Nat → ℚ → ℚ) : Prop :=
  ∀ e ∈ g.edges, ∃ f, costs[(g.edge e).id]? = some f ∧ ∀ t, phi ≤ t → f.eval t = .ok (c e t)

theorem GoodCost.ok {phi : ℚ} {f : PL} (h : GoodCost phi f) : CostOk phi f := by
  have hd : ∀ t, phi ≤ t → f.eval t = .ok (f.fn t) := fun t ht =>
    PL.eval_eq h.valid.wf ⟨le_trans h.lo (WithBot.coe_le_coe.mpr ht), by rw [h.hi]; exact le_top⟩
  exact ⟨h.valid.wf, h.lo, h.hi, h.first, h.last, fun t ht => h.nonneg t _ ht (hd t ht), fun s t hs hst => h.order s t _ _ hs hst (hd s hs) (hd t (le_trans hs hst)), h.apart, h.slopes⟩

/-- C42 without horizon: if no comparison is decided by the tolerances, the search ends after at most one round more than there are nodes, and each label is the earliest arrival function of
its node: at every time from `phi` on its value is the arrival time of some trip to the sink, and no trip arrives earlier; nodes without label have no trip. With a horizon this is false,
see `C42_horizon_wrong` and `C42_far_node`. -/
theorem C42_earliest_partial {g : Graph} {nodes : List Nat} {sink : Nat} {costs : List PL} {phi : ℚ} {c : Nat → ℚ → ℚ} {lines : List (ℚ × ℚ)} {kinks : List ℚ}
    (hg : Consistent g) (hs : sink ∈ g.nodes) (hsub : ∀ v ∈ nodes, v ∈ g.nodes) (hcost : ∀ f ∈ costs, GoodCost phi f) (hk : ∀ f ∈ costs, ∀ t ∈ f.times, t ∈ kinks)
    (hc : CostsAre g phi costs c) (hlines : OnLines g (fun e t => t + c e t) nodes sink phi (sink :: nodes).toFinset.card lines) (hclear : ClearCut phi lines kinks)
    (fuel : Nat) (hfuel : (sink :: nodes).toFinset.card + 1 ≤ fuel) :
    ∃ labels, bellmanFord fuel g sink costs nodes phi ⊤ = .ok labels ∧
      ∀ v, (labels v = none ∧ ∀ t y, phi ≤ t → ¬ GetsTo g (fun e t => t + c e t) nodes sink v t y) ∨
        ∃ p, labels v = some p ∧ ValidPL p ∧ ∀ t, phi ≤ t → ∃ x, p.eval t = .ok x ∧
          GetsTo g (fun e t => t + c e t) nodes sink v t x ∧ ∀ y, GetsTo g (fun e t => t + c e t) nodes sink v t y → x ≤ y := by
  obtain ⟨labels, h1, h2⟩ := bellmanFord_ok (g := g) (nodes := nodes) (sink := sink) (costs := costs) (c := c) (fuel := fuel) (kinks := kinks) (lines := lines) (phi := phi)
    (by
      intro w hw
      rcases List.mem_cons.mp hw with rfl | hw
      · exact hg.inc _ hs
      · exact hg.inc _ (hsub w hw))
    (fun f hf => ⟨(hcost f hf).ok, hk f hf⟩)
    (by
      intro e he
      obtain ⟨f, f1, f2⟩ := hc e he
      obtain ⟨hl, rfl⟩ := List.getElem?_eq_some_iff.mp f1
      refine ⟨hl, fun t ht => ?_⟩
      exact (eval_fn (hcost _ (List.getElem_mem hl)).valid.wf (f2 t ht)).2.symm)
    hfuel hlines hclear
  refine ⟨labels, h1, fun v => (h2 v).imp id ?_⟩
  rintro ⟨p, p1, p2, p3, p4, p5⟩
  refine ⟨p, p1, p2.valid, fun t ht => ⟨p.fn t, PL.eval_eq p2 ⟨?_, ?_⟩, p5 t ht⟩⟩
  · rw [p3]; exact WithBot.coe_le_coe.mpr ht
  · rw [p4]; exact le_top

/-- Non-decreasing costs from time 0 on. -/
theorem goodCost_rising {f : PL} (hv : ValidPL f) (hlo : f.lo = ((0 : ℚ) : WithBot ℚ)) (hhi : f.hi = ⊤) (h0 : f.first = 0) (h1 : f.last = 0) (hr : f.values.Pairwise (· ≤ ·))
    (hp : ∀ x ∈ f.values, 0 ≤ x) (ha : ∀ t ∈ f.times, t ≠ 0 → eps < |t - 0|)
    (hs : ∀ i ∈ List.range (f.times.length + 1), ∀ j ∈ List.range (f.times.length + 1), ∀ m n, f.gradient ((i : Int) - 1) = .ok m → f.gradient ((j : Int) - 1) = .ok n → m = n ∨ 1000 * eps ≤ |m - n|) :
    GoodCost 0 f := by
  have hmono : ∀ s t, s ≤ t → f.fn s ≤ f.fn t := fun s t h => PL.fn_mono hv.wf hr h0.ge h1.ge h
  refine ⟨hv, hlo.le, hhi, h0, h1, ?_, ?_, ha, ?_⟩
  · intro t x ht he
    obtain ⟨_, rfl⟩ := eval_fn hv.wf he
    have hpos := hv.wf.pos
    rcases le_total (f.times[0]) t with h | h
    · have e1 := PL.fn_time hv.wf 0 hpos
      have := hp _ (List.getElem_mem (show 0 < f.values.length by rw [hv.len]; exact hpos))
      have := hmono _ _ h
      linarith
    · rw [PL.fn_left hv.wf hpos h, h0]
      have := hp _ (List.getElem_mem (show 0 < f.values.length by rw [hv.len]; exact hpos))
      linarith
  · intro s t x y hs hst ex ey
    obtain ⟨_, rfl⟩ := eval_fn hv.wf ex
    obtain ⟨_, rfl⟩ := eval_fn hv.wf ey
    have := hmono _ _ hst
    linarith
  · intro i j m n hm hn
    obtain ⟨a1, a2⟩ := PL.gradient_range hm
    obtain ⟨b1, b2⟩ := PL.gradient_range hn
    exact hs (i + 1).toNat (List.mem_range.mpr (by omega)) (j + 1).toNat (List.mem_range.mpr (by omega)) m n (by rw [show ((i + 1).toNat : Int) - 1 = i by omega]; exact hm)
      (by rw [show ((j + 1).toNat : Int) - 1 = j by omega]; exact hn)

/-! ### A network with a rush hour

From node 0 to node 2, either over node 1 with costs 1 and then 1, rising from 1 to 2 between times 4 and 8, or directly with cost 5/2. -/

def rushRoads : List RoadOp := [.add ⟨0, 1, 1, 1⟩, .add ⟨1, 2, 1, 1⟩, .add ⟨0, 2, 1, 1⟩]

def rushCosts : List PL := [⟨[0], [1], 0, 0, (0 : ℚ), ⊤⟩, ⟨[0, 4, 8], [1, 1, 2], 0, 0, (0 : ℚ), ⊤⟩, ⟨[0], [5 / 2], 0, 0, (0 : ℚ), ⊤⟩]

/-- The cost of the second edge. -/
def rush (t : ℚ) : ℚ := if t ≤ 4 then 1 else if t ≤ 8 then t / 4 else 2

def rushCost (e : Nat) (t : ℚ) : ℚ := if e = 0 then 1 else if e = 1 then rush t else 5 / 2

def rushLines : List (ℚ × ℚ) := [(1, 0), (1, 1), (5 / 4, 0), (1, 2), (5 / 4, 5 / 4), (1, 3), (1, 5 / 2)]

theorem rush_turns : ∀ t, Turn 0 rushLines [0, 4, 8] t → t ∈ [(0 : ℚ), 3, 4, 5, 7, 8, 10, 12] := by
    rintro t ⟨h0, h | h | ⟨l, hl, l', hl', hne, he⟩⟩
    · subst h; simp
    · simp only [List.mem_cons, List.not_mem_nil, or_false] at h ⊢
      tauto
    · have hcase : ∀ l ∈ rushLines, ∀ l' ∈ rushLines, l.1 ≠ l'.1 → (l'.2 - l.2) / (l.1 - l'.1) ∈ [(0 : ℚ), 3, 4, 5, 7, 8, 10, 12] ∨ (l'.2 - l.2) / (l.1 - l'.1) < 0 := by
        unfold rushLines; decide +kernel
      have e : t = (l'.2 - l.2) / (l.1 - l'.1) := by
        unfold lineAt at he
        rw [eq_div_iff (sub_ne_zero.mpr hne)]
        linarith
      rcases hcase l hl l' hl' hne with h | h
      · rw [e]; exact h
      · rw [e] at h0; linarith

theorem rush_clear : ClearCut 0 rushLines [0, 4, 8] := by
  have ht := rush_turns
  refine ⟨by unfold rushLines eps; decide +kernel, fun s t hs ht' => ?_, fun t h => ?_⟩
  · have : ∀ s ∈ [(0 : ℚ), 3, 4, 5, 7, 8, 10, 12], ∀ t ∈ [(0 : ℚ), 3, 4, 5, 7, 8, 10, 12], s < t → s + eps < t := by unfold eps; decide +kernel
    exact this s (ht s hs) t (ht t ht')
  · have : ∀ t ∈ [(0 : ℚ), 3, 4, 5, 7, 8, 10, 12], ∀ l ∈ rushLines, ∀ l' ∈ rushLines, lineAt l t = lineAt l' t ∨ 1000 * eps < |lineAt l t - lineAt l' t| := by
      unfold rushLines eps lineAt; decide +kernel
    exact this t (ht t h)

theorem rush_eval (t : ℚ) (ht : 0 ≤ t) : PL.eval ⟨[0, 4, 8], [1, 1, 2], 0, 0, (0 : ℚ), ⊤⟩ t = .ok (rush t) := by
  have hv : ValidPL ⟨[0, 4, 8], [1, 1, 2], 0, 0, (0 : ℚ), ⊤⟩ := ⟨by decide, by decide, by unfold eps; decide +kernel, by decide +kernel⟩
  rw [PL.eval_eq hv.wf ⟨WithBot.coe_le_coe.mpr ht, le_top⟩]
  congr 1
  unfold rush
  by_cases h4 : t ≤ 4
  · rw [if_pos h4, PL.fn_mid hv.wf (i := 0) (by decide) (by simpa using ht) (by simpa using h4)]
    norm_num
  · rw [if_neg h4]
    by_cases h8 : t ≤ 8
    · rw [if_pos h8, PL.fn_mid hv.wf (i := 1) (by decide) (by simpa using (not_le.mp h4).le) (by simpa using h8)]
      norm_num
      ring
    · rw [if_neg h8, PL.fn_right hv.wf (by simpa using (not_le.mp h8).le)]
      norm_num

theorem const_eval (k t : ℚ) (ht : 0 ≤ t) : PL.eval ⟨[0], [k], 0, 0, (0 : ℚ), ⊤⟩ t = .ok k := by
  have hv : ValidPL ⟨[0], [k], 0, 0, (0 : ℚ), ⊤⟩ := ⟨by simp, by simp, by simp, by simp⟩
  rw [PL.eval_eq hv.wf ⟨WithBot.coe_le_coe.mpr ht, le_top⟩, PL.fn_right hv.wf (by simpa using ht)]
  simp

theorem rush_good : ∀ f ∈ rushCosts, GoodCost 0 f := by
  intro f hf
  simp only [rushCosts, List.mem_cons, List.not_mem_nil, or_false] at hf
  have hs : ∀ f ∈ rushCosts, ∀ i ∈ List.range (f.times.length + 1), ∀ j ∈ List.range (f.times.length + 1), ∀ m n, f.gradient ((i : Int) - 1) = .ok m → f.gradient ((j : Int) - 1) = .ok n →
      m = n ∨ 1000 * eps ≤ |m - n| := by
    have h : ∀ f ∈ rushCosts, ∀ i ∈ List.range (f.times.length + 1), ∃ m ∈ [(0 : ℚ), 1 / 4], f.gradient ((i : Int) - 1) = .ok m := by
      unfold rushCosts; decide +kernel
    have h' : ∀ m ∈ [(0 : ℚ), 1 / 4], ∀ n ∈ [(0 : ℚ), 1 / 4], m = n ∨ 1000 * eps ≤ |m - n| := by unfold eps; decide +kernel
    intro f hf i hi j hj m n hm hn
    obtain ⟨m', h1, h2⟩ := h f hf i hi
    obtain ⟨n', h3, h4⟩ := h f hf j hj
    rw [hm] at h2; injection h2 with h2
    rw [hn] at h4; injection h4 with h4
    rw [h2, h4]
    exact h' m' h1 n' h3
  rcases hf with rfl | rfl | rfl
  all_goals
    refine goodCost_rising ⟨by decide, by decide, by unfold eps; decide +kernel, by decide +kernel⟩ rfl rfl rfl rfl (by decide +kernel) (by decide +kernel) (by unfold eps; decide +kernel) (hs _ ?_)
    simp [rushCosts]

theorem rush_lines {g : Graph} (he : g.edges = [0, 1, 2]) (h0 : g.nodeFrom 0 = 0 ∧ g.nodeTo 0 = 1) (h1 : g.nodeFrom 1 = 1 ∧ g.nodeTo 1 = 2) (h2 : g.nodeFrom 2 = 0 ∧ g.nodeTo 2 = 2) (n : Nat) :
    OnLines g (fun e t => t + rushCost e t) [0, 1] 2 0 n rushLines := by
  have s2 : ∀ k t y, Ride g (fun e t => t + rushCost e t) [0, 1] 2 k 2 t y → y = t := by
    intro k t y h
    generalize hv : (2 : Nat) = v at h
    cases h with
    | here => rfl
    | drive e hm hin h =>
      rw [he] at hm
      simp only [List.mem_cons, List.not_mem_nil, or_false] at hm
      rcases hm with rfl | rfl | rfl <;> simp [h0, h1, h2] at hv
  have s1 : ∀ v, 1 = v → ∀ k t y, Ride g (fun e t => t + rushCost e t) [0, 1] 2 k v t y → y = t + rush t := by
    intro v hv k t y h
    cases h with
    | here => exact absurd hv (by decide)
    | drive e hm hin h =>
      rw [he] at hm
      simp only [List.mem_cons, List.not_mem_nil, or_false] at hm
      rcases hm with rfl | rfl | rfl
      · simp [h0] at hv
      · rw [h1.2] at h; exact s2 _ _ _ h
      · simp [h2] at hv
  have line : ∀ t, 0 ≤ t → (t + rush t = lineAt (1, 1) t ∨ t + rush t = lineAt (5 / 4, 0) t ∨ t + rush t = lineAt (1, 2) t) := by
    intro t _
    unfold rush lineAt
    split
    · left; ring
    · split
      · right; left; ring
      · right; right; ring
  intro k v t y _ ht h
  cases h with
  | here => exact ⟨(1, 0), by simp [rushLines], by simp [lineAt]⟩
  | drive e hm hin h =>
    rw [he] at hm
    simp only [List.mem_cons, List.not_mem_nil, or_false] at hm
    rcases hm with rfl | rfl | rfl
    · rw [h0.2] at h
      have e1 := s1 1 rfl _ _ _ h
      simp only [rushCost, if_true] at e1
      rcases line (t + 1) (by linarith) with e2 | e2 | e2 <;> rw [e2] at e1
      · exact ⟨(1, 2), by simp [rushLines], by rw [e1]; unfold lineAt; ring⟩
      · exact ⟨(5 / 4, 5 / 4), by simp [rushLines], by rw [e1]; unfold lineAt; ring⟩
      · exact ⟨(1, 3), by simp [rushLines], by rw [e1]; unfold lineAt; ring⟩
    · rw [h1.2] at h
      have e1 := s2 _ _ _ h
      simp only [rushCost, if_true, Nat.one_ne_zero, if_false] at e1
      rcases line t ht with e2 | e2 | e2 <;> rw [e2] at e1
      · exact ⟨(1, 1), by simp [rushLines], e1⟩
      · exact ⟨(5 / 4, 0), by simp [rushLines], e1⟩
      · exact ⟨(1, 2), by simp [rushLines], e1⟩
    · rw [h2.2] at h
      have e1 := s2 _ _ _ h
      exact ⟨(1, 5 / 2), by simp [rushLines], by rw [e1]; simp [rushCost, lineAt]⟩

/-- The hypotheses of `C42_earliest_partial` hold for this network. -/
example : ∃ n : Network Unit, runNet Network.empty rushRoads = .ok n ∧ Consistent n.graph ∧ 2 ∈ n.graph.nodes ∧ (∀ v ∈ [0, 1], v ∈ n.graph.nodes) ∧ (∀ f ∈ rushCosts, GoodCost 0 f) ∧
    (∀ f ∈ rushCosts, ∀ t ∈ f.times, t ∈ [(0 : ℚ), 4, 8]) ∧ CostsAre n.graph 0 rushCosts rushCost ∧
    OnLines n.graph (fun e t => t + rushCost e t) [0, 1] 2 0 [2, 0, 1].toFinset.card rushLines ∧ ClearCut 0 rushLines [0, 4, 8] := by
  obtain ⟨n, h1, h2⟩ := C49_aligned (P := Unit) rushRoads (by simp [rushRoads, RoadOpsOk, stepRev])
  have hn := h1
  simp only [rushRoads, runNet, stepNet, ok_bind, Except.ok.injEq] at hn
  have hedges : n.graph.edges = [0, 1, 2] := by subst hn; rfl
  have hids : (n.graph.edge 0).id = 0 ∧ (n.graph.edge 1).id = 1 ∧ (n.graph.edge 2).id = 2 := by
    subst hn; exact ⟨rfl, rfl, rfl⟩
  refine ⟨n, h1, h2.graph, by subst hn; decide, by subst hn; decide, rush_good, by unfold rushCosts; decide +kernel, ?_, ?_, rush_clear⟩
  · intro e he
    rw [hedges] at he
    simp only [List.mem_cons, List.not_mem_nil, or_false] at he
    rcases he with rfl | rfl | rfl
    · rw [hids.1]; exact ⟨_, rfl, fun t ht => const_eval 1 t ht⟩
    · rw [hids.2.1]; exact ⟨_, rfl, fun t ht => rush_eval t ht⟩
    · rw [hids.2.2]; exact ⟨_, rfl, fun t ht => const_eval (5 / 2) t ht⟩
  · exact rush_lines hedges (by subst hn; decide) (by subst hn; decide) (by subst hn; decide) _

/-! ### Witnesses

`mergeSort` does not compute in the kernel, so the loop is run with an order that only sorts if there is something to sort. -/

/-- The items in order. -/
def sortedFew (h : Heap ℚ Nat) : List Nat :=
  match h.data with
  | [] => []
  | [e] => [e.item]
  | _ => h.sortedItems

theorem sortedFew_eq (h : Heap ℚ Nat) : sortedFew h = h.sortedItems := by
  unfold sortedFew
  split
  · rename_i e; unfold Heap.sortedItems; rw [e]; simp
  · rename_i e; unfold Heap.sortedItems; rw [e]; simp
  · rfl

/-- `rounds` with `sortedFew`. -/
def roundsFew (g : Graph) (Ts : List PL) (nodes : List Nat) : Nat → BF.State → Py (Nat → Option PL)
  | 0, _ => .error .fuel
  | fuel + 1, s =>
    if s.queue.len > 0 then do
      let s ← relaxNodes g Ts nodes (sortedFew s.queue) { s with queue := Heap.empty }
      roundsFew g Ts nodes fuel s
    else .ok s.labels

theorem roundsFew_eq (g : Graph) (Ts : List PL) (nodes : List Nat) : ∀ fuel s, roundsFew g Ts nodes fuel s = BF.rounds g Ts nodes fuel s := by
  intro fuel
  induction fuel with
  | zero => intro s; rfl
  | succ k ih =>
    intro s
    unfold roundsFew BF.rounds
    rw [sortedFew_eq]
    simp only [ih]

/-- `bellmanFord` with `sortedFew`. -/
def searchFew (fuel : Nat) (g : Graph) (sink : Nat) (costs : List PL) (nodes : List Nat) (phi : ℚ) (horizon : WithTop ℚ) : Py (Nat → Option PL) := do
  let ident ← identity phi horizon
  let Ts ← arrivalTimes ident costs
  let queue ← Heap.ofList [(sink, (0 : ℚ))]
  roundsFew g Ts nodes fuel ⟨Dijkstra.put (fun _ => none) sink ident, Dijkstra.put (fun _ => none) sink 0, queue⟩

theorem searchFew_eq (fuel : Nat) (g : Graph) (sink : Nat) (costs : List PL) (nodes : List Nat) (phi : ℚ) (horizon : WithTop ℚ) :
    searchFew fuel g sink costs nodes phi horizon = bellmanFord fuel g sink costs nodes phi horizon := by
  unfold searchFew bellmanFord
  simp only [roundsFew_eq]

/-- Two parallel roads: one slow, one with a growing queue. -/
def twinRoads : List RoadOp := [.add ⟨0, 1, 1, 1⟩, .add ⟨0, 1, 1, 1⟩]

def twinCosts : List PL := [⟨[0, 1], [6, 13 / 2], 0, 0, (0 : ℚ), ⊤⟩, ⟨[0, 5], [1, 11], 0, 0, (0 : ℚ), ⊤⟩]

theorem twin_good : ∀ f ∈ twinCosts, GoodCost 0 f := by
  intro f hf
  simp only [twinCosts, List.mem_cons, List.not_mem_nil, or_false] at hf
  have hs : ∀ f ∈ twinCosts, ∀ i ∈ List.range (f.times.length + 1), ∀ j ∈ List.range (f.times.length + 1), ∀ m n, f.gradient ((i : Int) - 1) = .ok m → f.gradient ((j : Int) - 1) = .ok n →
      m = n ∨ 1000 * eps ≤ |m - n| := by
    have h : ∀ f ∈ twinCosts, ∀ i ∈ List.range (f.times.length + 1), ∃ m ∈ [(0 : ℚ), 1 / 2, 2], f.gradient ((i : Int) - 1) = .ok m := by
      unfold twinCosts; decide +kernel
    have h' : ∀ m ∈ [(0 : ℚ), 1 / 2, 2], ∀ n ∈ [(0 : ℚ), 1 / 2, 2], m = n ∨ 1000 * eps ≤ |m - n| := by unfold eps; decide +kernel
    intro f hf i hi j hj m n hm hn
    obtain ⟨m', h1, h2⟩ := h f hf i hi
    obtain ⟨n', h3, h4⟩ := h f hf j hj
    rw [hm] at h2; injection h2 with h2
    rw [hn] at h4; injection h4 with h4
    rw [h2, h4]
    exact h' m' h1 n' h3
  rcases hf with rfl | rfl
  all_goals
    refine goodCost_rising ⟨by decide, by decide, by unfold eps; decide +kernel, by decide +kernel⟩ rfl rfl rfl rfl (by decide +kernel) (by decide +kernel) (by unfold eps; decide +kernel) (hs _ ?_)
    simp [twinCosts]

/-- C42 is false with a horizon: two parallel roads with good costs, searched from time 0 up to horizon 10. The label of their tail promises arrival at time 35/4 when leaving at time 11/4,
but every trip arrives at 37/4 or later. -/
theorem C42_horizon_wrong : ∃ (n : Network Unit) (c : Nat → ℚ → ℚ) (labels : Nat → Option PL) (p : PL), Holds n [⟨0, 1, 1, 1⟩, ⟨0, 1, 1, 1⟩] false ∧ (∀ f ∈ twinCosts, GoodCost 0 f) ∧
    CostsAre n.graph 0 twinCosts c ∧ bellmanFord 3 n.graph 1 twinCosts [0] 0 (10 : ℚ) = .ok labels ∧ labels 0 = some p ∧ p.eval (11 / 4) = .ok (35 / 4) ∧
    ∀ y, GetsTo n.graph (fun e t => t + c e t) [0] 1 0 (11 / 4) y → 37 / 4 ≤ y := by
  obtain ⟨n, h1, h2⟩ := C49_aligned (P := Unit) twinRoads (by simp [twinRoads, RoadOpsOk, stepRev])
  have hn := h1
  simp only [twinRoads, runNet, stepNet, ok_bind, Except.ok.injEq] at hn
  have hedges : n.graph.edges = [0, 1] := by subst hn; rfl
  have hids : (n.graph.edge 0).id = 0 ∧ (n.graph.edge 1).id = 1 := by
    subst hn; exact ⟨rfl, rfl⟩
  have hends : n.graph.nodeFrom 0 = 0 ∧ n.graph.nodeTo 0 = 1 ∧ n.graph.nodeFrom 1 = 0 ∧ n.graph.nodeTo 1 = 1 := by subst hn; decide
  have hrun : (searchFew 3 n.graph 1 twinCosts [0] 0 (10 : ℚ)).map (fun l => l 0) = .ok (some ⟨[0, 5 / 2], [1, 17 / 2], 1, 1, (0 : ℚ), (7 / 2 : ℚ)⟩) := by
    subst hn; unfold twinCosts; decide +kernel
  rw [searchFew_eq] at hrun
  obtain ⟨labels, hl⟩ : ∃ l, bellmanFord 3 n.graph 1 twinCosts [0] 0 (10 : ℚ) = .ok l := by
    cases h : bellmanFord 3 n.graph 1 twinCosts [0] 0 (10 : ℚ) with
    | ok l => exact ⟨l, rfl⟩
    | error e => rw [h] at hrun; simp [Except.map] at hrun
  rw [hl] at hrun
  simp only [Except.map, Except.ok.injEq] at hrun
  refine ⟨n, fun e => (if e = 0 then PL.fn ⟨[0, 1], [6, 13 / 2], 0, 0, (0 : ℚ), ⊤⟩ else PL.fn ⟨[0, 5], [1, 11], 0, 0, (0 : ℚ), ⊤⟩), labels, _, h2, twin_good, ?_, hl, hrun, by decide +kernel, ?_⟩
  · intro e he
    rw [hedges] at he
    simp only [List.mem_cons, List.not_mem_nil, or_false] at he
    have hd : ∀ f ∈ twinCosts, ∀ t, 0 ≤ t → f.eval t = .ok (f.fn t) := fun f hf t ht =>
      PL.eval_eq (twin_good f hf).valid.wf ⟨le_trans (twin_good f hf).lo (WithBot.coe_le_coe.mpr ht), by rw [(twin_good f hf).hi]; exact le_top⟩
    rcases he with rfl | rfl
    · rw [hids.1]; exact ⟨_, rfl, fun t ht => hd _ (by simp [twinCosts]) t ht⟩
    · rw [hids.2]; exact ⟨_, rfl, fun t ht => hd _ (by simp [twinCosts]) t ht⟩
  · rintro y ⟨k, h⟩
    have s1 : ∀ v, 1 = v → ∀ k t y c, Ride n.graph c [0] 1 k v t y → y = t := by
      intro v hv k t y c h
      cases h with
      | here => rfl
      | drive e hm hin h =>
        rw [hedges] at hm
        simp only [List.mem_cons, List.not_mem_nil, or_false] at hm
        rcases hm with rfl | rfl <;> simp [hends] at hv
    have v1 : ValidPL ⟨[0, 1], [6, 13 / 2], 0, 0, (0 : ℚ), ⊤⟩ := (twin_good _ (by simp [twinCosts])).valid
    have v2 : ValidPL ⟨[0, 5], [1, 11], 0, 0, (0 : ℚ), ⊤⟩ := (twin_good _ (by simp [twinCosts])).valid
    have e1 : PL.fn ⟨[0, 1], [6, 13 / 2], 0, 0, (0 : ℚ), ⊤⟩ (11 / 4) = 13 / 2 :=
      ((eval_fn v1.wf (show PL.eval ⟨[0, 1], [6, 13 / 2], 0, 0, (0 : ℚ), ⊤⟩ (11 / 4) = .ok (13 / 2) by decide +kernel)).2).symm
    have e2 : PL.fn ⟨[0, 5], [1, 11], 0, 0, (0 : ℚ), ⊤⟩ (11 / 4) = 13 / 2 :=
      ((eval_fn v2.wf (show PL.eval ⟨[0, 5], [1, 11], 0, 0, (0 : ℚ), ⊤⟩ (11 / 4) = .ok (13 / 2) by decide +kernel)).2).symm
    have s0 : ∀ v, 0 = v → ∀ k t y c, Ride n.graph c [0] 1 k v t y → y = c 0 t ∨ y = c 1 t := by
      intro v hv k t y c h
      cases h with
      | here => exact absurd hv (by decide)
      | drive e hm hin h =>
        rw [hedges] at hm
        simp only [List.mem_cons, List.not_mem_nil, or_false] at hm
        rcases hm with rfl | rfl
        · rw [hends.2.1] at h; exact Or.inl (s1 1 rfl _ _ _ _ h)
        · rw [hends.2.2.2] at h; exact Or.inr (s1 1 rfl _ _ _ _ h)
    rcases s0 0 rfl _ _ _ _ h with h | h
    · simp only [if_true, e1] at h
      rw [h]; norm_num
    · simp only [Nat.one_ne_zero, if_false, e2] at h
      rw [h]; norm_num

/-- C42 is false with a horizon: on a road of two edges with cost 6 each and horizon 10, the search raises `AssertionError` instead of leaving the far node without label. -/
theorem C42_far_node : ∃ n : Network Unit, Holds n [⟨0, 1, 1, 1⟩, ⟨1, 2, 1, 1⟩] false ∧
    bellmanFord 4 n.graph 2 [⟨[0], [6], 0, 0, (0 : ℚ), ⊤⟩, ⟨[0], [6], 0, 0, (0 : ℚ), ⊤⟩] [0, 1] 0 (10 : ℚ) = .error .assertion := by
  obtain ⟨n, h1, h2⟩ := C49_aligned (P := Unit) [.add ⟨0, 1, 1, 1⟩, .add ⟨1, 2, 1, 1⟩] (by simp [RoadOpsOk, stepRev])
  have hn := h1
  simp only [runNet, stepNet, ok_bind, Except.ok.injEq] at hn
  refine ⟨n, h2, ?_⟩
  have hrun : (searchFew 4 n.graph 2 [⟨[0], [6], 0, 0, (0 : ℚ), ⊤⟩, ⟨[0], [6], 0, 0, (0 : ℚ), ⊤⟩] [0, 1] 0 (10 : ℚ)).map (fun l => l 0) = .error .assertion := by
    subst hn; decide +kernel
  rw [searchFew_eq] at hrun
  cases h : bellmanFord 4 n.graph 2 [⟨[0], [6], 0, 0, (0 : ℚ), ⊤⟩, ⟨[0], [6], 0, 0, (0 : ℚ), ⊤⟩] [0, 1] 0 (10 : ℚ) with
  | ok l => rw [h] at hrun; simp [Except.map] at hrun
  | error e => rw [h] at hrun; simpa [Except.map] using hrun

/-- C42 with a horizon and constant costs: if all trips with at most as many edges as there are nodes arrive before the horizon and no comparison is decided by the tolerances, each label is
`t + d` up to `horizon - d`, where `d` is the length of a shortest trip from its node; nodes without label have no trip. -/
theorem C42_constant_partial {g : Graph} {nodes : List Nat} {sink : Nat} {phi horizon : ℚ} {c : Nat → ℚ} (hg : Consistent g) (hs : sink ∈ g.nodes) (hsub : ∀ v ∈ nodes, v ∈ g.nodes) (hH : phi < horizon)
    (hc : ∀ e ∈ g.edges, 0 ≤ c e) (cs : List ℚ) (hid : ∀ e ∈ g.edges, cs[(g.edge e).id]? = some (c e))
    (hclear : ClearTrips g (fun e t => t + c e) nodes sink phi horizon (sink :: nodes).toFinset.card) (fuel : Nat) (hfuel : (sink :: nodes).toFinset.card + 1 ≤ fuel) :
    ∃ labels, bellmanFord fuel g sink (cs.map (fun x => ⟨[phi], [x], 0, 0, (phi : WithBot ℚ), (horizon : WithTop ℚ)⟩)) nodes phi (horizon : WithTop ℚ) = .ok labels ∧
      ∀ v, (labels v = none ∧ ∀ y, ¬ GetsTo g (fun e t => t + c e) nodes sink v phi y) ∨
        ∃ d, phi + d < horizon ∧ labels v = some ⟨[phi], [phi + d], 1, 1, (phi : WithBot ℚ), ((horizon - d : ℚ) : WithTop ℚ)⟩ ∧
          GetsTo g (fun e t => t + c e) nodes sink v phi (phi + d) ∧ ∀ y, GetsTo g (fun e t => t + c e) nodes sink v phi y → phi + d ≤ y := by
  obtain ⟨labels, h1, h2⟩ := search_const (fuel := fuel) (by
    intro w hw
    rcases List.mem_cons.mp hw with rfl | hw
    · exact hg.inc _ hs
    · exact hg.inc _ (hsub w hw)) hH hc cs rfl hid hfuel hclear
  refine ⟨labels, h1, fun v => (h2 v).imp id ?_⟩
  rintro ⟨d, d0, d1, d2, d3, d4⟩
  exact ⟨d, by have := eps_pos; linarith, d2, d3, d4⟩

/-- Two parallel roads with travel times 1 and 3. -/
def pairRoads : List RoadOp := [.add ⟨0, 1, 1, 1⟩, .add ⟨0, 1, 3, 1⟩]

/-- The hypothesis on the trips holds for them with horizon 10. -/
theorem pair_clear : ∃ n : Network Unit, runNet (Network.empty : Network Unit) pairRoads = .ok n ∧ Holds n [⟨0, 1, 1, 1⟩, ⟨0, 1, 3, 1⟩] false ∧ n.graph.nodes = [0, 1] ∧ n.graph.edges = [0, 1] ∧
    n.travelTime = [1, 3] ∧ n.capacity = [1, 1] ∧ (n.graph.edge 0).id = 0 ∧ (n.graph.edge 1).id = 1 ∧ Path n.graph 0 1 ∧
    ∀ k, ClearTrips n.graph (fun e t => t + (if e = 0 then 1 else 3)) n.graph.nodes 1 0 10 k := by
  obtain ⟨n, h1, h2⟩ := C49_aligned (P := Unit) pairRoads (by simp [pairRoads, RoadOpsOk, stepRev])
  have hn := h1
  simp only [pairRoads, runNet, stepNet, ok_bind, Except.ok.injEq] at hn
  have hnodes : n.graph.nodes = [0, 1] := by subst hn; decide
  have hedges : n.graph.edges = [0, 1] := by subst hn; rfl
  have hids : (n.graph.edge 0).id = 0 ∧ (n.graph.edge 1).id = 1 := by subst hn; exact ⟨rfl, rfl⟩
  have hends : n.graph.nodeFrom 0 = 0 ∧ n.graph.nodeTo 0 = 1 ∧ n.graph.nodeFrom 1 = 0 ∧ n.graph.nodeTo 1 = 1 := by subst hn; decide
  refine ⟨n, h1, h2, hnodes, hedges, by subst hn; rfl, by subst hn; rfl, hids.1, hids.2, Relation.ReflTransGen.single ⟨0, by simp [hedges], hends.1, hends.2.1⟩, fun k => ?_⟩
  have s1 : ∀ v, 1 = v → ∀ k t y, Ride n.graph (fun e t => t + (if e = 0 then 1 else 3)) n.graph.nodes 1 k v t y → y = t := by
    intro v hv k t y h
    cases h with
    | here => rfl
    | drive e hm hin h =>
      rw [hedges] at hm
      simp only [List.mem_cons, List.not_mem_nil, or_false] at hm
      rcases hm with rfl | rfl <;> simp [hends] at hv
  have s0 : ∀ v k t y, Ride n.graph (fun e t => t + (if e = 0 then 1 else 3)) n.graph.nodes 1 k v t y → (v = 1 ∧ y = t) ∨ (v = 0 ∧ (y = t + 1 ∨ y = t + 3)) := by
    intro v k t y h
    cases h with
    | here => exact Or.inl ⟨rfl, rfl⟩
    | drive e hm hin h =>
      rw [hedges] at hm
      simp only [List.mem_cons, List.not_mem_nil, or_false] at hm
      rcases hm with rfl | rfl
      · rw [hends.2.1] at h
        have := s1 1 rfl _ _ _ h
        exact Or.inr ⟨hends.1, Or.inl (by simpa using this)⟩
      · rw [hends.2.2.2] at h
        have := s1 1 rfl _ _ _ h
        exact Or.inr ⟨hends.2.2.1, Or.inr (by simpa using this)⟩
  have he : 1000 * eps < 1 := by unfold eps; norm_num
  have he' := eps_pos
  refine ⟨fun j v y _ h => ?_, fun j l v y z _ _ h h' => ?_⟩
  · rcases s0 v j 0 y h with ⟨_, rfl⟩ | ⟨_, rfl | rfl⟩ <;> linarith
  · rcases s0 v j 0 y h with ⟨a, rfl⟩ | ⟨a, rfl | rfl⟩ <;> rcases s0 v l 0 z h' with ⟨b, rfl⟩ | ⟨b, rfl | rfl⟩
    · exact Or.inl rfl
    · omega
    · omega
    · omega
    · exact Or.inl rfl
    · right; norm_num; linarith
    · omega
    · right; norm_num; linarith
    · exact Or.inl rfl

end Props
end Verif
