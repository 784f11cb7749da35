import Verif.Spec.Routes
import Verif.Proofs.Graph
import Verif.Proofs.HeapMap
import Mathlib.Tactic.Linarith

/-! `reverse_dijkstra` is label setting. -/

namespace Verif
open Verif.Spec

namespace Heap
variable {K T : Type} [LinearOrder K] [DecidableEq T]

theorem rep_single (x : T) (k : K) : ∃ h : Heap K T, ofList [(x, k)] = .ok h ∧ Rep h (fun y => if y = x then some k else none) := by
  obtain ⟨h, a, b⟩ := rel_ofList [(x, k)] (by simp)
  refine ⟨h, a, _, b, ?_⟩
  intro y
  have hnd := b.items_nodup
  by_cases e : y = x
  · subst e; simp only [if_true]; exact (lookup_eq_some hnd y k).mpr (by simp)
  · simp only [if_neg e]; rw [lookup_eq_none]
    rintro ⟨k', hk⟩
    simp at hk; exact e hk.1

theorem Rep.decrease {h : Heap K T} {M : T → Option K} (hr : Rep h M) {x : T} {k k0 : K} (hx : M x = some k0) (hk : k ≤ k0) :
    ∃ h', h.decreaseKey x k = .ok h' ∧ Rep h' (fun y => if y = x then some k else M y) := by
  obtain ⟨q, a, b⟩ := hr
  obtain ⟨h', c, d⟩ := a.decrease (x := x) (k := k) (k0 := k0) (by rw [b]; exact hx) hk
  refine ⟨h', c, q.rekey x k, d, ?_⟩
  intro y; rw [Props.C05_lookup_rekey q x y k (by rw [mem_iff_lookup, b, hx]; simp), b]

theorem Rep.len_pos {h : Heap K T} {M : T → Option K} (hr : Rep h M) : h.len > 0 ↔ ∃ x, M x ≠ none := by
  rcases hr.cases with ⟨hd, hn⟩ | ⟨h', x, k, hd, _, _, _, hM, _⟩
  · unfold Heap.len; rw [hd]; simp [hn]
  · unfold Heap.len
    constructor
    · intro _; exact ⟨x, by rw [hM]; simp⟩
    · intro _; exact List.length_pos_iff.mpr hd

end Heap

namespace Dijkstra

theorem look_some {α : Type} {d : Nat → Option α} {k : Nat} {v : α} (h : d k = some v) : look d k = .ok v := by
  unfold look; rw [h]

theorem put_self {α : Type} (d : Nat → Option α) (k : Nat) (v : α) : put d k v k = some v := by simp [put]
theorem put_ne {α : Type} (d : Nat → Option α) {k j : Nat} (v : α) (h : j ≠ k) : put d k v j = d j := by simp [put, h]

section
variable (g : Graph) (costs : List ℚ) (nodes : List Nat) (sink : Nat)

/-- Labels `dist`, queue `M`, popped nodes `P`, relaxed edges `R`. -/
structure BInv (dist : Nat → Option ℚ) (M : Nat → Option ℚ) (P R : List Nat) : Prop where
  route : ∀ v d, dist v = some d → ∃ k, Route g (costOf g costs) nodes sink v k d
  key : ∀ v k, M v = some k → dist v = some k ∧ v ∉ P
  cover : ∀ v d, dist v = some d → v ∈ P ∨ M v = some d
  inside : ∀ v d, dist v = some d → v ∈ nodes
  labelled : ∀ v ∈ P, ∃ d, dist v = some d
  order : ∀ v ∈ P, ∀ d, dist v = some d → ∀ u k, M u = some k → d ≤ k
  edges : ∀ e ∈ R, e ∈ g.edges ∧ g.nodeTo e ∈ P
  relaxed : ∀ e ∈ R, g.nodeFrom e ∈ nodes → ∃ d dw, dist (g.nodeFrom e) = some d ∧ dist (g.nodeTo e) = some dw ∧
    d ≤ costOf g costs e + dw + eps
  parent : ∀ v d, dist v = some d → v ≠ sink → ∃ e ∈ R, g.nodeFrom e = v ∧ ∃ dw, dist (g.nodeTo e) = some dw ∧ d = costOf g costs e + dw
  sinkLabel : dist sink = some 0

variable {g costs nodes sink}

theorem cost_rd (hg : Consistent g) (hlen : costs.length = g.edges.length) {e : Nat} (he : e ∈ g.edges) :
    rd costs (g.edge e).id = .ok (costOf g costs e) ∧ costOf g costs e ∈ costs := by
  obtain ⟨i, hi, rfl⟩ := List.getElem_of_mem he
  have hid := hg.ids i hi
  unfold costOf
  rw [hid]
  have hi' : i < costs.length := by rw [hlen]; exact hi
  have hgd : costs.getD i 0 = costs[i] := by simp [List.getD, hi']
  rw [rd_lt _ _ hi', hgd]
  exact ⟨rfl, List.getElem_mem hi'⟩

/-- One edge. -/
theorem relaxBack_spec (hg : Consistent g) (hlen : costs.length = g.edges.length) (hpos : ∀ x ∈ costs, 0 ≤ x)
    {dist M : Nat → Option ℚ} {P R : List Nat} {q : Heap ℚ Nat} (h : BInv g costs nodes sink dist M P R) (hq : q.Rep M)
    {dw : ℚ} {wn : Nat} (hw : wn ∈ P) (hdw : dist wn = some dw) (hmax : ∀ v ∈ P, ∀ d, dist v = some d → d ≤ dw)
    {e : Nat} (he : e ∈ g.edges) (hto : g.nodeTo e = wn) :
    ∃ dist' q' M', relaxBack g costs nodes wn e dist q = .ok (dist', q') ∧ q'.Rep M' ∧ BInv g costs nodes sink dist' M' P (e :: R) ∧
      ∀ v ∈ P, dist' v = dist v := by
  obtain ⟨hrd, hmem⟩ := cost_rd hg hlen he
  have hc := hpos _ hmem
  unfold relaxBack
  simp only
  by_cases hv : g.nodeFrom e ∈ nodes
  · rw [if_pos hv, hrd, ok_bind, look_some hdw, ok_bind]
    have hkeys : ∀ u k, M u = some k → dw ≤ k := h.order wn hw dw hdw
    -- the update of one label
    have upd : ∀ (r : ℚ), r = costOf g costs e + dw → g.nodeFrom e ∉ P → (∀ d, dist (g.nodeFrom e) = some d → r ≤ d) → g.nodeFrom e ≠ sink →
        BInv g costs nodes sink (put dist (g.nodeFrom e) r) (fun y => if y = g.nodeFrom e then some r else M y) P (e :: R) := by
      intro r hr hnP hle hns
      have hP : ∀ v ∈ P, put dist (g.nodeFrom e) r v = dist v := fun v hv' => put_ne _ _ (fun ee => hnP (ee ▸ hv'))
      refine ⟨?_, ?_, ?_, ?_, ?_, ?_, ?_, ?_, ?_, ?_⟩
      · intro v d hd
        by_cases ev : v = g.nodeFrom e
        · subst ev
          rw [put_self] at hd
          injection hd with hd; subst hd
          obtain ⟨k, hk⟩ := h.route wn dw hdw
          rw [← hto] at hk
          exact ⟨k + 1, by rw [hr]; exact Route.cons e he hv hk⟩
        · rw [put_ne _ _ ev] at hd; exact h.route v d hd
      · intro v k hk
        by_cases ev : v = g.nodeFrom e
        · subst ev
          rw [if_pos rfl] at hk; injection hk with hk; subst hk
          exact ⟨put_self _ _ _, hnP⟩
        · rw [if_neg ev] at hk; rw [put_ne _ _ ev]; exact h.key v k hk
      · intro v d hd
        by_cases ev : v = g.nodeFrom e
        · subst ev; right; rw [put_self] at hd; rw [if_pos rfl]; exact hd
        · rw [put_ne _ _ ev] at hd; rw [if_neg ev]; exact h.cover v d hd
      · intro v d hd
        by_cases ev : v = g.nodeFrom e
        · subst ev; exact hv
        · rw [put_ne _ _ ev] at hd; exact h.inside v d hd
      · intro v hvP; rw [hP v hvP]; exact h.labelled v hvP
      · intro v hvP d hd u k hk
        rw [hP v hvP] at hd
        by_cases eu : u = g.nodeFrom e
        · subst eu; rw [if_pos rfl] at hk; injection hk with hk; subst hk
          have := hmax v hvP d hd
          linarith
        · rw [if_neg eu] at hk; exact h.order v hvP d hd u k hk
      · intro e' he'
        rcases List.mem_cons.mp he' with rfl | he'
        · exact ⟨he, by rw [hto]; exact hw⟩
        · exact h.edges e' he'
      · intro e' he' hn'
        rcases List.mem_cons.mp he' with rfl | he'
        · refine ⟨r, dw, put_self _ _ _, by rw [hto, hP _ hw]; exact hdw, ?_⟩
          have := eps_pos
          linarith
        · obtain ⟨d, dw', a, b, c⟩ := h.relaxed e' he' hn'
          have hto' := (h.edges e' he').2
          rw [hP _ hto']
          by_cases ev : g.nodeFrom e' = g.nodeFrom e
          · rw [ev] at a ⊢
            refine ⟨r, dw', put_self _ _ _, b, ?_⟩
            have := hle d a
            linarith
          · rw [put_ne _ _ ev]; exact ⟨d, dw', a, b, c⟩
      · intro v d hd hvs
        by_cases ev : v = g.nodeFrom e
        · subst ev
          rw [put_self] at hd; injection hd with hd; subst hd
          exact ⟨e, by simp, rfl, dw, by rw [hto, hP _ hw]; exact hdw, hr⟩
        · rw [put_ne _ _ ev] at hd
          obtain ⟨e', he', a, dw', b, c⟩ := h.parent v d hd hvs
          exact ⟨e', by simp [he'], a, dw', by rw [hP _ (h.edges e' he').2]; exact b, c⟩
      · rw [put_ne _ _ (Ne.symm hns)]; exact h.sinkLabel
    have hsame : (∃ d, dist (g.nodeFrom e) = some d ∧ d ≤ costOf g costs e + dw + eps) → BInv g costs nodes sink dist M P (e :: R) := by
      rintro ⟨d, hd, hle⟩
      refine ⟨h.route, h.key, h.cover, h.inside, h.labelled, h.order, ?_, ?_, ?_, h.sinkLabel⟩
      · intro e' he'
        rcases List.mem_cons.mp he' with rfl | he'
        · exact ⟨he, by rw [hto]; exact hw⟩
        · exact h.edges e' he'
      · intro e' he' hn'
        rcases List.mem_cons.mp he' with rfl | he'
        · exact ⟨d, dw, hd, by rw [hto]; exact hdw, hle⟩
        · exact h.relaxed e' he' hn'
      · intro v d hd hvs
        obtain ⟨e', he', rest⟩ := h.parent v d hd hvs
        exact ⟨e', by simp [he'], rest⟩
    cases hdv : dist (g.nodeFrom e) with
    | none =>
      have hnP : g.nodeFrom e ∉ P := by
        intro hP
        obtain ⟨d, hd⟩ := h.labelled _ hP
        rw [hdv] at hd; cases hd
      have hMn : M (g.nodeFrom e) = none := by
        cases hm : M (g.nodeFrom e) with
        | none => rfl
        | some k => have := (h.key _ k hm).1; rw [hdv] at this; cases this
      obtain ⟨q', p1, p2⟩ := hq.push (costOf g costs e + dw) hMn
      simp only
      rw [p1]
      refine ⟨_, q', _, rfl, p2, upd _ rfl hnP (fun d hd => by rw [hdv] at hd; cases hd) (fun es => by rw [es, h.sinkLabel] at hdv; cases hdv), ?_⟩
      intro v hv'; exact put_ne _ _ (fun ee => hnP (ee ▸ hv'))
    | some d =>
      simp only
      by_cases hlt : costOf g costs e + dw < d - eps
      · rw [if_pos hlt]
        have hlt' : costOf g costs e + dw < d := by have := eps_pos; linarith
        have hnP : g.nodeFrom e ∉ P := by
          intro hP
          have := hmax _ hP d hdv
          linarith
        have hMs : M (g.nodeFrom e) = some d := by
          rcases h.cover _ d hdv with hP | hm
          · exact absurd hP hnP
          · exact hm
        have hns : g.nodeFrom e ≠ sink := by
          intro es
          rw [es, h.sinkLabel] at hdv
          injection hdv with hdv; subst hdv
          obtain ⟨k, hk⟩ := h.route wn dw hdw
          have : ∀ v k L, Route g (costOf g costs) nodes sink v k L → 0 ≤ L := by
            intro v k L hL
            induction hL with
            | nil => exact le_refl _
            | cons e he hv _ ih =>
              have := hpos _ (cost_rd hg hlen he).2
              linarith
          have := this _ _ _ hk
          linarith
        obtain ⟨q', p1, p2⟩ := hq.decrease (k := costOf g costs e + dw) hMs (le_of_lt hlt')
        rw [hq.has, hMs]
        simp only [Option.isSome_some, if_true]
        rw [p1]
        refine ⟨_, q', _, rfl, p2, upd _ rfl hnP (fun d' hd' => by rw [hdv] at hd'; injection hd' with hd'; subst hd'; exact le_of_lt hlt') hns, ?_⟩
        intro v hv'; exact put_ne _ _ (fun ee => hnP (ee ▸ hv'))
      · rw [if_neg hlt]
        exact ⟨dist, q, M, rfl, hq, hsame ⟨d, hdv, by linarith [not_lt.mp hlt]⟩, fun v _ => rfl⟩
  · rw [if_neg hv]
    refine ⟨dist, q, M, rfl, hq, ⟨h.route, h.key, h.cover, h.inside, h.labelled, h.order, ?_, ?_, ?_, h.sinkLabel⟩, fun v _ => rfl⟩
    · intro e' he'
      rcases List.mem_cons.mp he' with rfl | he'
      · exact ⟨he, by rw [hto]; exact hw⟩
      · exact h.edges e' he'
    · intro e' he' hn'
      rcases List.mem_cons.mp he' with rfl | he'
      · exact absurd hn' hv
      · exact h.relaxed e' he' hn'
    · intro v d hd hvs
      obtain ⟨e', he', rest⟩ := h.parent v d hd hvs
      exact ⟨e', by simp [he'], rest⟩

theorem relaxBackAll_spec (hg : Consistent g) (hlen : costs.length = g.edges.length) (hpos : ∀ x ∈ costs, 0 ≤ x)
    {wn : Nat} {P : List Nat} (hw : wn ∈ P) (dw : ℚ) (es : List Nat) :
    ∀ {dist M : Nat → Option ℚ} {R : List Nat} {q : Heap ℚ Nat}, BInv g costs nodes sink dist M P R → q.Rep M →
    dist wn = some dw → (∀ v ∈ P, ∀ d, dist v = some d → d ≤ dw) → (∀ e ∈ es, e ∈ g.edges ∧ g.nodeTo e = wn) →
    ∃ dist' q' M' R', relaxBackAll g costs nodes wn es dist q = .ok (dist', q') ∧ q'.Rep M' ∧ BInv g costs nodes sink dist' M' P R' ∧
      (∀ e ∈ R, e ∈ R') ∧ (∀ e ∈ es, e ∈ R') := by
  induction es with
  | nil => intro dist M R q h hq _ _ _; exact ⟨dist, q, M, R, rfl, hq, h, fun _ h => h, by simp⟩
  | cons e es ih =>
    intro dist M R q h hq hdw hmax hes
    obtain ⟨he, hto⟩ := hes e (by simp)
    obtain ⟨d1, q1, M1, a1, a2, a3, a4⟩ := relaxBack_spec hg hlen hpos h hq hw hdw hmax he hto
    obtain ⟨d2, q2, M2, R2, b1, b2, b3, b4, b5⟩ := ih a3 a2 (by rw [a4 _ hw]; exact hdw)
      (fun v hv d hd => hmax v hv d (by rw [← a4 v hv]; exact hd)) (fun e' he' => hes e' (by simp [he']))
    refine ⟨d2, q2, M2, R2, ?_, b2, b3, fun e' he' => b4 e' (by simp [he']), ?_⟩
    · unfold relaxBackAll
      rw [a1, ok_bind]; exact b1
    · intro e' he'
      rcases List.mem_cons.mp he' with rfl | he'
      · exact b4 _ (by simp)
      · exact b5 e' he'

theorem reverseLoop_spec (hg : Consistent g) (hlen : costs.length = g.edges.length) (hpos : ∀ x ∈ costs, 0 ≤ x)
    (hsub : ∀ v ∈ nodes, v ∈ g.nodes) :
    ∀ (fuel : Nat) {dist M : Nat → Option ℚ} {P R : List Nat} {q : Heap ℚ Nat}, BInv g costs nodes sink dist M P R → q.Rep M → P.Nodup →
    (∀ w ∈ P, ∀ e ∈ g.incoming w, e ∈ R) → nodes.length + 1 ≤ fuel + P.length →
    ∃ dist' P' R', reverseLoop g costs nodes fuel dist q = .ok dist' ∧ BInv g costs nodes sink dist' (fun _ => none) P' R' ∧
      (∀ w ∈ P', ∀ e ∈ g.incoming w, e ∈ R') := by
  intro fuel
  induction fuel with
  | zero =>
    intro dist M P R q h hq hP hR hf
    exfalso
    have : P.length ≤ nodes.length := (List.Nodup.subperm hP (fun x hx => by
      obtain ⟨d, hd⟩ := h.labelled x hx; exact h.inside x d hd)).length_le
    omega
  | succ fuel ih =>
    intro dist M P R q h hq hP hR hf
    unfold reverseLoop
    rcases hq.cases with ⟨hd, hn⟩ | ⟨q1, w, k, hd, _, _, hpop, hM, hmin, hq1, _⟩
    · have : ¬ q.len > 0 := by unfold Heap.len; rw [hd]; simp
      rw [if_neg this]
      have hMe : M = fun _ => none := funext hn
      subst hMe
      exact ⟨dist, P, R, rfl, h, hR⟩
    · have hlen' : q.len > 0 := List.length_pos_iff.mpr hd
      rw [if_pos hlen', hpop, ok_bind]
      obtain ⟨hdw, hwP⟩ := h.key w k hM
      have hwn := h.inside w k hdw
      have h1 : BInv g costs nodes sink dist (fun y => if y = w then none else M y) (w :: P) R := by
        refine ⟨h.route, ?_, ?_, h.inside, ?_, ?_, ?_, h.relaxed, h.parent, h.sinkLabel⟩
        · intro v k' hk'
          by_cases e : v = w
          · rw [if_pos e] at hk'; cases hk'
          · rw [if_neg e] at hk'
            obtain ⟨a, b⟩ := h.key v k' hk'
            exact ⟨a, by simp [e, b]⟩
        · intro v d hd'
          by_cases e : v = w
          · left; simp [e]
          · rw [if_neg e]
            rcases h.cover v d hd' with a | a
            · left; simp [a]
            · right; exact a
        · intro v hv
          rcases List.mem_cons.mp hv with rfl | hv
          · exact ⟨k, hdw⟩
          · exact h.labelled v hv
        · intro v hv d hd' u k' hk'
          have hk2 : M u = some k' := by
            by_cases e : u = w
            · rw [if_pos e] at hk'; cases hk'
            · rw [if_neg e] at hk'; exact hk'
          rcases List.mem_cons.mp hv with rfl | hv
          · rw [hdw] at hd'; injection hd' with hd'; subst hd'
            exact hmin u k' hk2
          · exact h.order v hv d hd' u k' hk2
        · intro e he; exact ⟨(h.edges e he).1, by simp [(h.edges e he).2]⟩
      obtain ⟨d2, q2, M2, R2, b1, b2, b3, b4, b5⟩ := relaxBackAll_spec hg hlen hpos (wn := w) (P := w :: P) (by simp) k (g.incoming w) h1 hq1 hdw
        (by
          intro v hv d hd'
          rcases List.mem_cons.mp hv with rfl | hv
          · rw [hdw] at hd'; injection hd' with hd'; rw [hd']
          · exact h.order v hv d hd' w k hM)
        (by
          intro e he
          rw [hg.inc w (hsub w hwn), List.mem_filter] at he
          exact ⟨he.1, by simpa using he.2⟩)
      obtain ⟨d3, P3, R3, c1, c2, c3⟩ := ih b3 b2 (List.nodup_cons.mpr ⟨hwP, hP⟩)
        (by
          intro v hv e he
          rcases List.mem_cons.mp hv with rfl | hv
          · exact b5 e he
          · exact b4 e (hR v hv e he))
        (by simp only [List.length_cons]; omega)
      refine ⟨d3, P3, R3, ?_, c2, c3⟩
      simp only [b1, ok_bind]
      exact c1

theorem reverseDijkstra_spec (hg : Consistent g) (hlen : costs.length = g.edges.length) (hpos : ∀ x ∈ costs, 0 ≤ x)
    (hsub : ∀ v ∈ nodes, v ∈ g.nodes) (hs : sink ∈ nodes) :
    ∃ dist, reverseDijkstra g sink costs nodes = .ok dist ∧
      (∀ v, (∃ d, dist v = some d) ↔ ∃ k L, Route g (costOf g costs) nodes sink v k L) ∧
      (∀ v d, dist v = some d → (∃ k, Route g (costOf g costs) nodes sink v k d) ∧
        ∀ k L, Route g (costOf g costs) nodes sink v k L → d ≤ L + k * eps) ∧
      (∀ e ∈ g.edges, g.nodeFrom e ∈ nodes → ∀ dw, dist (g.nodeTo e) = some dw →
        ∃ d, dist (g.nodeFrom e) = some d ∧ d ≤ costOf g costs e + dw + eps) ∧
      (∀ v d, dist v = some d → v ≠ sink → ∃ e ∈ g.edges, g.nodeFrom e = v ∧ ∃ dw, dist (g.nodeTo e) = some dw ∧ d = costOf g costs e + dw) ∧
      dist sink = some 0 := by
  obtain ⟨q, q1, q2⟩ := Heap.rep_single (K := ℚ) (T := Nat) sink 0
  have h0 : BInv g costs nodes sink (put (fun _ => none) sink 0) (fun y => if y = sink then some 0 else none) [] [] := by
    have hput : ∀ v d, put (fun _ => none) sink (0 : ℚ) v = some d → v = sink ∧ d = 0 := by
      intro v d hd
      by_cases e : v = sink
      · subst e; rw [put_self] at hd; injection hd with hd; exact ⟨rfl, hd.symm⟩
      · rw [put_ne _ _ e] at hd; cases hd
    refine ⟨?_, ?_, ?_, ?_, by simp, by simp, by simp, by simp, ?_, put_self _ _ _⟩
    · intro v d hd; obtain ⟨rfl, rfl⟩ := hput v d hd; exact ⟨0, Route.nil⟩
    · intro v k hk
      by_cases e : v = sink
      · subst e; rw [if_pos rfl] at hk; rw [put_self]; exact ⟨hk, by simp⟩
      · rw [if_neg e] at hk; cases hk
    · intro v d hd; obtain ⟨rfl, rfl⟩ := hput v d hd; right; simp
    · intro v d hd; obtain ⟨rfl, rfl⟩ := hput v d hd; exact hs
    · intro v d hd hne; exact absurd (hput v d hd).1 hne
  obtain ⟨dist, P, R, a1, a2, a3⟩ := reverseLoop_spec hg hlen hpos hsub (nodes.length + 1) h0 q2 (by simp) (by simp) (by simp)
  have hP : ∀ v d, dist v = some d → v ∈ P := by
    intro v d hd
    rcases a2.cover v d hd with h | h
    · exact h
    · cases h
  have hedge : ∀ e ∈ g.edges, g.nodeFrom e ∈ nodes → ∀ dw, dist (g.nodeTo e) = some dw →
        ∃ d, dist (g.nodeFrom e) = some d ∧ d ≤ costOf g costs e + dw + eps := by
    intro e he hv dw hdw
    have hin : e ∈ g.incoming (g.nodeTo e) := by
      rw [hg.inc _ (hg.ends e he).2, List.mem_filter]; exact ⟨he, by simp⟩
    obtain ⟨d, dw', b1, b2, b3⟩ := a2.relaxed e (a3 _ (hP _ _ hdw) e hin) hv
    rw [hdw] at b2; injection b2 with b2; subst b2
    exact ⟨d, b1, b3⟩
  have hroute : ∀ v k L, Route g (costOf g costs) nodes sink v k L → ∃ d, dist v = some d ∧ d ≤ L + k * eps := by
    intro v k L hL
    induction hL with
    | nil => exact ⟨0, a2.sinkLabel, by simp⟩
    | cons e he hv _ ih =>
      obtain ⟨dw, h1, h2⟩ := ih
      obtain ⟨d, h3, h4⟩ := hedge e he hv dw h1
      refine ⟨d, h3, ?_⟩
      push_cast
      linarith
  refine ⟨dist, ?_, ?_, ?_, hedge, ?_, a2.sinkLabel⟩
  · unfold reverseDijkstra
    rw [q1, ok_bind, pyAssert_true hs, ok_bind]
    exact a1
  · intro v
    constructor
    · rintro ⟨d, hd⟩; obtain ⟨k, hk⟩ := a2.route v d hd; exact ⟨k, d, hk⟩
    · rintro ⟨k, L, hL⟩; obtain ⟨d, hd, _⟩ := hroute v k L hL; exact ⟨d, hd⟩
  · intro v d hd
    refine ⟨a2.route v d hd, fun k L hL => ?_⟩
    obtain ⟨d', hd', hle⟩ := hroute v k L hL
    rw [hd] at hd'; injection hd' with hd'; subst hd'; exact hle
  · intro v d hd hne
    obtain ⟨e, he, b1, dw, b2, b3⟩ := a2.parent v d hd hne
    exact ⟨e, (a2.edges e he).1, b1, dw, b2, b3⟩

end
end Dijkstra
end Verif
