import Verif.Proofs.TwinFlow
import Verif.Proofs.BuilderStep

/-! The order in which the flow builder visits sets does not matter: costs and active edges. -/

namespace Verif
open Spec

namespace Builder
variable {P : Type} [DecidableEq P] {n : Network P} {preds : P → Predictor}

/-- The costs that a predictor gives now. -/
def costsNow (n : Network P) (preds : P → Predictor) (t : ℚ) (f : DFlow) (p : P) : Py (List PL) := do
  let ps ← (preds p).predict t f
  mapPy (costOfEdge n t ps) (List.range n.graph.edges.length)

/-- The active edges that given costs lead to. -/
def actOf (n : Network P) (imp : List (List Nat)) (preds : P → Predictor) (t : ℚ) (i v : Nat) (costs : List PL) : Py (List Nat) := do
  let c ← rd n.commodities i
  let nodes ← rd imp i
  if (preds c.predictor).constant then do
    let consts ← mapPy (fun f => rd f.values 0) costs
    let dist ← Dijkstra.reverseDijkstra n.graph c.sink consts nodes
    constActive n.graph consts dist v (n.graph.outgoing v)
  else do
    let res ← Dijkstra.dynamicDijkstra n.graph t v c.sink nodes (costs.map PL.eval)
    Dijkstra.activeEdges n.graph res v c.sink

/-- Commodities that share a constant predictor and a sink have the same nodes. -/
def Share (n : Network P) (imp : List (List Nat)) (preds : P → Predictor) : Prop :=
  ∀ (i j : Nat) c c', n.commodities[i]? = some c → n.commodities[j]? = some c' → c.predictor = c'.predictor → (preds c.predictor).constant = true →
    c.sink = c'.sink → imp[i]? = imp[j]?

/-- What is stored follows from the costs `R`. -/
structure Det (n : Network P) (imp : List (List Nat)) (preds : P → Predictor) (t : ℚ) (R : P → Py (List PL)) (b : Builder P) : Prop where
  net : b.net = n
  important : b.important = imp
  route : b.route = t
  sinks : ∀ v i, i ∈ b.sinkIds v ↔ IsSink n i v
  cache : ∀ q costs, b.cache q = some costs → R q = .ok costs
  now : ∀ q, b.cache q = none → costsNow n preds t b.flow q = R q
  active : ∀ i v a, b.active i v = some a → ∃ c costs, n.commodities[i]? = some c ∧ b.cache c.predictor = some costs ∧ actOf n imp preds t i v costs = .ok a

theorem getCosts_det {imp : List (List Nat)} {t : ℚ} {R : P → Py (List PL)} {b b' : Builder P} (h : Det n imp preds t R b) {p : P} {costs : List PL}
    (he : getCosts preds b p = .ok (costs, b')) : ∃ C, b' = { b with cache := C } ∧ Det n imp preds t R b' ∧ C p = some costs ∧ (∀ q, C q ≠ none ↔ b.cache q ≠ none ∨ q = p) := by
  unfold getCosts at he
  cases hc : b.cache p with
  | some x =>
    rw [hc] at he
    injection he with he; injection he with h1 h2; subst h1; subst h2
    refine ⟨b.cache, rfl, h, hc, fun q => ⟨Or.inl, ?_⟩⟩
    rintro (hq | rfl)
    · exact hq
    · rw [hc]; simp
  | none =>
    rw [hc] at he
    simp only at he
    obtain ⟨ps, e1, he⟩ := bind_eq_ok.mp he
    obtain ⟨cs, e2, he⟩ := bind_eq_ok.mp he
    injection he with he; injection he with h1 h2; subst h1; subst h2
    have hnow := h.now p hc
    unfold costsNow at hnow
    rw [← h.route, e1, ok_bind, ← h.net, e2] at hnow
    refine ⟨_, rfl, ⟨h.net, h.important, h.route, h.sinks, ?_, ?_, ?_⟩, by simp, ?_⟩
    · intro q x hq
      simp only at hq
      split at hq
      · rename_i hqp; injection hq with hq; subst hq; rw [hqp]; exact hnow.symm
      · exact h.cache q x hq
    · intro q hq
      simp only at hq ⊢
      split at hq
      · cases hq
      · exact h.now q hq
    · intro i v a ha
      obtain ⟨c, x, x1, x2, x3⟩ := h.active i v a ha
      refine ⟨c, x, x1, ?_, x3⟩
      have hne : c.predictor ≠ p := by intro hcp; rw [hcp, hc] at x2; cases x2
      simp only [hne, if_false]; exact x2
    · intro q
      by_cases hq : q = p <;> simp [hq]

theorem assign_inv {p : P} {v : Nat} {a : List Nat} : ∀ (js : List Nat) {d d' : Nat → Nat → Option (List Nat)}, assign n p v a js d = .ok d' →
    ∀ (j u : Nat) x, d' j u = some x → d j u = some x ∨ (u = v ∧ x = a ∧ j ∈ js ∧ ∃ c, n.commodities[j]? = some c ∧ c.predictor = p) := by
  intro js
  induction js with
  | nil => intro d d' h j u x hx; injection h with h; subst h; exact Or.inl hx
  | cons k js ih =>
    intro d d' h j u x hx
    unfold assign at h
    obtain ⟨c, e1, h⟩ := bind_eq_ok.mp h
    rcases ih h j u x hx with h1 | ⟨h1, h2, h3, h4⟩
    · by_cases hp : c.predictor = p
      · rw [if_pos hp] at h1
        by_cases hk : j = k ∧ u = v
        · rw [if_pos hk] at h1; injection h1 with h1
          exact Or.inr ⟨hk.2, h1.symm, by simp [hk.1], c, by rw [hk.1]; exact rd_eq_ok.mp e1, hp⟩
        · rw [if_neg hk] at h1; exact Or.inl h1
      · rw [if_neg hp] at h1; exact Or.inl h1
    · exact Or.inr ⟨h1, h2, by simp [h3], h4⟩

theorem constLoop_inv {ord : List Nat → List Nat} {b : Builder P} {c : Commodity P} {costs : List ℚ} {dist : Nat → Option ℚ} :
    ∀ (vs : List Nat) {d d' : Nat → Nat → Option (List Nat)}, constLoop ord b c costs dist vs d = .ok d' →
    ∀ (j u : Nat) x, d' j u = some x → d j u = some x ∨ (constActive b.net.graph costs dist u (b.net.graph.outgoing u) = .ok x ∧ j ∈ ord (b.sinkIds c.sink) ∧
      ∃ c', b.net.commodities[j]? = some c' ∧ c'.predictor = c.predictor) := by
  intro vs
  induction vs with
  | nil => intro d d' h j u x hx; injection h with h; subst h; exact Or.inl hx
  | cons v vs ih =>
    intro d d' h j u x hx
    unfold constLoop at h
    by_cases hv : v = c.sink
    · rw [if_pos hv] at h; exact ih h j u x hx
    · rw [if_neg hv] at h
      obtain ⟨a, e1, h⟩ := bind_eq_ok.mp h
      obtain ⟨_, _, h⟩ := bind_eq_ok.mp h
      obtain ⟨d1, e2, h⟩ := bind_eq_ok.mp h
      rcases ih h j u x hx with h1 | h1
      · rcases assign_inv _ e2 j u x h1 with h2 | ⟨rfl, rfl, h3, h4⟩
        · exact Or.inl h2
        · exact Or.inr ⟨e1, h3, h4⟩
      · exact Or.inr h1

theorem getActive_det {imp : List (List Nat)} (hsh : Share n imp preds) {ord : List Nat → List Nat} (hord : OrderOk ord) {t : ℚ} {R : P → Py (List PL)} {b b' : Builder P}
    (h : Det n imp preds t R b) {i v : Nat} {a : List Nat} (he : getActive ord preds b i v = .ok (a, b')) :
    ∃ A C c costs, b' = { b with active := A, cache := C } ∧ Det n imp preds t R b' ∧ n.commodities[i]? = some c ∧ C c.predictor = some costs ∧ actOf n imp preds t i v costs = .ok a ∧
      ∀ q, C q ≠ none ↔ b.cache q ≠ none ∨ q = c.predictor := by
  unfold getActive at he
  cases ha : b.active i v with
  | some x =>
    rw [ha] at he
    injection he with he; injection he with h1 h2; subst h1; subst h2
    obtain ⟨c', costs, x1, x2, x3⟩ := h.active i v x ha
    refine ⟨b.active, b.cache, c', costs, rfl, h, x1, x2, x3, fun q => ⟨Or.inl, ?_⟩⟩
    rintro (hq | rfl)
    · exact hq
    · rw [x2]; simp
  | none =>
    rw [ha] at he
    simp only at he
    obtain ⟨c', e1, he⟩ := bind_eq_ok.mp he
    rw [h.net] at e1
    obtain ⟨nodes, e2, he⟩ := bind_eq_ok.mp he
    rw [h.important] at e2
    by_cases hk : (preds c'.predictor).constant = true
    · rw [if_pos hk] at he
      obtain ⟨⟨costs, b1⟩, e3, he⟩ := bind_eq_ok.mp he
      obtain ⟨C, rfl, g1, g2, g3⟩ := getCosts_det h e3
      simp only at he
      obtain ⟨consts, e4, he⟩ := bind_eq_ok.mp he
      obtain ⟨dist, e5, he⟩ := bind_eq_ok.mp he
      obtain ⟨d, e6, he⟩ := bind_eq_ok.mp he
      have key : ∀ j u x, d j u = some x → ∃ c costs, n.commodities[j]? = some c ∧ C c.predictor = some costs ∧ actOf n imp preds t j u costs = .ok x := by
        intro j u x hx
        rcases constLoop_inv _ e6 j u x hx with h1 | ⟨h1, h2, c2, h3, h4⟩
        · exact g1.active j u x h1
        · simp only [h.net] at h1 h2 h3 e5
          rw [(hord _).2, h.sinks] at h2
          obtain ⟨c3, y1, y2⟩ := h2
          rw [h3] at y1; injection y1 with y1; subst y1
          refine ⟨c2, costs, h3, h4 ▸ g2, ?_⟩
          unfold actOf
          have hij : imp[j]? = some nodes := by rw [hsh j i c2 c' h3 (rd_eq_ok.mp e1) h4 (h4 ▸ hk) y2]; exact rd_eq_ok.mp e2
          rw [rd_eq_ok.mpr h3, ok_bind, rd_eq_ok.mpr hij, ok_bind, if_pos (h4 ▸ hk), e4, ok_bind, y2, e5, ok_bind]
          exact h1
      cases hd : d i v with
      | none => rw [hd] at he; cases he
      | some y =>
        rw [hd] at he
        injection he with he; injection he with h1 h2; subst h1; subst h2
        obtain ⟨c2, costs', z1, z2, z3⟩ := key i v y hd
        rw [rd_eq_ok.mp e1] at z1; injection z1 with z1; subst z1
        exact ⟨d, C, c', costs', rfl, ⟨h.net, h.important, h.route, h.sinks, g1.cache, g1.now, key⟩, rd_eq_ok.mp e1, z2, z3, g3⟩
    · rw [if_neg hk] at he
      obtain ⟨⟨costs, b1⟩, e3, he⟩ := bind_eq_ok.mp he
      obtain ⟨C, rfl, g1, g2, g3⟩ := getCosts_det h e3
      simp only at he
      obtain ⟨res, e4, he⟩ := bind_eq_ok.mp he
      obtain ⟨y, e5, he⟩ := bind_eq_ok.mp he
      injection he with he; injection he with h1 h2; subst h1; subst h2
      have hact : actOf n imp preds t i v costs = .ok y := by
        unfold actOf
        rw [e1, ok_bind, e2, ok_bind, if_neg hk, ← h.route, ← h.net, e4, ok_bind]; exact e5
      refine ⟨_, C, c', costs, rfl, ⟨h.net, h.important, h.route, h.sinks, g1.cache, g1.now, ?_⟩, rd_eq_ok.mp e1, g2, hact, g3⟩
      intro j u x hx
      simp only at hx
      by_cases hj : j = i ∧ u = v
      · rw [if_pos hj] at hx; injection hx with hx; subst hx
        rw [hj.1, hj.2]
        exact ⟨c', costs, rd_eq_ok.mp e1, g2, hact⟩
      · rw [if_neg hj] at hx; exact g1.active j u x hx

/-- The active edges of a commodity at a node, for the costs `R`. -/
def Fixed (n : Network P) (imp : List (List Nat)) (preds : P → Predictor) (t : ℚ) (R : P → Py (List PL)) (i v : Nat) (S : List Nat) : Prop :=
  ∃ c costs, n.commodities[i]? = some c ∧ R c.predictor = .ok costs ∧ actOf n imp preds t i v costs = .ok S

omit [DecidableEq P] in
theorem Fixed.unique {imp : List (List Nat)} {t : ℚ} {R : P → Py (List PL)} {i v : Nat} {S S' : List Nat} (h : Fixed n imp preds t R i v S) (h' : Fixed n imp preds t R i v S') : S = S' := by
  obtain ⟨c, x, h1, h2, h3⟩ := h
  obtain ⟨c', x', h1', h2', h3'⟩ := h'
  rw [h1] at h1'; injection h1' with h1'; subst h1'
  rw [h2] at h2'; injection h2' with h2'; subst h2'
  rw [h3] at h3'; injection h3'

theorem activeScan_inv {g : Graph} (hg : Consistent g) {res : Dijkstra.Result} {source w : Nat} : ∀ (es : List Nat) {active touched queue a t q : List Nat}, (∀ e ∈ es, e ∈ g.edges) →
    Dijkstra.activeScan g res source w es active touched queue = .ok (a, t, q) → (∀ e ∈ active, e ∈ g.edges ∧ g.nodeFrom e = source) → (∀ u ∈ queue, u ∈ g.nodes) →
    (∀ e ∈ a, e ∈ g.edges ∧ g.nodeFrom e = source) ∧ ∀ u ∈ q, u ∈ g.nodes := by
  intro es
  induction es with
  | nil =>
    intro active touched queue a t q _ h h1 h2
    injection h with h; injection h with x1 x2; injection x2 with x2 x3
    subst x1; subst x3
    exact ⟨h1, h2⟩
  | cons e es ih =>
    intro active touched queue a t q hes h h1 h2
    have hes' : ∀ e ∈ es, e ∈ g.edges := fun x hx => hes x (by simp [hx])
    unfold Dijkstra.activeScan at h
    cases hr : res.realized e with
    | none => rw [hr] at h; exact ih hes' h h1 h2
    | some x =>
      rw [hr] at h
      simp only at h
      obtain ⟨av, _, h⟩ := bind_eq_ok.mp h
      obtain ⟨aw, _, h⟩ := bind_eq_ok.mp h
      have hact : ∀ y ∈ (if g.nodeFrom e = source then active ++ [e] else active), y ∈ g.edges ∧ g.nodeFrom y = source := by
        intro y hy
        split at hy
        · rename_i hs
          rcases List.mem_append.mp hy with hy | hy
          · exact h1 y hy
          · rw [List.mem_singleton] at hy; subst hy; exact ⟨hes y (by simp), hs⟩
        · exact h1 y hy
      split at h
      · split at h
        · exact ih hes' h hact h2
        · refine ih hes' h hact ?_
          intro u hu
          rcases List.mem_cons.mp hu with rfl | hu
          · exact (hg.ends e (hes e (by simp))).1
          · exact h2 u hu
      · exact ih hes' h h1 h2

theorem activeLoop_inv {g : Graph} (hg : Consistent g) {res : Dijkstra.Result} {source : Nat} : ∀ (fuel : Nat) {active touched queue S : List Nat},
    Dijkstra.activeLoop g res source fuel active touched queue = .ok S → (∀ e ∈ active, e ∈ g.edges ∧ g.nodeFrom e = source) → (∀ u ∈ queue, u ∈ g.nodes) →
    ∀ e ∈ S, e ∈ g.edges ∧ g.nodeFrom e = source := by
  intro fuel
  induction fuel with
  | zero =>
    intro active touched queue S h h1 h2
    cases queue with
    | nil => injection h with h; subst h; exact h1
    | cons w q => cases h
  | succ fuel ih =>
    intro active touched queue S h h1 h2
    cases queue with
    | nil => injection h with h; subst h; exact h1
    | cons w q =>
      unfold Dijkstra.activeLoop at h
      obtain ⟨⟨a, t, q'⟩, e1, h⟩ := bind_eq_ok.mp h
      obtain ⟨x1, x2⟩ := activeScan_inv hg _ (fun e he => ((inc_mem hg (h2 w (by simp))).mp he).1) e1 h1 (fun u hu => h2 u (by simp [hu]))
      exact ih h x1 x2

theorem constActive_inv {g : Graph} {costs : List ℚ} {dist : Nat → Option ℚ} {v : Nat} : ∀ (es : List Nat) {S : List Nat}, constActive g costs dist v es = .ok S → ∀ e ∈ S, e ∈ es := by
  intro es
  induction es with
  | nil => intro S h e he; injection h with h; subst h; cases he
  | cons x es ih =>
    intro S h e he
    unfold constActive at h
    split at h
    · simp [ih h e he]
    · obtain ⟨c, _, h⟩ := bind_eq_ok.mp h
      obtain ⟨dv, _, h⟩ := bind_eq_ok.mp h
      obtain ⟨rest, e1, h⟩ := bind_eq_ok.mp h
      injection h with h; subst h
      split at he
      · rcases List.mem_cons.mp he with rfl | he
        · simp
        · simp [ih e1 e he]
      · simp [ih e1 e he]

omit [DecidableEq P] in
/-- Active edges leave the node. -/
theorem Fixed.out (hn : InputOk n) {imp : List (List Nat)} {t : ℚ} {R : P → Py (List PL)} {i v : Nat} (hv : v ∈ n.graph.nodes) {S : List Nat} (h : Fixed n imp preds t R i v S) :
    ∀ e ∈ S, e ∈ n.graph.outgoing v := by
  obtain ⟨c, costs, h1, _, h3⟩ := h
  unfold actOf at h3
  rw [rd_eq_ok.mpr h1, ok_bind] at h3
  obtain ⟨nodes, _, h3⟩ := bind_eq_ok.mp h3
  split at h3
  · obtain ⟨consts, _, h3⟩ := bind_eq_ok.mp h3
    obtain ⟨dist, _, h3⟩ := bind_eq_ok.mp h3
    exact constActive_inv _ h3
  · obtain ⟨res, _, h3⟩ := bind_eq_ok.mp h3
    unfold Dijkstra.activeEdges at h3
    obtain ⟨A, e1, h3⟩ := bind_eq_ok.mp h3
    obtain ⟨_, _, h3⟩ := bind_eq_ok.mp h3
    injection h3 with h3; subst h3
    intro e he
    exact (out_mem hn.graph hv).mpr (activeLoop_inv hn.graph _ e1 (by simp) (by
      intro u hu; rw [List.mem_singleton] at hu; subst hu; exact hn.sink c (List.mem_of_getElem? h1)) e he)

end Builder
end Verif
