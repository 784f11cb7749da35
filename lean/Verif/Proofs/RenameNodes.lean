import Verif.Proofs.HeapRename
import Verif.Spec.RenamedNodes

/-! Nothing in the flow builder looks at the names of nodes. -/

set_option linter.unusedSectionVars false

namespace Verif
namespace Renode
open Spec Builder Redom Heap

variable {P : Type} {σ : Nat → Nat}

/-- A dict over nodes with its keys renamed. -/
def NRen {α : Type} (σ : Nat → Nat) (d d' : Nat → α) : Prop := ∀ v, d' (σ v) = d v

/-! ### Graphs -/

section
variable {g g' : Graph}

theorem linked_in {v r : Nat} (h : r ∈ g.incoming v) : Linked g r := by
  unfold Graph.incoming at h
  split at h
  · exact .inr ⟨v, .inr h⟩
  · exact .inr ⟨v, .inl h⟩

theorem linked_out {v r : Nat} (h : r ∈ g.outgoing v) : Linked g r := by
  unfold Graph.outgoing at h
  split at h
  · exact .inr ⟨v, .inl h⟩
  · exact .inr ⟨v, .inr h⟩

theorem from_ren (hg : GraphRenamed σ g g') {r : Nat} (h : Linked g r) : g'.nodeFrom r = σ (g.nodeFrom r) := by
  unfold Graph.nodeFrom
  rw [hg.reversed]
  split
  · exact hg.heads r h
  · exact hg.tails r h

theorem to_ren (hg : GraphRenamed σ g g') {r : Nat} (h : Linked g r) : g'.nodeTo r = σ (g.nodeTo r) := by
  unfold Graph.nodeTo
  rw [hg.reversed]
  split
  · exact hg.tails r h
  · exact hg.heads r h

theorem in_ren (hg : GraphRenamed σ g g') (v : Nat) : g'.incoming (σ v) = g.incoming v := by unfold Graph.incoming; rw [hg.reversed, hg.node]
theorem out_ren (hg : GraphRenamed σ g g') (v : Nat) : g'.outgoing (σ v) = g.outgoing v := by unfold Graph.outgoing; rw [hg.reversed, hg.node]

theorem mem_ren (hσ : Function.Injective σ) {v : Nat} {l : List Nat} : σ v ∈ l.map σ ↔ v ∈ l := List.mem_map_of_injective hσ

theorem scan_ren (hσ : Function.Injective σ) {far far' : Nat → Nat} : ∀ (es : List Nat), (∀ e ∈ es, far' e = σ (far e)) → ∀ found queue : List Nat,
    Graph.scan far' es (found.map σ) (queue.map σ) = ((Graph.scan far es found queue).1.map σ, (Graph.scan far es found queue).2.map σ) := by
  intro es
  induction es with
  | nil => intro _ found queue; rfl
  | cons e es ih =>
    intro h found queue
    have ih := ih fun x hx => h x (List.mem_cons_of_mem _ hx)
    unfold Graph.scan
    rw [h e List.mem_cons_self]
    by_cases hm : far e ∈ found
    · rw [if_pos hm, if_pos ((mem_ren hσ).mpr hm)]; exact ih _ _
    · rw [if_neg hm, if_neg (fun x => hm ((mem_ren hσ).mp x))]
      exact ih (far e :: found) (far e :: queue)

theorem search_ren (hσ : Function.Injective σ) {far far' : Nat → Nat} {adj adj' : Nat → List Nat} (ha : ∀ v, adj' (σ v) = adj v) (hf : ∀ v, ∀ e ∈ adj v, far' e = σ (far e)) :
    ∀ fuel (found queue : List Nat), Graph.search far' adj' fuel (found.map σ) (queue.map σ) = (Graph.search far adj fuel found queue).map (List.map σ) := by
  intro fuel
  induction fuel with
  | zero => intro found queue; cases queue <;> rfl
  | succ fuel ih =>
    intro found queue
    cases queue with
    | nil => rfl
    | cons v queue =>
      rw [List.map_cons]
      simp only [Graph.search]
      rw [ha, scan_ren hσ _ (hf v)]
      exact ih _ _

theorem reaching_ren (hσ : Function.Injective σ) (hg : GraphRenamed σ g g') (v : Nat) : g'.nodesReaching (σ v) = (g.nodesReaching v).map (List.map σ) := by
  unfold Graph.nodesReaching
  rw [hg.nodes, List.length_map]
  by_cases h : v ∈ g.nodes
  · rw [pyAssert_true h, pyAssert_true ((mem_ren hσ).mpr h), ok_bind, ok_bind]
    exact search_ren hσ (in_ren hg) (fun _ _ he => from_ren hg (linked_in he)) _ [v] [v]
  · rw [pyAssert_false h, pyAssert_false (fun x => h ((mem_ren hσ).mp x))]; rfl

theorem reachable_ren (hσ : Function.Injective σ) (hg : GraphRenamed σ g g') (v : Nat) : g'.reachableNodes (σ v) = (g.reachableNodes v).map (List.map σ) := by
  unfold Graph.reachableNodes
  rw [hg.nodes, List.length_map]
  exact search_ren hσ (out_ren hg) (fun _ _ he => to_ren hg (linked_out he)) _ [v] [v]

theorem mapPy_ren {α α' β β' : Type} {F : α → Py β} {F' : α' → Py β'} {i : α → α'} {o : β → β'} : ∀ l : List α, (∀ a ∈ l, F' (i a) = (F a).map o) →
    mapPy F' (l.map i) = (mapPy F l).map (List.map o) := by
  intro l
  induction l with
  | nil => intro _; rfl
  | cons a l ih =>
    intro h
    rw [List.map_cons]
    unfold mapPy
    rw [h a List.mem_cons_self, ih fun x hx => h x (List.mem_cons_of_mem _ hx)]
    cases F a with
    | error e => rfl
    | ok b => cases mapPy F l <;> rfl

theorem flatten_ren (l : List (List Nat)) : (l.map (List.map σ)).flatten = l.flatten.map σ := by rw [List.map_flatten]

theorem filter_ren (hσ : Function.Injective σ) (l m : List Nat) : (l.map σ).filter (fun v => v ∈ m.map σ) = (l.filter (fun v => v ∈ m)).map σ := by
  rw [List.filter_map]
  congr 1
  refine List.filter_congr fun v _ => ?_
  simp only [Function.comp, mem_ren hσ]

theorem importantOf_ren (hσ : Function.Injective σ) (hg : GraphRenamed σ g g') (c : Commodity P) : importantOf g' (renameCommodity σ c) = (importantOf g c).map (List.map σ) := by
  unfold importantOf renameCommodity
  simp only
  rw [reaching_ren hσ hg, mapPy_ren (F := fun s : Nat × RC => g.reachableNodes s.1) (F' := fun s : Nat × RC => g'.reachableNodes s.1) (i := fun s : Nat × RC => (σ s.1, s.2)) (o := List.map σ) _
    (fun a _ => reachable_ren hσ hg a.1)]
  cases g.nodesReaching c.sink with
  | error e => rfl
  | ok back =>
    cases mapPy (fun s : Nat × RC => g.reachableNodes s.1) c.sources with
    | error e => rfl
    | ok forth =>
      simp only [Except.map, ok_bind, py_pure]
      rw [flatten_ren, filter_ren hσ]

/-! ### The constructor -/

theorem lookup_ren (hσ : Function.Injective σ) (v : Nat) : ∀ l : List (Nat × RC), (l.map (fun s => (σ s.1, s.2))).lookup (σ v) = l.lookup v := by
  intro l
  induction l with
  | nil => rfl
  | cons p l ih =>
    obtain ⟨i, f⟩ := p
    rw [List.map_cons, List.lookup_cons, List.lookup_cons, ih]
    by_cases h : v = i
    · subst h; simp
    · have h1 : (v == i) = false := by simpa using h
      have h2 : (σ v == σ i) = false := by simpa using fun e => h (hσ e)
      rw [h1, h2]

theorem sourcesAt_ren (hσ : Function.Injective σ) (v : Nat) : ∀ (cs : List (Commodity P)) k, sourcesAt (σ v) k (cs.map (renameCommodity σ)) = sourcesAt v k cs := by
  intro cs
  induction cs with
  | nil => intro k; rfl
  | cons c cs ih =>
    intro k
    rw [List.map_cons]
    unfold sourcesAt
    have : (renameCommodity σ c).sources.lookup (σ v) = c.sources.lookup v := lookup_ren hσ v c.sources
    rw [this, ih]

theorem sinkIdsAt_ren (hσ : Function.Injective σ) (v : Nat) : ∀ (cs : List (Commodity P)) k, sinkIdsAt (σ v) k (cs.map (renameCommodity σ)) = sinkIdsAt v k cs := by
  intro cs
  induction cs with
  | nil => intro k; rfl
  | cons c cs ih =>
    intro k
    rw [List.map_cons]
    unfold sinkIdsAt
    rw [ih]
    by_cases h : c.sink = v
    · rw [if_pos h, if_pos (show (renameCommodity σ c).sink = σ v by rw [← h]; rfl)]
    · rw [if_neg h, if_neg (show ¬ (renameCommodity σ c).sink = σ v from fun e => h (hσ e))]

/-- Renaming the node in a change. -/
def chg (σ : Nat → Nat) (x : Nat × Nat × ℚ) : Nat × Nat × ℚ := (x.1, σ x.2.1, x.2.2)

theorem chg_inj (hσ : Function.Injective σ) : Function.Injective (chg σ) := by
  rintro ⟨a, b, c⟩ ⟨a', b', c'⟩ h
  unfold chg at h
  simp only [Prod.mk.injEq] at h
  rw [h.1, hσ h.2.1, h.2.2]

theorem changeList_ren : ∀ (cs : List (Commodity P)) k, changeList k (cs.map (renameCommodity σ)) = (changeList k cs).map (fun p => (chg σ p.1, p.2)) := by
  intro cs
  induction cs with
  | nil => intro k; rfl
  | cons c cs ih =>
    intro k
    rw [List.map_cons]
    unfold changeList
    rw [ih, List.map_append, List.map_flatten]
    unfold renameCommodity
    simp only [List.map_map]
    congr 3
    funext s
    simp only [Function.comp, List.map_map]
    rfl

theorem netInflows_ren (hσ : Function.Injective σ) (cs : List (Commodity P)) : ∀ (vs : List Nat) (d d' : Nat → FRC), NRen σ d d' →
    Sim2 (NRen σ) (netInflows cs vs d) (netInflows (cs.map (renameCommodity σ)) (vs.map σ) d') := by
  intro vs
  induction vs with
  | nil => intro d d' h; exact h
  | cons v vs ih =>
    intro d d' h
    rw [List.map_cons]
    unfold netInflows
    rw [sourcesAt_ren hσ]
    refine Sim2.same fun c => ih _ _ fun u => ?_
    by_cases hu : u = v
    · subst hu; rw [DFlow.setAt_self, DFlow.setAt_self]
    · rw [DFlow.setAt_ne _ _ hu, DFlow.setAt_ne _ _ (fun e => hu (hσ e))]; exact h u

/-- The builder with other names for the nodes. -/
structure BRen (σ : Nat → Nat) (b b' : Builder P) : Prop where
  net : NodesRenamed σ b.net b'.net
  interval : b'.interval = b.interval
  active : ∀ i, NRen σ (b.active i) (b'.active i)
  built : b'.built = b.built
  handle : b'.handle = b.handle.map σ
  flow : b'.flow = b.flow
  next : b'.nextReroute = b.nextReroute
  route : b'.route = b.route
  important : b'.important = b.important.map (List.map σ)
  inflow : NRen σ b.netInflow b'.netInflow
  sinks : NRen σ b.sinkIds b'.sinkIds
  changes : HRen (chg σ) b.changes b'.changes
  cache : b'.cache = b.cache

theorem init_ren (hσ : Function.Injective σ) {n n' : Network P} (hn : NodesRenamed σ n n') (d : Option ℚ) : Sim2 (BRen σ) (Builder.init n d) (Builder.init n' d) := by
  unfold Builder.init
  rw [hn.commodities, hn.graph.nodes, mapPy_ren (F := importantOf n.graph) (o := List.map σ) _ (fun c _ => importantOf_ren hσ hn.graph c), changeList_ren]
  refine Sim2.same fun flow => ?_
  refine Sim2.bind (Sim2.map _ _) fun imp imp' hi => ?_
  subst hi
  refine Sim2.same fun dflt => ?_
  refine Sim2.bind (netInflows_ren hσ _ _ _ _ (fun _ => rfl)) fun nf nf' hnf => ?_
  refine Sim2.bind (R := fun _ _ => True) ?_ fun _ _ _ => ?_
  · rw [show (n.commodities.map (renameCommodity σ)).zip (imp.map (List.map σ)) = (n.commodities.zip imp).map (Prod.map (renameCommodity σ) (List.map σ)) from List.zip_map]
    by_cases h : ∀ p ∈ n.commodities.zip imp, ∀ s ∈ p.1.sources, s.1 ∈ p.2
    · rw [pyAssert_true h, pyAssert_true]
      · trivial
      · intro p hp s hs
        obtain ⟨q, hq, rfl⟩ := List.mem_map.mp hp
        obtain ⟨t, ht, rfl⟩ := List.mem_map.mp hs
        exact (mem_ren hσ).mpr (h q hq t ht)
    · rw [pyAssert_false h, pyAssert_false]
      · rfl
      · intro h'
        refine h fun q hq s hs => ?_
        exact (mem_ren hσ).mp (h' _ (List.mem_map_of_mem hq) (σ s.1, s.2) (List.mem_map_of_mem (f := fun s : Nat × RC => (σ s.1, s.2)) hs))
  · refine Sim2.bind (ofList_ren (chg_inj hσ) _) fun h h' hh => ?_
    exact ⟨hn, rfl, fun _ _ => rfl, rfl, rfl, rfl, rfl, rfl, rfl, hnf, fun v => sinkIdsAt_ren hσ v _ _, hh, rfl⟩

/-! ### Shortest paths -/

theorem put_ren {α : Type} (hσ : Function.Injective σ) {d d' : Nat → Option α} (h : NRen σ d d') (v : Nat) (x : α) : NRen σ (Dijkstra.put d v x) (Dijkstra.put d' (σ v) x) := by
  intro u
  unfold Dijkstra.put
  by_cases hu : u = v
  · subst hu; simp
  · rw [if_neg hu, if_neg (fun e => hu (hσ e)), h u]

theorem look_ren {α : Type} {d d' : Nat → Option α} (h : NRen σ d d') (v : Nat) : Dijkstra.look d' (σ v) = Dijkstra.look d v := by unfold Dijkstra.look; rw [h v]

/-- Related labels and queues. -/
def DQ (σ : Nat → Nat) (p p' : (Nat → Option ℚ) × Heap ℚ Nat) : Prop := NRen σ p.1 p'.1 ∧ HRen σ p.2 p'.2

theorem relaxBack_ren (hσ : Function.Injective σ) (hg : GraphRenamed σ g g') (costs : List ℚ) (nodes : List Nat) (w : Nat) {e : Nat} (he : Linked g e) {d d' : Nat → Option ℚ} {q q' : Heap ℚ Nat}
    (hd : NRen σ d d') (hq : HRen σ q q') : Sim2 (DQ σ) (Dijkstra.relaxBack g costs nodes w e d q) (Dijkstra.relaxBack g' costs (nodes.map σ) (σ w) e d' q') := by
  unfold Dijkstra.relaxBack
  simp only
  rw [from_ren hg he, hg.ids, look_ren hd, hd]
  by_cases hm : g.nodeFrom e ∈ nodes
  · rw [if_pos hm, if_pos ((mem_ren hσ).mpr hm)]
    refine Sim2.same fun c => Sim2.same fun dw => ?_
    cases d (g.nodeFrom e) with
    | none =>
      refine Sim2.bind (R := HRen σ) (push_ren hσ hq _ _) fun a a' ha => ?_
      exact ⟨put_ren hσ hd _ _, ha⟩
    | some x =>
      simp only
      split
      · rw [has_ren hq]
        split
        · refine Sim2.bind (R := HRen σ) (decreaseKey_ren hσ hq _ _) fun a a' ha => ?_
          exact ⟨put_ren hσ hd _ _, ha⟩
        · refine Sim2.bind (R := HRen σ) (push_ren hσ hq _ _) fun a a' ha => ?_
          exact ⟨put_ren hσ hd _ _, ha⟩
      · exact ⟨hd, hq⟩
  · rw [if_neg hm, if_neg (fun x => hm ((mem_ren hσ).mp x))]
    exact ⟨hd, hq⟩

theorem relaxBackAll_ren (hσ : Function.Injective σ) (hg : GraphRenamed σ g g') (costs : List ℚ) (nodes : List Nat) (w : Nat) : ∀ (es : List Nat), (∀ e ∈ es, Linked g e) → ∀ {d d' : Nat → Option ℚ} {q q' : Heap ℚ Nat},
    NRen σ d d' → HRen σ q q' → Sim2 (DQ σ) (Dijkstra.relaxBackAll g costs nodes w es d q) (Dijkstra.relaxBackAll g' costs (nodes.map σ) (σ w) es d' q') := by
  intro es
  induction es with
  | nil => intro _ d d' q q' hd hq; exact ⟨hd, hq⟩
  | cons e es ih =>
    intro hl d d' q q' hd hq
    unfold Dijkstra.relaxBackAll
    refine Sim2.bind (relaxBack_ren hσ hg costs nodes w (hl e List.mem_cons_self) hd hq) fun x y hxy => ?_
    exact ih (fun a ha => hl a (List.mem_cons_of_mem _ ha)) hxy.1 hxy.2

theorem reverseLoop_ren (hσ : Function.Injective σ) (hg : GraphRenamed σ g g') (costs : List ℚ) (nodes : List Nat) : ∀ fuel {d d' : Nat → Option ℚ} {q q' : Heap ℚ Nat},
    NRen σ d d' → HRen σ q q' → Sim2 (NRen σ) (Dijkstra.reverseLoop g costs nodes fuel d q) (Dijkstra.reverseLoop g' costs (nodes.map σ) fuel d' q') := by
  intro fuel
  induction fuel with
  | zero => intro d d' q q' _ _; rfl
  | succ fuel ih =>
    intro d d' q q' hd hq
    simp only [Dijkstra.reverseLoop]
    rw [len_ren hq]
    split
    · refine Sim2.bind (pop_ren hσ hq) fun x y hxy => ?_
      obtain ⟨x1, x2⟩ := x
      obtain ⟨y1, y2⟩ := y
      obtain ⟨h1, h2⟩ := hxy
      simp only at h1 h2
      subst h2
      simp only
      rw [in_ren hg]
      refine Sim2.bind (relaxBackAll_ren hσ hg costs nodes x2 _ (fun e he => linked_in he) hd h1) fun u v huv => ?_
      exact ih huv.1 huv.2
    · exact hd

theorem reverseDijkstra_ren (hσ : Function.Injective σ) (hg : GraphRenamed σ g g') (sink : Nat) (costs : List ℚ) (nodes : List Nat) :
    Sim2 (NRen σ) (Dijkstra.reverseDijkstra g sink costs nodes) (Dijkstra.reverseDijkstra g' (σ sink) costs (nodes.map σ)) := by
  unfold Dijkstra.reverseDijkstra
  refine Sim2.bind (ofList_ren hσ [(sink, (0 : ℚ))]) fun q q' hq => ?_
  rw [List.length_map]
  by_cases h : sink ∈ nodes
  · rw [pyAssert_true h, pyAssert_true ((mem_ren hσ).mpr h)]
    exact reverseLoop_ren hσ hg costs nodes _ (put_ren hσ (fun _ => rfl) _ _) hq
  · rw [pyAssert_false h, pyAssert_false (fun x => h ((mem_ren hσ).mp x))]; rfl

theorem relax_ren (hσ : Function.Injective σ) (hg : GraphRenamed σ g g') (relevant : List Nat) (costs : List (ℚ → Py ℚ)) (v : Nat) {e : Nat} (he : Linked g e) {a a' r : Nat → Option ℚ} {q q' : Heap ℚ Nat}
    (ha : NRen σ a a') (hq : HRen σ q q') : Sim2 (fun p p' => p'.1 = p.1 ∧ HRen σ p.2 p'.2) (Dijkstra.relax g relevant costs v e a r q) (Dijkstra.relax g' (relevant.map σ) costs (σ v) e a' r q') := by
  unfold Dijkstra.relax
  simp only
  rw [to_ren hg he, hg.ids, ha, look_ren ha, has_ren hq, keyOf_ren hq]
  have hm : (((a (g.nodeTo e)).isSome = true ∨ ¬ σ (g.nodeTo e) ∈ relevant.map σ) ↔ ((a (g.nodeTo e)).isSome = true ∨ ¬ g.nodeTo e ∈ relevant)) := by rw [mem_ren hσ]
  by_cases hc : (a (g.nodeTo e)).isSome = true ∨ ¬ g.nodeTo e ∈ relevant
  · rw [if_pos hc, if_pos (hm.mpr hc)]
    exact ⟨rfl, hq⟩
  · rw [if_neg hc, if_neg (fun x => hc (hm.mp x))]
    refine Sim2.same fun c => Sim2.same fun av => Sim2.same fun x => ?_
    split
    · refine Sim2.same fun k => ?_
      cases k with
      | none => rfl
      | some k =>
        simp only
        split
        · exact Sim2.bind (decreaseKey_ren hσ hq _ _) fun _ _ h => ⟨rfl, h⟩
        · exact ⟨rfl, hq⟩
    · exact Sim2.bind (push_ren hσ hq _ _) fun _ _ h => ⟨rfl, h⟩

theorem relaxAll_ren (hσ : Function.Injective σ) (hg : GraphRenamed σ g g') (relevant : List Nat) (costs : List (ℚ → Py ℚ)) (v : Nat) {a a' : Nat → Option ℚ} (ha : NRen σ a a') :
    ∀ (es : List Nat), (∀ e ∈ es, Linked g e) → ∀ (r : Nat → Option ℚ) {q q' : Heap ℚ Nat}, HRen σ q q' →
    Sim2 (fun p p' => p'.1 = p.1 ∧ HRen σ p.2 p'.2) (Dijkstra.relaxAll g relevant costs v a es r q) (Dijkstra.relaxAll g' (relevant.map σ) costs (σ v) a' es r q') := by
  intro es
  induction es with
  | nil => intro _ r q q' hq; exact ⟨rfl, hq⟩
  | cons e es ih =>
    intro hl r q q' hq
    unfold Dijkstra.relaxAll
    refine Sim2.bind (relax_ren hσ hg relevant costs v (hl e List.mem_cons_self) ha hq) fun x y hxy => ?_
    obtain ⟨x1, x2⟩ := x
    obtain ⟨y1, y2⟩ := y
    obtain ⟨h1, h2⟩ := hxy
    simp only at h1 h2
    subst h1
    exact ih (fun a ha => hl a (List.mem_cons_of_mem _ ha)) _ h2

/-- Related results of the time-dependent search. -/
def RRen (σ : Nat → Nat) (r r' : Dijkstra.Result) : Prop := NRen σ r.arrival r'.arrival ∧ r'.realized = r.realized

theorem dynamicLoop_ren (hσ : Function.Injective σ) (hg : GraphRenamed σ g g') (sink : Nat) (relevant : List Nat) (costs : List (ℚ → Py ℚ)) : ∀ fuel {a a' : Nat → Option ℚ} (r : Nat → Option ℚ) {q q' : Heap ℚ Nat},
    NRen σ a a' → HRen σ q q' → Sim2 (RRen σ) (Dijkstra.dynamicLoop g sink relevant costs fuel a r q) (Dijkstra.dynamicLoop g' (σ sink) (relevant.map σ) costs fuel a' r q') := by
  intro fuel
  induction fuel with
  | zero => intro a a' r q q' _ _; rfl
  | succ fuel ih =>
    intro a a' r q q' ha hq
    simp only [Dijkstra.dynamicLoop]
    rw [len_ren hq, hq.data]
    split
    · refine Sim2.bind (Sim2.rd _ _ _) fun root root' hr => ?_
      subst hr
      refine Sim2.bind (pop_ren hσ hq) fun x y hxy => ?_
      obtain ⟨x1, x2⟩ := x
      obtain ⟨y1, y2⟩ := y
      obtain ⟨h1, h2⟩ := hxy
      simp only at h1 h2
      subst h2
      simp only
      have ha' : NRen σ (Dijkstra.put a x2 root.key) (Dijkstra.put a' (σ x2) root.key) := put_ren hσ ha _ _
      by_cases hs : x2 = sink
      · subst hs
        simp only [if_true]
        exact ⟨ha', rfl⟩
      · rw [if_neg hs, if_neg (fun e => hs (hσ e)), out_ren hg]
        refine Sim2.bind (relaxAll_ren hσ hg relevant costs x2 ha' _ (fun e he => linked_out he) r h1) fun u v huv => ?_
        obtain ⟨u1, u2⟩ := u
        obtain ⟨v1, v2⟩ := v
        obtain ⟨h3, h4⟩ := huv
        simp only at h3 h4
        subst h3
        exact ih _ ha' h4
    · exact ⟨ha, rfl⟩

theorem dynamicDijkstra_ren (hσ : Function.Injective σ) (hg : GraphRenamed σ g g') (phi : ℚ) (s sink : Nat) (relevant : List Nat) (costs : List (ℚ → Py ℚ)) :
    Sim2 (RRen σ) (Dijkstra.dynamicDijkstra g phi s sink relevant costs) (Dijkstra.dynamicDijkstra g' phi (σ s) (σ sink) (relevant.map σ) costs) := by
  unfold Dijkstra.dynamicDijkstra
  rw [List.length_map]
  exact Sim2.bind (ofList_ren hσ [(s, phi)]) fun q q' hq => dynamicLoop_ren hσ hg sink relevant costs _ _ (fun _ => rfl) hq

theorem activeScan_ren (hσ : Function.Injective σ) (hg : GraphRenamed σ g g') {res res' : Dijkstra.Result} (hr : RRen σ res res') (s w : Nat) : ∀ (es : List Nat), (∀ e ∈ es, Linked g e) → ∀ (active touched queue : List Nat),
    Dijkstra.activeScan g' res' (σ s) (σ w) es active (touched.map σ) (queue.map σ) =
      (Dijkstra.activeScan g res s w es active touched queue).map (fun p => (p.1, p.2.1.map σ, p.2.2.map σ)) := by
  intro es
  induction es with
  | nil => intro _ active touched queue; rfl
  | cons e es ih =>
    intro hl active touched queue
    have ih := ih fun a ha => hl a (List.mem_cons_of_mem _ ha)
    unfold Dijkstra.activeScan
    rw [hr.2]
    cases res.realized e with
    | none => exact ih _ _ _
    | some x =>
      simp only
      rw [from_ren hg (hl e List.mem_cons_self), look_ren hr.1, look_ren hr.1]
      cases Dijkstra.look res.arrival (g.nodeFrom e) with
      | error e => rfl
      | ok av =>
        cases Dijkstra.look res.arrival w with
        | error e => rfl
        | ok aw =>
          simp only [ok_bind]
          have e1 : (if σ (g.nodeFrom e) = σ s then active ++ [e] else active) = if g.nodeFrom e = s then active ++ [e] else active := by
            by_cases h : g.nodeFrom e = s
            · rw [if_pos h, if_pos (by rw [h])]
            · rw [if_neg h, if_neg (fun x => h (hσ x))]
          rw [e1]
          split
          · by_cases hm : g.nodeFrom e ∈ touched
            · rw [if_pos hm, if_pos ((mem_ren hσ).mpr hm)]; exact ih _ _ _
            · rw [if_neg hm, if_neg (fun x => hm ((mem_ren hσ).mp x))]; exact ih _ (g.nodeFrom e :: touched) (g.nodeFrom e :: queue)
          · exact ih _ _ _

theorem activeLoop_ren (hσ : Function.Injective σ) (hg : GraphRenamed σ g g') {res res' : Dijkstra.Result} (hr : RRen σ res res') (s : Nat) : ∀ fuel (active touched queue : List Nat),
    Dijkstra.activeLoop g' res' (σ s) fuel active (touched.map σ) (queue.map σ) = Dijkstra.activeLoop g res s fuel active touched queue := by
  intro fuel
  induction fuel with
  | zero => intro active touched queue; cases queue <;> rfl
  | succ fuel ih =>
    intro active touched queue
    cases queue with
    | nil => rfl
    | cons w queue =>
      rw [List.map_cons]
      simp only [Dijkstra.activeLoop]
      rw [in_ren hg, activeScan_ren hσ hg hr s w _ (fun e he => linked_in he)]
      cases Dijkstra.activeScan g res s w (g.incoming w) active touched queue with
      | error e => rfl
      | ok p => exact ih _ _ _

theorem activeEdges_ren (hσ : Function.Injective σ) (hg : GraphRenamed σ g g') {res res' : Dijkstra.Result} (hr : RRen σ res res') (s sink : Nat) :
    Dijkstra.activeEdges g' res' (σ s) (σ sink) = Dijkstra.activeEdges g res s sink := by
  unfold Dijkstra.activeEdges
  have := activeLoop_ren hσ hg hr s (g.nodes.length + 1) [] [sink] [sink]
  simp only [List.map_cons, List.map_nil] at this
  rw [hg.nodes, List.length_map, this]

end

/-! ### The rounds -/

section Rounds
variable [DecidableEq P] {ord : List Nat → List Nat} {preds : P → Predictor} {b b' : Builder P}

/-- The same results and the builder renamed. -/
def Out {α : Type} (σ : Nat → Nat) (p p' : α × Builder P) : Prop := p'.1 = p.1 ∧ BRen σ p.2 p'.2

omit [DecidableEq P] in
theorem BRen.with_active (h : BRen σ b b') {a a' : Nat → Nat → Option (List Nat)} (ha : ∀ i, NRen σ (a i) (a' i)) : BRen σ { b with active := a } { b' with active := a' } :=
  ⟨h.net, h.interval, ha, h.built, h.handle, h.flow, h.next, h.route, h.important, h.inflow, h.sinks, h.changes, h.cache⟩

omit [DecidableEq P] in
theorem costOfEdge_ren {n n' : Network P} (hn : NodesRenamed σ n n') (t : ℚ) (ps : List PL) (e : Nat) : costOfEdge n' t ps e = costOfEdge n t ps e := by
  unfold costOfEdge
  rw [hn.travelTime, hn.capacity]

theorem getCosts_ren (h : BRen σ b b') (p : P) : Sim2 (Out σ) (b.getCosts preds p) (b'.getCosts preds p) := by
  unfold Builder.getCosts
  rw [h.cache]
  cases b.cache p with
  | some c => exact ⟨rfl, h⟩
  | none =>
    simp only
    rw [h.route, h.flow, h.net.graph.edges]
    refine Sim2.same fun ps => ?_
    rw [show costOfEdge b'.net b.route ps = costOfEdge b.net b.route ps from funext (costOfEdge_ren h.net _ _)]
    refine Sim2.same fun costs => ?_
    exact ⟨rfl, h.net, h.interval, h.active, h.built, h.handle, rfl, h.next, rfl, h.important, h.inflow, h.sinks, h.changes, rfl⟩

omit [DecidableEq P] in
theorem constActive_ren {g g' : Graph} (hg : GraphRenamed σ g g') (costs : List ℚ) {dist dist' : Nat → Option ℚ} (hd : NRen σ dist dist') (v : Nat) : ∀ (es : List Nat), (∀ e ∈ es, Linked g e) →
    constActive g' costs dist' (σ v) es = constActive g costs dist v es := by
  intro es
  induction es with
  | nil => intro _; rfl
  | cons e es ih =>
    intro hl
    have ih := ih fun a ha => hl a (List.mem_cons_of_mem _ ha)
    unfold constActive
    rw [to_ren hg (hl e List.mem_cons_self), hd, hg.ids, look_ren hd, ih]

theorem assign_ren (hσ : Function.Injective σ) {n n' : Network P} (hn : NodesRenamed σ n n') (p : P) (v : Nat) (a : List Nat) : ∀ (js : List Nat) (d d' : Nat → Nat → Option (List Nat)),
    (∀ i, NRen σ (d i) (d' i)) → Sim2 (fun d d' => ∀ i, NRen σ (d i) (d' i)) (assign n p v a js d) (assign n' p (σ v) a js d') := by
  intro js
  induction js with
  | nil => intro d d' h; exact h
  | cons j js ih =>
    intro d d' h
    unfold assign
    rw [hn.commodities]
    refine Sim2.bind (Sim2.rd _ _ _) fun c c' hc => ?_
    subst hc
    refine ih _ _ ?_
    change ∀ i, NRen σ ((if c.predictor = p then fun i u => if i = j ∧ u = v then some a else d i u else d) i)
      ((if c.predictor = p then fun i u => if i = j ∧ u = σ v then some a else d' i u else d') i)
    split
    · intro i u
      simp only
      by_cases hu : i = j ∧ u = v
      · rw [if_pos hu, if_pos ⟨hu.1, by rw [hu.2]⟩]
      · rw [if_neg hu, if_neg (fun e => hu ⟨e.1, hσ e.2⟩)]; exact h i u
    · exact h

theorem constLoop_ren (hσ : Function.Injective σ) (h : BRen σ b b') (c : Commodity P) (costs : List ℚ) {dist dist' : Nat → Option ℚ} (hd : NRen σ dist dist') :
    ∀ (vs : List Nat) (d d' : Nat → Nat → Option (List Nat)), (∀ i, NRen σ (d i) (d' i)) →
    Sim2 (fun d d' => ∀ i, NRen σ (d i) (d' i)) (constLoop ord b c costs dist vs d) (constLoop ord b' (renameCommodity σ c) costs dist' (vs.map σ) d') := by
  intro vs
  induction vs with
  | nil => intro d d' h; exact h
  | cons v vs ih =>
    intro d d' hdd
    rw [List.map_cons]
    unfold constLoop
    by_cases hs : v = c.sink
    · rw [if_pos hs, if_pos (show σ v = (renameCommodity σ c).sink by rw [hs]; rfl)]
      exact ih _ _ hdd
    · rw [if_neg hs, if_neg (show ¬ σ v = (renameCommodity σ c).sink from fun e => hs (hσ e)), out_ren h.net.graph, constActive_ren h.net.graph costs hd v _ (fun e he => linked_out he)]
      refine Sim2.same fun a => Sim2.same fun _ => ?_
      rw [show b'.sinkIds (renameCommodity σ c).sink = b.sinkIds c.sink from h.sinks _]
      exact Sim2.bind (assign_ren hσ h.net _ _ _ _ _ _ hdd) fun x y hxy => ih _ _ hxy

theorem getActive_ren (hσ : Function.Injective σ) (hord : ∀ l, ord (l.map σ) = (ord l).map σ) (h : BRen σ b b') (i s : Nat) : Sim2 (Out σ) (b.getActive ord preds i s) (b'.getActive ord preds i (σ s)) := by
  unfold Builder.getActive
  rw [h.active i s]
  cases b.active i s with
  | some a => exact ⟨rfl, h⟩
  | none =>
    simp only
    rw [h.net.commodities, h.important]
    refine Sim2.bind (Sim2.rd _ _ _) fun c c' hc => ?_
    subst hc
    refine Sim2.bind (Sim2.rd _ _ _) fun nodes nodes' hnd => ?_
    subst hnd
    change Sim2 _ _ (if (preds c.predictor).constant then _ else _)
    split
    · refine Sim2.bind (getCosts_ren h _) fun x y hxy => ?_
      obtain ⟨costs, b1⟩ := x
      obtain ⟨costs', b1'⟩ := y
      obtain ⟨h1, h2⟩ := hxy
      simp only at h1 h2
      subst h1
      simp only
      refine Sim2.same fun consts => ?_
      refine Sim2.bind (reverseDijkstra_ren hσ h2.net.graph c.sink consts nodes) fun dist dist' hd => ?_
      rw [hord]
      refine Sim2.bind (constLoop_ren hσ h2 c consts hd _ _ _ h2.active) fun d d' hdd => ?_
      rw [hdd i s]
      cases d i s with
      | none => rfl
      | some a => exact ⟨rfl, h2.with_active hdd⟩
    · refine Sim2.bind (getCosts_ren h _) fun x y hxy => ?_
      obtain ⟨costs, b1⟩ := x
      obtain ⟨costs', b1'⟩ := y
      obtain ⟨h1, h2⟩ := hxy
      simp only at h1 h2
      subst h1
      simp only
      rw [h2.route]
      refine Sim2.bind (dynamicDijkstra_ren hσ h2.net.graph b1.route s c.sink nodes _) fun res res' hr => ?_
      rw [show (renameCommodity σ c).sink = σ c.sink from rfl, activeEdges_ren hσ h2.net.graph hr]
      refine Sim2.same fun a => ?_
      refine ⟨rfl, h2.net, h2.interval, fun j u => ?_, h2.built, h2.handle, h2.flow, h2.next, rfl, h2.important, h2.inflow, h2.sinks, h2.changes, h2.cache⟩
      simp only
      by_cases hu : j = i ∧ u = s
      · rw [if_pos hu, if_pos ⟨hu.1, by rw [hu.2]⟩]
      · rw [if_neg hu, if_neg (fun e => hu ⟨e.1, hσ e.2⟩)]; exact h2.active j u

omit [DecidableEq P] in
theorem spread_ren {g g' : Graph} (hg : GraphRenamed σ g g') (i : Nat) (x : ℚ) : ∀ (es : List Nat) d, spread g' i x es d = spread g i x es d := by
  intro es
  induction es with
  | nil => intro d; rfl
  | cons e es ih => intro d; unfold spread; rw [hg.ids, ih]

omit [DecidableEq P] in
theorem reset_ren {g g' : Graph} (hg : GraphRenamed σ g g') : ∀ (es : List Nat) d, reset g' es d = reset g es d := by
  intro es
  induction es with
  | nil => intro d; rfl
  | cons e es ih => intro d; unfold reset; rw [hg.ids, ih]

omit [DecidableEq P] in
theorem outflows_ren {g g' : Graph} (hg : GraphRenamed σ g g') : ∀ (es : List Nat) s, outflows g' es s = outflows g es s := by
  intro es
  induction es with
  | nil => intro s; rfl
  | cons e es ih => intro s; unfold outflows; simp only [hg.ids, ih]

theorem distribute_ren (hσ : Function.Injective σ) (hord : ∀ l, ord (l.map σ) = (ord l).map σ) (v : Nat) (outs : List Rates) (net : Rates) : ∀ (is : List Nat) (b b' : Builder P) d, BRen σ b b' →
    Sim2 (Out σ) (distribute ord preds v outs net is b d) (distribute ord preds (σ v) outs net is b' d) := by
  intro is
  induction is with
  | nil => intro b b' d h; exact ⟨rfl, h⟩
  | cons i is ih =>
    intro b b' d h
    unfold distribute
    simp only
    split
    · exact ih _ _ _ h
    · refine Sim2.bind (getActive_ren hσ hord h i v) fun x y hxy => ?_
      obtain ⟨a, b1⟩ := x
      obtain ⟨a', b1'⟩ := y
      obtain ⟨h1, h2⟩ := hxy
      simp only at h1 h2
      subst h1
      simp only
      refine Sim2.same fun z => ?_
      rw [spread_ren h2.net.graph]
      exact Sim2.same fun d => ih _ _ _ h2

theorem newInflow_ren (hσ : Function.Injective σ) (hord : ∀ l, ord (l.map σ) = (ord l).map σ) : ∀ (vs : List Nat) (b b' : Builder P) d, BRen σ b b' →
    Sim2 (Out σ) (newInflow ord preds vs b d) (newInflow ord preds (vs.map σ) b' d) := by
  intro vs
  induction vs with
  | nil => intro b b' d h; exact ⟨rfl, h⟩
  | cons v vs ih =>
    intro b b' d h
    rw [List.map_cons]
    unfold newInflow
    simp only
    rw [out_ren h.net.graph, in_ren h.net.graph, reset_ren h.net.graph, outflows_ren h.net.graph, h.flow, h.inflow v]
    simp only [h.sinks v]
    refine Sim2.same fun x => ?_
    obtain ⟨outs, flow⟩ := x
    simp only
    refine Sim2.same fun y => ?_
    obtain ⟨net, c⟩ := y
    simp only
    have hb : BRen σ { b with flow := flow, netInflow := setAt b.netInflow v c } { b' with flow := flow, netInflow := setAt b'.netInflow (σ v) c } := by
      refine ⟨h.net, h.interval, h.active, h.built, h.handle, rfl, h.next, h.route, h.important, fun u => ?_, h.sinks, h.changes, h.cache⟩
      by_cases hu : u = v
      · subst hu; simp only [DFlow.setAt_self]
      · simp only
        rw [DFlow.setAt_ne _ _ hu, DFlow.setAt_ne _ _ (fun e => hu (hσ e))]; exact h.inflow u
    refine Sim2.bind (distribute_ren hσ hord v outs net _ _ _ _ hb) fun z w hzw => ?_
    obtain ⟨d2, b2⟩ := z
    obtain ⟨d2', b2'⟩ := w
    obtain ⟨h1, h2⟩ := hzw
    simp only at h1 h2
    subst h1
    exact ih _ _ _ h2

omit [DecidableEq P] in
theorem popChanges_ren (hσ : Function.Injective σ) : ∀ fuel (b b' : Builder P), BRen σ b b' → Sim2 (BRen σ) (popChanges fuel b) (popChanges fuel b') := by
  intro fuel
  induction fuel with
  | zero => intro b b' _; rfl
  | succ fuel ih =>
    intro b b' h
    simp only [popChanges]
    rw [minKey_ren h.changes, h.flow]
    refine Sim2.same fun k => ?_
    split
    · refine Sim2.bind (pop_ren (chg_inj hσ) h.changes) fun x y hxy => ?_
      obtain ⟨q, x⟩ := x
      obtain ⟨q', x'⟩ := y
      obtain ⟨h1, h2⟩ := hxy
      simp only at h1 h2
      subst h2
      refine ih _ _ ⟨h.net, h.interval, h.active, h.built, ?_, rfl, h.next, h.route, h.important, h.inflow, h.sinks, h1, h.cache⟩
      simp only [h.handle, List.map_append]
      rfl
    · exact h

omit [DecidableEq P] in
theorem reroute_ren (h : BRen σ b b') : Sim2 (BRen σ) b.reroute b'.reroute := by
  unfold Builder.reroute
  rw [h.interval]
  cases b.interval with
  | none => rfl
  | some d =>
    simp only
    rw [h.flow, h.next, h.net.graph.nodes]
    split
    · exact ⟨h.net, rfl, fun _ _ => rfl, h.built, rfl, rfl, rfl, rfl, h.important, h.inflow, h.sinks, h.changes, rfl⟩
    · exact h

omit [DecidableEq P] in
theorem data_ren {n n' : Network P} (hn : NodesRenamed σ n n') : n'.data = n.data := by
  unfold Network.data
  rw [hn.capacity, hn.travelTime]

/-- Related results of `prepare`. -/
def PRen (σ : Nat → Nat) (p p' : List (Nat × Rates) × ℚ × Builder P) : Prop := p'.1 = p.1 ∧ p'.2.1 = p.2.1 ∧ BRen σ p.2.2 p'.2.2

theorem prepare_ren (hσ : Function.Injective σ) (hord : ∀ l, ord (l.map σ) = (ord l).map σ) (h : BRen σ b b') : Sim2 (PRen σ) (b.prepare ord preds) (b'.prepare ord preds) := by
  unfold Builder.prepare
  rw [len_ren h.changes]
  refine Sim2.bind (popChanges_ren hσ _ _ _ h) fun b1 b1' h1 => ?_
  refine Sim2.bind (reroute_ren h1) fun b2 b2' h2 => ?_
  rw [h2.handle, hord]
  refine Sim2.bind (newInflow_ren hσ hord _ _ _ _ h2) fun x y hxy => ?_
  obtain ⟨l, b3⟩ := x
  obtain ⟨l', b3'⟩ := y
  obtain ⟨e1, h3⟩ := hxy
  simp only at e1 h3
  subst e1
  simp only
  rw [minKey_ren h3.changes, h3.next]
  exact Sim2.same fun k => Sim2.same fun T => ⟨rfl, rfl, h3⟩

theorem step_ren (hσ : Function.Injective σ) (hord : ∀ l, ord (l.map σ) = (ord l).map σ) (h : BRen σ b b') : Sim2 (BRen σ) (b.step ord preds) (b'.step ord preds) := by
  unfold Builder.step
  refine Sim2.bind (R := PRen σ) (prepare_ren hσ hord h) ?_
  · rintro ⟨l, T, b1⟩ ⟨l', T', b1'⟩ ⟨e1, e2, h1⟩
    simp only at e1 e2 h1
    subst e1; subst e2
    simp only
    rw [h1.flow, data_ren h1.net, h1.net.graph.edges]
    refine Sim2.same fun x => ?_
    obtain ⟨flow, changed⟩ := x
    simp only
    have hm := mapPy_ren (F := fun e => do let r ← rd b1.net.graph.edges e; pure (b1.net.graph.nodeTo r)) (F' := fun e => do let r ← rd b1.net.graph.edges e; pure (b1'.net.graph.nodeTo r))
      (i := id) (o := σ) changed (fun e _ => by
        simp only [id]
        cases hr : rd b1.net.graph.edges e with
        | error _ => rfl
        | ok r => simp only [ok_bind, py_pure, Except.map, to_ren h1.net.graph (.inl (List.mem_of_getElem? (rd_eq_ok.mp hr)))])
    rw [List.map_id] at hm
    rw [hm]
    refine Sim2.bind (Sim2.map _ _) fun x y hxy => ?_
    subst hxy
    exact ⟨h1.net, h1.interval, h1.active, h1.built, rfl, rfl, h1.next, h1.route, h1.important, h1.inflow, h1.sinks, h1.changes, h1.cache⟩

theorem rounds_ren (hσ : Function.Injective σ) (hord : ∀ l, ord (l.map σ) = (ord l).map σ) (h : BRen σ b b') : ∀ k, Sim2 (BRen σ) (rounds ord preds k b) (rounds ord preds k b') := by
  intro k
  induction k with
  | zero => exact h
  | succ k ih => exact Sim2.bind ih fun _ _ h => step_ren hσ hord h

end Rounds

/-! ### Networks built by the same calls -/

section Calls

theorem ensure_ren (hσ : Function.Injective σ) {g g' : Graph} (hg : GraphRenamed σ g g') (v : Nat) : GraphRenamed σ (g.ensureNode v) (g'.ensureNode (σ v)) := by
  unfold Graph.ensureNode
  rw [hg.nodes]
  by_cases h : v ∈ g.nodes
  · rw [if_pos h, if_pos ((mem_ren hσ).mpr h)]; exact hg
  · rw [if_neg h, if_neg (fun x => h ((mem_ren hσ).mp x))]
    have hl : ∀ r, Linked { g with nodes := g.nodes ++ [v], node := putAt g.node v ⟨[], []⟩ } r → Linked g r := by
      rintro r (hr | ⟨u, hr⟩)
      · exact .inl hr
      · simp only [putAt] at hr
        split at hr
        · simp at hr
        · exact .inr ⟨u, hr⟩
    refine ⟨hg.edges, hg.fresh, by simp [List.map_append], hg.ids, fun r hr => hg.tails r (hl r hr), fun r hr => hg.heads r (hl r hr), fun u => ?_, hg.reversed⟩
    simp only [putAt]
    by_cases hu : u = v
    · subst hu; simp
    · rw [if_neg hu, if_neg (fun e => hu (hσ e))]; exact hg.node u

theorem setOut_ren (hσ : Function.Injective σ) {g g' : Graph} (hg : GraphRenamed σ g g') {l : List Nat} (hl : ∀ r ∈ l, Linked g r) (v : Nat) : GraphRenamed σ (g.setOutgoing v l) (g'.setOutgoing (σ v) l) := by
  have hk : ∀ r, Linked (g.setOutgoing v l) r → Linked g r := by
    rintro r (hr | ⟨u, hr⟩)
    · exact .inl hr
    · unfold Graph.setOutgoing at hr
      simp only [putAt] at hr
      split at hr
      · split at hr
        · rcases hr with hr | hr
          · exact hl r hr
          · exact .inr ⟨v, .inr hr⟩
        · rcases hr with hr | hr
          · exact .inr ⟨v, .inl hr⟩
          · exact hl r hr
      · exact .inr ⟨u, hr⟩
  refine ⟨hg.edges, hg.fresh, hg.nodes, hg.ids, fun r hr => hg.tails r (hk r hr), fun r hr => hg.heads r (hk r hr), fun u => ?_, hg.reversed⟩
  unfold Graph.setOutgoing
  simp only [putAt, hg.reversed, hg.node]
  by_cases hu : u = v
  · subst hu; simp
  · rw [if_neg hu, if_neg (fun e => hu (hσ e))]

theorem setIn_ren (hσ : Function.Injective σ) {g g' : Graph} (hg : GraphRenamed σ g g') {l : List Nat} (hl : ∀ r ∈ l, Linked g r) (v : Nat) : GraphRenamed σ (g.setIncoming v l) (g'.setIncoming (σ v) l) := by
  have hk : ∀ r, Linked (g.setIncoming v l) r → Linked g r := by
    rintro r (hr | ⟨u, hr⟩)
    · exact .inl hr
    · unfold Graph.setIncoming at hr
      simp only [putAt] at hr
      split at hr
      · split at hr
        · rcases hr with hr | hr
          · exact .inr ⟨v, .inl hr⟩
          · exact hl r hr
        · rcases hr with hr | hr
          · exact hl r hr
          · exact .inr ⟨v, .inr hr⟩
      · exact .inr ⟨u, hr⟩
  refine ⟨hg.edges, hg.fresh, hg.nodes, hg.ids, fun r hr => hg.tails r (hk r hr), fun r hr => hg.heads r (hk r hr), fun u => ?_, hg.reversed⟩
  unfold Graph.setIncoming
  simp only [putAt, hg.reversed, hg.node]
  by_cases hu : u = v
  · subst hu; simp
  · rw [if_neg hu, if_neg (fun e => hu (hσ e))]

theorem newEdge_ren {g g' : Graph} (hg : GraphRenamed σ g g') (u v : Nat) :
    GraphRenamed σ { g with edge := putAt g.edge g.fresh ⟨u, v, g.edges.length⟩, fresh := g.fresh + 1, edges := g.edges ++ [g.fresh] }
      { g' with edge := putAt g'.edge g'.fresh ⟨σ u, σ v, g'.edges.length⟩, fresh := g'.fresh + 1, edges := g'.edges ++ [g'.fresh] } := by
  have hk : ∀ r, r ≠ g.fresh → Linked { g with edge := putAt g.edge g.fresh ⟨u, v, g.edges.length⟩, fresh := g.fresh + 1, edges := g.edges ++ [g.fresh] } r → Linked g r := by
    rintro r hne (hr | hr)
    · rcases List.mem_append.mp hr with hr | hr
      · exact .inl hr
      · exact absurd (List.mem_singleton.mp hr) hne
    · exact .inr hr
  refine ⟨by simp only [hg.edges, hg.fresh], by simp only [hg.fresh], hg.nodes, fun r => ?_, fun r hr => ?_, fun r hr => ?_, hg.node, hg.reversed⟩
  · simp only [putAt, hg.fresh, hg.edges]
    split
    · rfl
    · exact hg.ids r
  · by_cases h : r = g.fresh
    · simp [putAt, hg.fresh, h]
    · simp only [putAt, hg.fresh, if_neg h]; exact hg.tails r (hk r h hr)
  · by_cases h : r = g.fresh
    · simp [putAt, hg.fresh, h]
    · simp only [putAt, hg.fresh, if_neg h]; exact hg.heads r (hk r h hr)

theorem addEdge_ren (hσ : Function.Injective σ) {g g' : Graph} (hg : GraphRenamed σ g g') (u v : Nat) : GraphRenamed σ (g.addEdge u v) (g'.addEdge (σ u) (σ v)) := by
  have h1 := newEdge_ren (ensure_ren hσ (ensure_ren hσ hg u) v) u v
  have h2 := setOut_ren hσ h1 (l := Graph.outgoing _ u ++ [((g.ensureNode u).ensureNode v).fresh]) (fun r hr => by
    rcases List.mem_append.mp hr with hr | hr
    · exact linked_out hr
    · exact .inl (List.mem_append_right _ hr)) u
  have h3 := setIn_ren hσ h2 (l := Graph.incoming _ v ++ [((g.ensureNode u).ensureNode v).fresh]) (fun r hr => by
    rcases List.mem_append.mp hr with hr | hr
    · exact linked_in hr
    · exact .inl (List.mem_append_right _ hr)) v
  unfold Graph.addEdge
  simp only
  rw [out_ren h1, in_ren (by
    rw [(ensure_ren hσ (ensure_ren hσ hg u) v).fresh] at *
    exact h2)]
  rw [(ensure_ren hσ (ensure_ren hσ hg u) v).fresh] at *
  exact h3

theorem roads_ren (hσ : Function.Injective σ) : ∀ (roads : List (Nat × Nat × ℚ × ℚ)) (n n' : Network P), NodesRenamed σ n n' →
    NodesRenamed σ (roads.foldl (fun n r => n.addEdge r.1 r.2.1 r.2.2.1 r.2.2.2) n) ((roads.map (fun r => (σ r.1, σ r.2.1, r.2.2))).foldl (fun n r => n.addEdge r.1 r.2.1 r.2.2.1 r.2.2.2) n') := by
  intro roads
  induction roads with
  | nil => intro n n' h; exact h
  | cons r roads ih =>
    intro n n' h
    rw [List.map_cons, List.foldl_cons, List.foldl_cons]
    refine ih _ _ ⟨addEdge_ren hσ h.graph _ _, ?_, ?_, h.commodities⟩
    · unfold Network.addEdge; simp only [h.capacity]
    · unfold Network.addEdge; simp only [h.travelTime]

theorem commodities_ren (hσ : Function.Injective σ) : ∀ (cs : List (Commodity P)) (n n' : Network P), NodesRenamed σ n n' →
    Sim2 (NodesRenamed σ) (Network.addCommodities cs n) (Network.addCommodities (cs.map (renameCommodity σ)) n') := by
  intro cs
  induction cs with
  | nil => intro n n' h; exact h
  | cons c cs ih =>
    intro n n' h
    rw [List.map_cons]
    unfold Network.addCommodities
    refine Sim2.bind (R := NodesRenamed σ) ?_ fun a a' ha => ih a a' ha
    unfold Network.addCommodity
    rw [h.graph.nodes]
    by_cases h1 : ∀ s ∈ c.sources, s.1 ∈ n.graph.nodes
    · rw [pyAssert_true h1, pyAssert_true (fun s hs => by
        obtain ⟨t, ht, rfl⟩ := List.mem_map.mp hs
        exact (mem_ren hσ).mpr (h1 t ht))]
      by_cases h2 : c.sink ∈ n.graph.nodes
      · rw [pyAssert_true h2, pyAssert_true (show (renameCommodity σ c).sink ∈ n.graph.nodes.map σ from (mem_ren hσ).mpr h2)]
        refine ⟨h.graph, h.capacity, h.travelTime, ?_⟩
        simp only [h.commodities, List.map_append]
        rfl
      · rw [pyAssert_false h2, pyAssert_false (show ¬ (renameCommodity σ c).sink ∈ n.graph.nodes.map σ from fun x => h2 ((mem_ren hσ).mp x))]
        rfl
    · rw [pyAssert_false h1, pyAssert_false (show ¬ ∀ s ∈ (renameCommodity σ c).sources, s.1 ∈ n.graph.nodes.map σ from fun h' => h1 fun s hs =>
        (mem_ren hσ).mp (h' (σ s.1, s.2) (List.mem_map_of_mem (f := fun s : Nat × RC => (σ s.1, s.2)) hs)))]
      rfl

theorem empty_ren : NodesRenamed σ (Network.empty : Network P) Network.empty :=
  ⟨{ edges := rfl, fresh := rfl, nodes := rfl, ids := fun _ => rfl, tails := fun r h => absurd h (none r), heads := fun r h => absurd h (none r), node := fun _ => rfl, reversed := rfl },
    rfl, rfl, rfl⟩
where
  none (r : Nat) : ¬ Linked Graph.empty r := by
    rintro (h | ⟨_, h | h⟩) <;> cases h

theorem buildUp_ren (hσ : Function.Injective σ) (roads : List (Nat × Nat × ℚ × ℚ)) (cs : List (Commodity P)) :
    Sim2 (NodesRenamed σ) (buildUp roads cs) (buildUp (roads.map (fun r => (σ r.1, σ r.2.1, r.2.2))) (cs.map (renameCommodity σ))) :=
  commodities_ren hσ cs _ _ (roads_ren hσ roads _ _ empty_ren)

end Calls

end Renode
end Verif
