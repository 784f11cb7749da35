import Verif.Proofs.Reads
import Verif.Proofs.DijkstraDyn
import Verif.Proofs.GraphRun
import Verif.Spec.FlowBuilder

/-! The constructor of the flow builder: important nodes, network inflows, pending changes. -/

namespace Verif
open Spec

namespace Builder
variable {P : Type}

theorem mapPy_ok {α β : Type} (f : α → Py β) : ∀ (l : List α), (∀ a ∈ l, ∃ b, f a = .ok b) →
    ∃ bs, mapPy f l = .ok bs ∧ bs.length = l.length ∧ ∀ (j : Nat) (a : α), l[j]? = some a → ∃ b, bs[j]? = some b ∧ f a = .ok b := by
  intro l
  induction l with
  | nil => intro _; exact ⟨[], rfl, rfl, by simp⟩
  | cons a l ih =>
    intro h
    obtain ⟨b, hb⟩ := h a (by simp)
    obtain ⟨bs, h1, h2, h3⟩ := ih (fun a ha => h a (by simp [ha]))
    refine ⟨b :: bs, ?_, by simp [h2], ?_⟩
    · unfold mapPy; rw [hb, ok_bind, h1, ok_bind]; rfl
    · intro j a' hj
      cases j with
      | zero => simp at hj; subst hj; exact ⟨b, by simp, hb⟩
      | succ j => simpa using h3 j a' (by simpa using hj)

theorem path_nodes {g : Graph} (hg : Consistent g) {a b : Nat} (h : Path g a b) (ha : a ∈ g.nodes) : b ∈ g.nodes := by
  cases h with
  | refl => exact ha
  | tail _ h' => obtain ⟨r, hr, _, hb⟩ := h'; exact hb ▸ (hg.ends r hr).2

theorem path_nodes_back {g : Graph} (hg : Consistent g) {a b : Nat} (h : Path g a b) (hb : b ∈ g.nodes) : a ∈ g.nodes := by
  induction h with
  | refl => exact hb
  | tail _ h' ih => obtain ⟨r, hr, ha, _⟩ := h'; exact ih (ha ▸ (hg.ends r hr).1)

/-- `v` lies on a path from a source of the commodity to its sink. -/
def Between (g : Graph) (c : Commodity P) (v : Nat) : Prop := Path g v c.sink ∧ ∃ s ∈ c.sources, Path g s.1 v

theorem importantOf_spec {g : Graph} (hg : Consistent g) {c : Commodity P} (hs : c.sink ∈ g.nodes)
    (hsrc : ∀ s ∈ c.sources, s.1 ∈ g.nodes) : ∃ L, importantOf g c = .ok L ∧ ∀ v, v ∈ L ↔ Between g c v := by
  obtain ⟨S, s1, _, s2⟩ := Graph.nodesReaching_spec hg hs
  obtain ⟨bs, b1, b2, b3⟩ := mapPy_ok (fun s : Nat × RC => g.reachableNodes s.1) c.sources (fun s hs => by
    obtain ⟨S, h, _⟩ := Graph.reachableNodes_spec hg (hsrc s hs); exact ⟨S, h⟩)
  refine ⟨S.filter (fun v => v ∈ bs.flatten), ?_, ?_⟩
  · unfold importantOf; rw [s1, ok_bind, b1, ok_bind]; rfl
  · intro v
    rw [List.mem_filter, s2]
    unfold Between
    refine and_congr_right (fun _ => ?_)
    rw [decide_eq_true_eq, List.mem_flatten]
    constructor
    · rintro ⟨L, hL, hv⟩
      obtain ⟨j, hj, e⟩ := List.getElem_of_mem hL
      have hj' : j < c.sources.length := by omega
      obtain ⟨b, e1, e2⟩ := b3 j c.sources[j] (List.getElem?_eq_getElem hj')
      rw [List.getElem?_eq_getElem hj, e] at e1; injection e1 with e1; subst e1
      have hmem : c.sources[j] ∈ c.sources := List.getElem_mem hj'
      obtain ⟨S', h1, _, h2⟩ := Graph.reachableNodes_spec hg (hsrc _ hmem)
      rw [h1] at e2; injection e2 with e2; subst e2
      exact ⟨_, hmem, (h2 v).mp hv⟩
    · rintro ⟨s, hs, hp⟩
      obtain ⟨j, hj, e⟩ := List.getElem_of_mem hs
      obtain ⟨b, e1, e2⟩ := b3 j s (by rw [List.getElem?_eq_getElem hj, e])
      obtain ⟨S', h1, _, h2⟩ := Graph.reachableNodes_spec hg (hsrc _ hs)
      rw [h1] at e2; injection e2 with e2; subst e2
      exact ⟨S', List.mem_of_getElem? e1, (h2 v).mpr hp⟩

theorem sourcesAt_key {v : Nat} : ∀ {cs : List (Commodity P)} {k : Nat} {p : Nat × RC}, p ∈ sourcesAt v k cs → k ≤ p.1 := by
  intro cs
  induction cs with
  | nil => intro k p h; cases h
  | cons c cs ih =>
    intro k p h
    unfold sourcesAt at h
    split at h
    · rcases List.mem_cons.mp h with rfl | h
      · exact le_rfl
      · have := ih h; omega
    · have := ih h; omega

theorem sourcesAt_nodup {v : Nat} : ∀ {cs : List (Commodity P)} {k : Nat}, ((sourcesAt v k cs).map Prod.fst).Nodup := by
  intro cs
  induction cs with
  | nil => intro k; exact List.nodup_nil
  | cons c cs ih =>
    intro k
    unfold sourcesAt
    split
    · rw [List.map_cons, List.nodup_cons]
      refine ⟨?_, ih⟩
      intro h
      obtain ⟨p, hp, e⟩ := List.mem_map.mp h
      have := sourcesAt_key hp
      simp only at e; omega
    · exact ih

theorem sourcesAt_lookup {v : Nat} : ∀ {cs : List (Commodity P)} {k j : Nat},
    (sourcesAt v k cs).lookup (k + j) = cs[j]?.bind (fun c => c.sources.lookup v) := by
  intro cs
  induction cs with
  | nil => intro k j; rfl
  | cons c cs ih =>
    intro k j
    unfold sourcesAt
    cases j with
    | zero =>
      cases hc : c.sources.lookup v with
      | some f => simp [hc]
      | none =>
        simp only [Nat.add_zero, List.getElem?_cons_zero, Option.bind_some, hc]
        rw [List.lookup_eq_none_iff]
        intro p hp
        have := sourcesAt_key hp
        simpa using (by omega : ¬ k = p.1)
    | succ j =>
      have := ih (k := k + 1) (j := j)
      rw [show k + 1 + j = k + (j + 1) by omega] at this
      rw [List.getElem?_cons_succ, ← this]
      cases hc : c.sources.lookup v with
      | some f =>
        simp only [List.lookup_cons]
        have hb : (k + (j + 1) == k) = false := by simp
        rw [hb]
      | none => rfl

theorem sourcesAt_mem {v : Nat} {cs : List (Commodity P)} {p : Nat × RC} (h : p ∈ sourcesAt v 0 cs) :
    ∃ c, cs[p.1]? = some c ∧ (v, p.2) ∈ c.sources := by
  have := FRC.lookup_of_mem sourcesAt_nodup h
  have h2 := sourcesAt_lookup (v := v) (cs := cs) (k := 0) (j := p.1)
  rw [Nat.zero_add, this] at h2
  obtain ⟨c, h3, h4⟩ := Option.bind_eq_some_iff.mp h2.symm
  exact ⟨c, h3, FRC.mem_of_lookup h4⟩

theorem InflowOk.wf {f : RC} (h : InflowOk f) : f.WF :=
  ⟨h.len, h.ne, h.lt, fun t ht => ⟨by rw [h.lo]; exact WithBot.coe_le_coe.mpr (h.pos t ht), by rw [h.hi]; exact le_top⟩⟩

theorem stepValue_eq {f : RC} (h : InflowOk f) {t : ℚ} (ht : 0 ≤ t) : stepValue f t = f.fn t := by
  unfold stepValue
  rw [RC.eval_eq (InflowOk.wf h) (by
    unfold RC.inDom; rw [h.lo, h.hi]; exact ⟨WithBot.coe_le_coe.mpr ht, le_top⟩)]

variable {n : Network P}

theorem dictOk_at (hn : InputOk n) (v : Nat) : FRC.DictOk (sourcesAt v 0 n.commodities) := by
  have hmem : ∀ p ∈ sourcesAt v 0 n.commodities, ∃ c ∈ n.commodities, (v, p.2) ∈ c.sources ∧ InflowOk p.2 := by
    intro p hp
    obtain ⟨c, h1, h2⟩ := sourcesAt_mem hp
    have hc := List.mem_of_getElem? h1
    exact ⟨c, hc, h2, (hn.source c hc _ h2).2.2⟩
  have hback : ∀ c ∈ n.commodities, ∀ s ∈ c.sources, s.1 = v → ∃ p ∈ sourcesAt v 0 n.commodities, p.2 = s.2 := by
    intro c hc s hs hv
    obtain ⟨j, hj, e⟩ := List.getElem_of_mem hc
    have := sourcesAt_lookup (v := v) (cs := n.commodities) (k := 0) (j := j)
    rw [List.getElem?_eq_getElem hj, e, Option.bind_some, ← hv, FRC.lookup_of_mem (hn.keys c hc) hs, hv] at this
    exact ⟨_, FRC.mem_of_lookup this, rfl⟩
  refine ⟨sourcesAt_nodup, ?_, ?_, ?_, ?_, ?_, ?_, ?_⟩
  · intro p hp; obtain ⟨c, _, _, h⟩ := hmem p hp; exact InflowOk.wf h
  · intro p hp; obtain ⟨c, _, _, h⟩ := hmem p hp; rw [h.lo]
  · intro p hp; obtain ⟨c, _, _, h⟩ := hmem p hp; exact h.hi
  · intro p hp; obtain ⟨c, _, _, h⟩ := hmem p hp; exact h.pos
  · intro hne
    obtain ⟨p, hp⟩ := List.exists_mem_of_ne_nil _ hne
    obtain ⟨c, hc, h1, _⟩ := hmem p hp
    obtain ⟨c', hc', s', hs', e, h0⟩ := hn.start c hc _ h1
    obtain ⟨q, hq, e2⟩ := hback c' hc' s' hs' e
    exact ⟨q, hq, by rw [e2]; exact h0⟩
  · intro a ha b hb hab
    obtain ⟨ta, h1, h2⟩ := List.mem_flatten.mp ha
    obtain ⟨pa, hpa, rfl⟩ := List.mem_map.mp h1
    obtain ⟨tb, h3, h4⟩ := List.mem_flatten.mp hb
    obtain ⟨pb, hpb, rfl⟩ := List.mem_map.mp h3
    obtain ⟨c, hc, g1, _⟩ := hmem pa hpa
    obtain ⟨c', hc', g2, _⟩ := hmem pb hpb
    exact hn.apart c hc _ g1 c' hc' _ g2 rfl a h2 b h4 hab
  · intro p hp; obtain ⟨c, _, _, h⟩ := hmem p hp; exact h.vals

theorem dictRate_eq (hn : InputOk n) (v i : Nat) {t : ℚ} (ht : 0 ≤ t) :
    FRC.dictRate (sourcesAt v 0 n.commodities) i t = networkRate n v i t := by
  have h := sourcesAt_lookup (v := v) (cs := n.commodities) (k := 0) (j := i)
  rw [Nat.zero_add] at h
  unfold FRC.dictRate networkRate
  rw [h]
  cases hc : n.commodities[i]? with
  | none => rfl
  | some c =>
    simp only [Option.bind_some]
    cases hs : c.sources.lookup v with
    | none => rfl
    | some f =>
      have := (hn.source c (List.mem_of_getElem? hc) _ (FRC.mem_of_lookup hs)).2.2
      exact (stepValue_eq this ht).symm

theorem networkRate_nonneg (hn : InputOk n) (v i : Nat) {t : ℚ} (ht : 0 ≤ t) : 0 ≤ networkRate n v i t := by
  rw [← dictRate_eq hn v i ht]; exact (dictOk_at hn v).nonneg i t

theorem netInflows_spec (hn : InputOk n) : ∀ (vs : List Nat) (d : Nat → FRC), ∃ d', netInflows n.commodities vs d = .ok d' ∧
    (∀ v ∈ vs, (d' v).Reads 0 (networkRate n v)) ∧ ∀ v, v ∉ vs → d' v = d v := by
  intro vs
  induction vs with
  | nil => intro d; exact ⟨d, rfl, by simp, by simp⟩
  | cons v vs ih =>
    intro d
    obtain ⟨c, e1, e2, _⟩ := FRC.ofDict_reads (dictOk_at hn v)
    obtain ⟨d', h1, h2, h3⟩ := ih (setAt d v c)
    refine ⟨d', by unfold netInflows; rw [e1, ok_bind, h1], ?_, ?_⟩
    · intro u hu
      by_cases hm : u ∈ vs
      · exact h2 u hm
      · have : u = v := by rcases List.mem_cons.mp hu with h | h; exacts [h, absurd h hm]
        subst this
        rw [h3 u hm, DFlow.setAt_self]
        exact ⟨e2.sorted, e2.items, e2.head, fun i x hx => by rw [e2.rate i x hx, dictRate_eq hn u i hx]⟩
    · intro u hu
      rw [List.mem_cons, not_or] at hu
      rw [h3 u hu.2, DFlow.setAt_ne _ _ hu.1]

theorem sinkIdsAt_mem {v : Nat} : ∀ {cs : List (Commodity P)} {k i : Nat}, i ∈ sinkIdsAt v k cs ↔ ∃ j c, i = k + j ∧ cs[j]? = some c ∧ c.sink = v := by
  intro cs
  induction cs with
  | nil => intro k i; simp [sinkIdsAt]
  | cons c cs ih =>
    intro k i
    have hrest : i ∈ sinkIdsAt v (k + 1) cs ↔ ∃ j d, i = k + (j + 1) ∧ cs[j]? = some d ∧ d.sink = v := by
      rw [ih]
      constructor <;> rintro ⟨j, d, h1, h2⟩ <;> exact ⟨j, d, by omega, h2⟩
    have : (∃ j d, i = k + j ∧ (c :: cs)[j]? = some d ∧ d.sink = v) ↔ (i = k ∧ c.sink = v) ∨ i ∈ sinkIdsAt v (k + 1) cs := by
      rw [hrest]
      constructor
      · rintro ⟨j, d, h1, h2, h3⟩
        cases j with
        | zero => simp at h2; subst h2; exact Or.inl ⟨h1, h3⟩
        | succ j => exact Or.inr ⟨j, d, h1, by simpa using h2, h3⟩
      · rintro (⟨h1, h2⟩ | ⟨j, d, h1, h2, h3⟩)
        · exact ⟨0, c, h1, rfl, h2⟩
        · exact ⟨j + 1, d, h1, by simpa using h2, h3⟩
    have hun : sinkIdsAt v k (c :: cs) = if c.sink = v then k :: sinkIdsAt v (k + 1) cs else sinkIdsAt v (k + 1) cs := rfl
    rw [this, hun]
    split
    · rename_i hc
      rw [List.mem_cons]
      exact ⟨fun h => h.imp_left (fun h => ⟨h, hc⟩), fun h => h.imp_left And.left⟩
    · rename_i hc
      exact ⟨Or.inr, fun h => h.resolve_left (fun h => hc h.2)⟩

theorem sinkIds_spec {v i : Nat} : i ∈ sinkIdsAt v 0 n.commodities ↔ IsSink n i v := by
  rw [sinkIdsAt_mem]
  constructor
  · rintro ⟨j, c, h1, h2⟩; rw [Nat.zero_add] at h1; subst h1; exact ⟨c, h2⟩
  · rintro ⟨c, h⟩; exact ⟨i, c, by omega, h⟩

/-- `t` is a break point of the network inflow of commodity `x.1` into node `x.2.1`. -/
def Break (cs : List (Commodity P)) (x : Nat × Nat × ℚ) : Prop := ∃ c f, cs[x.1]? = some c ∧ (x.2.1, f) ∈ c.sources ∧ x.2.2 ∈ f.times

theorem changeList_mem : ∀ {cs : List (Commodity P)} {k : Nat} {p : (Nat × Nat × ℚ) × EVal},
    p ∈ changeList k cs ↔ ∃ j, p.1.1 = k + j ∧ Break cs (j, p.1.2) ∧ p.2 = ev p.1.2.2 := by
  intro cs
  induction cs with
  | nil => intro k p; simp [changeList, Break]
  | cons c cs ih =>
    intro k p
    unfold changeList
    rw [List.mem_append, ih]
    constructor
    · rintro (h | ⟨j, h1, h2, h3⟩)
      · obtain ⟨l, h1, h2⟩ := List.mem_flatten.mp h
        obtain ⟨s, hs, rfl⟩ := List.mem_map.mp h1
        obtain ⟨t, ht, rfl⟩ := List.mem_map.mp h2
        exact ⟨0, rfl, ⟨c, s.2, rfl, hs, ht⟩, rfl⟩
      · obtain ⟨d, f, g1, g2, g3⟩ := h2
        exact ⟨j + 1, by omega, ⟨d, f, by simpa using g1, g2, g3⟩, h3⟩
    · rintro ⟨j, h1, ⟨d, f, g1, g2, g3⟩, h3⟩
      cases j with
      | zero =>
        left
        simp at g1; subst g1
        refine List.mem_flatten.mpr ⟨_, List.mem_map.mpr ⟨_, g2, rfl⟩, List.mem_map.mpr ⟨p.1.2.2, g3, ?_⟩⟩
        obtain ⟨⟨a, b, t⟩, y⟩ := p
        simp only at h1 h3 ⊢
        rw [h1, h3]; rfl
      | succ j => exact Or.inr ⟨j, by omega, ⟨d, f, by simpa using g1, g2, g3⟩, h3⟩

theorem changeList_nodup : ∀ {cs : List (Commodity P)} {k : Nat}, (∀ c ∈ cs, (c.sources.map Prod.fst).Nodup ∧ ∀ s ∈ c.sources, s.2.times.Nodup) →
    ((changeList k cs).map Prod.fst).Nodup := by
  intro cs
  induction cs with
  | nil => intro k _; exact List.nodup_nil
  | cons c cs ih =>
    intro k h
    unfold changeList
    rw [List.map_append, List.nodup_append]
    refine ⟨?_, ih (fun c hc => h c (by simp [hc])), ?_⟩
    · obtain ⟨h1, h2⟩ := h c (by simp)
      rw [List.map_flatten, List.map_map, List.nodup_flatten]
      constructor
      · intro l hl
        obtain ⟨s, hs, rfl⟩ := List.mem_map.mp hl
        simp only [Function.comp, List.map_map]
        apply List.Nodup.map _ (h2 s hs)
        intro a b hab
        simpa using hab
      · rw [List.pairwise_map]
        rw [List.nodup_iff_pairwise_ne, List.pairwise_map] at h1
        refine h1.imp ?_
        intro a b hab x hx hy
        simp only [Function.comp, List.map_map, List.mem_map] at hx hy
        obtain ⟨t, _, rfl⟩ := hx
        obtain ⟨t', _, e⟩ := hy
        injection e with _ e
        injection e with e _
        exact hab e.symm
    · intro a ha b hb hab
      subst hab
      obtain ⟨p, hp, rfl⟩ := List.mem_map.mp ha
      obtain ⟨q, hq, e⟩ := List.mem_map.mp hb
      obtain ⟨l, h1, h2⟩ := List.mem_flatten.mp hp
      obtain ⟨s, hs, rfl⟩ := List.mem_map.mp h1
      obtain ⟨t, ht, rfl⟩ := List.mem_map.mp h2
      obtain ⟨j, h3, _⟩ := changeList_mem.mp hq
      rw [e] at h3
      simp only at h3; omega

/-- A valid network has valid edge data. -/
theorem netOk (hn : InputOk n) : NetOk n.data := by
  constructor
  · intro e
    unfold Network.data
    simp only
    rw [List.getD_eq_getElem?_getD]
    cases h : n.capacity[e]? with
    | none => norm_num
    | some c => exact hn.cap c (List.mem_of_getElem? h)
  · intro e
    unfold Network.data
    simp only
    rw [List.getD_eq_getElem?_getD]
    cases h : n.travelTime[e]? with
    | none => norm_num
    | some c => exact hn.tt c (List.mem_of_getElem? h)

/-- What the constructor makes of a valid network. -/
theorem init_spec (hn : InputOk n) (d : Option ℚ) : ∃ b f0, init n d = .ok b ∧ DFlow.init = .ok f0 ∧ b.net = n ∧ b.interval = d ∧
    b.active = (fun _ _ => none) ∧ b.built = false ∧ b.handle = [] ∧ b.flow = f0 ∧ b.nextReroute = f0.phi ∧ b.route = f0.phi ∧
    b.important.length = n.commodities.length ∧
    (∀ (i : Nat) (L : List Nat), b.important[i]? = some L → ∃ c, n.commodities[i]? = some c ∧ ∀ v, v ∈ L ↔ Between n.graph c v) ∧
    (∀ v ∈ n.graph.nodes, (b.netInflow v).Reads 0 (networkRate n v)) ∧ (∀ v i, i ∈ b.sinkIds v ↔ IsSink n i v) ∧
    b.cache = (fun _ => none) ∧ ∃ M, Heap.Rep b.changes M ∧ ∀ x, (Break n.commodities x → M x = some (ev x.2.2)) ∧ (¬ Break n.commodities x → M x = none) := by
  obtain ⟨f0, hf0, _⟩ := DFlow.init_ok (netOk hn)
  obtain ⟨L, i1, i2, i3⟩ := mapPy_ok (importantOf n.graph) n.commodities (fun c hc => by
    obtain ⟨L, h, _⟩ := importantOf_spec hn.graph (hn.sink c hc) (fun s hs => (hn.source c hc s hs).1); exact ⟨L, h⟩)
  obtain ⟨c0, hc0, _⟩ := FRC.empty_good
  obtain ⟨dd, d1, d2, _⟩ := netInflows_spec hn n.graph.nodes (fun _ => c0)
  obtain ⟨h, h1, h2⟩ := Heap.rel_ofList (K := EVal) (changeList 0 n.commodities) (changeList_nodup (fun c hc =>
    ⟨hn.keys c hc, fun s hs => ((hn.source c hc s hs).2.2.lt).imp ne_of_lt⟩))
  have himp : ∀ (i : Nat) (l : List Nat), L[i]? = some l → ∃ c, n.commodities[i]? = some c ∧ ∀ v, v ∈ l ↔ Between n.graph c v := by
    intro i l hl
    have hi : i < n.commodities.length := by rw [← i2]; exact (List.getElem?_eq_some_iff.mp hl).1
    have hc := List.getElem_mem hi
    obtain ⟨b, e1, e2⟩ := i3 i _ (List.getElem?_eq_getElem hi)
    rw [hl] at e1; injection e1 with e1; subst e1
    obtain ⟨L', g1, g2⟩ := importantOf_spec hn.graph (hn.sink _ hc) (fun s hs => (hn.source _ hc s hs).1)
    rw [e2] at g1; injection g1 with g1; subst g1
    exact ⟨_, List.getElem?_eq_getElem hi, g2⟩
  have hassert : ∀ p ∈ n.commodities.zip L, ∀ s ∈ p.1.sources, s.1 ∈ p.2 := by
    intro p hp s hs
    obtain ⟨j, hj, e⟩ := List.getElem_of_mem hp
    have hj' : j < n.commodities.length ∧ j < L.length := by rw [List.length_zip] at hj; omega
    obtain ⟨c, g1, g2⟩ := himp j _ (List.getElem?_eq_getElem hj'.2)
    rw [List.getElem?_eq_getElem hj'.1] at g1; injection g1 with g1
    rw [List.getElem_zip] at e
    subst e
    subst g1
    simp only at hs ⊢
    exact (g2 _).mpr ⟨(hn.source _ (List.getElem_mem hj'.1) s hs).2.1, s, hs, .refl⟩
  refine ⟨_, f0, by unfold init; rw [hf0, ok_bind, i1, ok_bind, hc0, ok_bind, d1, ok_bind, pyAssert_true hassert, ok_bind, h1, ok_bind]; exact rfl,
    hf0, rfl, rfl, rfl, rfl, rfl, rfl, rfl, rfl, i2, himp, d2, fun v i => sinkIds_spec, rfl, _, ⟨_, h2, fun _ => rfl⟩, ?_⟩
  intro x
  have hnd : ((changeList 0 n.commodities).map Prod.fst).Nodup := changeList_nodup (fun c hc =>
    ⟨hn.keys c hc, fun s hs => ((hn.source c hc s hs).2.2.lt).imp ne_of_lt⟩)
  constructor
  · intro hx
    have hm : (x, ev x.2.2) ∈ changeList 0 n.commodities := changeList_mem.mpr ⟨x.1, by simp, hx, rfl⟩
    exact (Heap.lookup_eq_some hnd x _).mpr hm
  · intro hx
    rw [Heap.lookup_eq_none]
    rintro ⟨k, hk⟩
    obtain ⟨j, g1, g2, _⟩ := changeList_mem.mp hk
    rw [Nat.zero_add] at g1
    subst g1
    exact hx g2

end Builder
end Verif
