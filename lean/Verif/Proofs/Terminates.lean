import Verif.Proofs.DFlowEvents
import Verif.Proofs.BuilderGen
import Mathlib.Algebra.Order.Archimedean.Basic

/-! Building a flow advances: only finitely many rounds end within a stretch of time as long as the shortest travel time. Nothing is assumed about the predictions here. -/

namespace Verif
namespace Builder
open Spec
variable {P : Type} [DecidableEq P] {n : Network P} {preds : P → Predictor} {ord : List Nat → List Nat}

/-- What routing leaves alone. -/
structure Frame (b b' : Builder P) : Prop where
  net : b'.net = b.net
  interval : b'.interval = b.interval
  next : b'.nextReroute = b.nextReroute
  changes : b'.changes = b.changes

omit [DecidableEq P] in
theorem Frame.trans {a b c : Builder P} (h : Frame a b) (h' : Frame b c) : Frame a c :=
  ⟨h'.net.trans h.net, h'.interval.trans h.interval, h'.next.trans h.next, h'.changes.trans h.changes⟩

theorem getCosts_frame {b b' : Builder P} {p : P} {l : List PL} (h : getCosts preds b p = .ok (l, b')) : Frame b b' ∧ b'.flow = b.flow := by
  unfold getCosts at h
  split at h
  · injection h with h; injection h with _ h; rw [h]; exact ⟨⟨rfl, rfl, rfl, rfl⟩, rfl⟩
  · obtain ⟨ps, _, h⟩ := bind_eq_ok.mp h
    obtain ⟨cs, _, h⟩ := bind_eq_ok.mp h
    injection h with h; injection h with _ h; rw [← h]; exact ⟨⟨rfl, rfl, rfl, rfl⟩, rfl⟩

theorem getActive_frame {b b' : Builder P} {i s : Nat} {l : List Nat} (h : getActive ord preds b i s = .ok (l, b')) : Frame b b' ∧ b'.flow = b.flow := by
  unfold getActive at h
  split at h
  · injection h with h; injection h with _ h; rw [h]; exact ⟨⟨rfl, rfl, rfl, rfl⟩, rfl⟩
  · obtain ⟨c, _, h⟩ := bind_eq_ok.mp h
    obtain ⟨nodes, _, h⟩ := bind_eq_ok.mp h
    split at h
    · obtain ⟨⟨costs, b1⟩, hc, h⟩ := bind_eq_ok.mp h
      obtain ⟨consts, _, h⟩ := bind_eq_ok.mp h
      obtain ⟨dist, _, h⟩ := bind_eq_ok.mp h
      obtain ⟨d, _, h⟩ := bind_eq_ok.mp h
      split at h
      · injection h with h; injection h with _ h; rw [← h]
        obtain ⟨⟨a1, a2, a3, a4⟩, a5⟩ := getCosts_frame hc
        exact ⟨⟨a1, a2, a3, a4⟩, a5⟩
      · cases h
    · obtain ⟨⟨costs, b1⟩, hc, h⟩ := bind_eq_ok.mp h
      obtain ⟨res, _, h⟩ := bind_eq_ok.mp h
      obtain ⟨a, _, h⟩ := bind_eq_ok.mp h
      injection h with h; injection h with _ h; rw [← h]
      obtain ⟨⟨a1, a2, a3, a4⟩, a5⟩ := getCosts_frame hc
      exact ⟨⟨a1, a2, a3, a4⟩, a5⟩

/-- All keys are edge ids below `m`. -/
abbrev KeysLt (m : Nat) (d : List (Nat × Rates)) : Prop := ∀ p ∈ d, p.1 < m

theorem spread_keys {g : Graph} {i m : Nat} {x : ℚ} : ∀ (es : List Nat) {d d' : List (Nat × Rates)}, KeysLt m d → spread g i x es d = .ok d' → KeysLt m d' := by
  intro es
  induction es with
  | nil => intro d d' h he; injection he with he; subst he; exact h
  | cons e es ih =>
    intro d d' h he
    unfold spread at he
    split at he
    · refine ih ?_ he
      intro p hp
      obtain ⟨q, hq, rfl⟩ := List.mem_map.mp hp
      split
      · exact h q hq
      · exact h q hq
    · cases he

theorem reset_keys {g : Graph} {m : Nat} : ∀ (es : List Nat) {d : List (Nat × Rates)}, KeysLt m d → (∀ e ∈ es, (g.edge e).id < m) → KeysLt m (reset g es d) := by
  intro es
  induction es with
  | nil => intro d h _; exact h
  | cons e es ih =>
    intro d h he
    unfold reset
    refine ih ?_ (fun e' he' => he e' (by simp [he']))
    split
    · intro p hp
      obtain ⟨q, hq, rfl⟩ := List.mem_map.mp hp
      split
      · exact h q hq
      · exact h q hq
    · intro p hp
      rcases List.mem_append.mp hp with hp | hp
      · exact h p hp
      · simp only [List.mem_singleton] at hp
        subst hp
        exact he e (by simp)

theorem distribute_frame {v m : Nat} {outs : List Rates} {net : Rates} : ∀ {is : List Nat} {b b' : Builder P} {d d' : List (Nat × Rates)}, KeysLt m d →
    distribute ord preds v outs net is b d = .ok (d', b') → Frame b b' ∧ b'.flow = b.flow ∧ KeysLt m d' := by
  intro is
  induction is with
  | nil => intro b b' d d' hk h; injection h with h; injection h with h1 h; rw [← h, ← h1]; exact ⟨⟨rfl, rfl, rfl, rfl⟩, rfl, hk⟩
  | cons i is ih =>
    intro b b' d d' hk h
    unfold distribute at h
    simp only at h
    split at h
    · exact ih hk h
    · obtain ⟨⟨a, b1⟩, ha, h⟩ := bind_eq_ok.mp h
      obtain ⟨x, _, h⟩ := bind_eq_ok.mp h
      obtain ⟨d1, hd1, h⟩ := bind_eq_ok.mp h
      obtain ⟨f1, f2⟩ := getActive_frame ha
      obtain ⟨g1, g2, g3⟩ := ih (spread_keys _ hk hd1) h
      exact ⟨f1.trans g1, g2.trans f2, g3⟩

/-- Reading the outflows does not change the plan. -/
theorem outflows_same {g : Graph} {net : EdgeData} : ∀ (es : List Nat) {s s' : DFlow} {vs : List Rates}, DFlow.HeadOk s → outflows g es s = .ok (vs, s') →
    DFlow.HeadOk s' ∧ s'.phi = s.phi ∧ ∀ Q C, DFlow.Safe net s Q C → DFlow.Safe net s' Q C := by
  intro es
  induction es with
  | nil => intro s s' vs h he; injection he with he; injection he with _ he; subst he; exact ⟨h, rfl, fun _ _ h => h⟩
  | cons e es ih =>
    intro s s' vs h he
    unfold outflows at he
    obtain ⟨v, s1, a1, a2, a3, _, a4, _⟩ := DFlow.look_ok (net := net) h (g.edge e).id
    rw [a1, ok_bind] at he
    obtain ⟨⟨rest, s2⟩, h2, he⟩ := bind_eq_ok.mp he
    injection he with he; injection he with _ he; subst he
    obtain ⟨b1, b2, b3⟩ := ih a2 h2
    exact ⟨b1, b2.trans a3, fun Q C h => b3 Q C (a4 Q C h)⟩

theorem newInflow_frame {m : Nat} {net' : EdgeData} : ∀ {vs : List Nat} {b b' : Builder P} {d d' : List (Nat × Rates)}, KeysLt m d → DFlow.HeadOk b.flow →
    (∀ v ∈ vs, ∀ e ∈ b.net.graph.outgoing v, (b.net.graph.edge e).id < m) → newInflow ord preds vs b d = .ok (d', b') →
    Frame b b' ∧ KeysLt m d' ∧ DFlow.HeadOk b'.flow ∧ b'.flow.phi = b.flow.phi ∧ ∀ Q C, DFlow.Safe net' b.flow Q C → DFlow.Safe net' b'.flow Q C := by
  intro vs
  induction vs with
  | nil => intro b b' d d' hk hh _ h; injection h with h; injection h with h1 h; rw [← h, ← h1]; exact ⟨⟨rfl, rfl, rfl, rfl⟩, hk, hh, rfl, fun _ _ h => h⟩
  | cons v vs ih =>
    intro b b' d d' hk hh hv h
    unfold newInflow at h
    simp only at h
    obtain ⟨⟨outs, flow⟩, ho, h⟩ := bind_eq_ok.mp h
    obtain ⟨⟨net, c⟩, _, h⟩ := bind_eq_ok.mp h
    obtain ⟨⟨d1, b1⟩, hd, h⟩ := bind_eq_ok.mp h
    obtain ⟨o1, o2, o3⟩ := outflows_same (net := net') _ hh ho
    obtain ⟨f1, f2, f3⟩ := distribute_frame (reset_keys _ hk (hv v (by simp))) hd
    have hb1 : b1.net = b.net := f1.net
    obtain ⟨g1, g2, g3, g4, g5⟩ := ih f3 (by rw [f2]; exact o1) (fun w hw => by rw [hb1]; exact hv w (by simp [hw])) h
    refine ⟨⟨g1.net.trans f1.net, g1.interval.trans f1.interval, g1.next.trans f1.next, g1.changes.trans f1.changes⟩, g2, g3, ?_, ?_⟩
    · rw [g4, f2]; exact o2
    · intro Q C hs
      apply g5
      rw [f2]
      exact o3 Q C hs

theorem mapPy_mem {α β : Type} {f : α → Py β} : ∀ {l : List α} {bs : List β}, mapPy f l = .ok bs → ∀ {y : β}, y ∈ bs → ∃ a ∈ l, f a = .ok y := by
  intro l
  induction l with
  | nil => intro bs h y hy; injection h with h; subst h; cases hy
  | cons a l ih =>
    intro bs h y hy
    unfold mapPy at h
    obtain ⟨z, h1, h⟩ := bind_eq_ok.mp h
    obtain ⟨rest, h2, h⟩ := bind_eq_ok.mp h
    injection h with h
    subst h
    rcases List.mem_cons.mp hy with rfl | hy
    · exact ⟨a, by simp, h1⟩
    · obtain ⟨a', m1, m2⟩ := ih h2 hy
      exact ⟨a', by simp [m1], m2⟩

/-- The times at which an inflow into the network changes. -/
def breakTimes (n : Network P) : List ℚ := (n.commodities.map (fun c => (c.sources.map (fun s => s.2.times)).flatten)).flatten

omit [DecidableEq P] in
theorem breakTimes_mem {x : Nat × Nat × ℚ} (h : Break n.commodities x) : x.2.2 ∈ breakTimes n := by
  obtain ⟨c, f, h1, h2, h3⟩ := h
  unfold breakTimes
  rw [List.mem_flatten]
  refine ⟨_, List.mem_map.mpr ⟨c, List.mem_of_getElem? h1, rfl⟩, ?_⟩
  rw [List.mem_flatten]
  exact ⟨_, List.mem_map.mpr ⟨_, h2, rfl⟩, h3⟩

/-- What holds between rounds, whatever is predicted. -/
structure Going (n : Network P) (d : ℚ) (b : Builder P) : Prop where
  net : b.net = n
  interval : b.interval = some d
  safe : ∃ Q C, DFlow.Safe n.data b.flow Q C
  head : DFlow.HeadOk b.flow
  next : ∃ K : Nat, b.nextReroute = K * d
  le : b.flow.phi ≤ b.nextReroute
  nonneg : 0 ≤ b.flow.phi
  heap : ∃ W, b.changes.Rep (wmap W) ∧ ∀ x, W x = true → Break n.commodities x
  handle : ∀ v ∈ b.handle, v ∈ n.graph.nodes

theorem going_init (hn : InputOk n) {d : ℚ} {b : Builder P} (h : Builder.init n (some d) = .ok b) : Going n d b := by
  obtain ⟨b', f0, h1, h2, h3, h4, _, _, h5, h6, h7, _, _, _, _, _, _, M, h8, h9⟩ := init_spec hn (some d)
  rw [h] at h1
  injection h1 with h1
  subst h1
  obtain ⟨s, i1, i2, _, i3⟩ := DFlow.init_ok (netOk hn)
  rw [h2] at i1
  injection i1 with i1
  subst i1
  classical
  refine ⟨h3, h4, ⟨_, _, by rw [h6]; exact i3⟩, by rw [h6]; exact DFlow.init_head h2, ⟨0, by rw [h7, i2]; simp⟩, by rw [h6, h7], by rw [h6, i2], ⟨fun x => decide (Break n.commodities x), ?_, ?_⟩, by simp [h5]⟩
  · refine h8.congr (fun x => ?_)
    unfold wmap
    by_cases hx : Break n.commodities x
    · rw [(h9 x).1 hx]; simp [hx]
    · rw [(h9 x).2 hx]; simp [hx]
  · intro x hx; exact of_decide_eq_true hx

/-- One round: the time moves on; it stops at a planned event, a rerouting time or a change of the network inflow, or at least `τ` later, and nothing is planned before that. -/
theorem going_step (hn : InputOk n) (hord : OrderOk ord) {d τ : ℚ} (hd : 0 < d) (hτ0 : 0 < τ) (hτ : ∀ t ∈ n.travelTime, τ ≤ t) {b b' : Builder P} (h : Going n d b) {Q : Nat → Pend} {C : Nat × ℚ → Bool}
    (hs : DFlow.Rep n.data b.flow Q C) (he : b.step ord preds = .ok b') :
    Going n d b' ∧ b.flow.phi < b'.flow.phi ∧
    (∃ Q' C', DFlow.Rep n.data b'.flow Q' C' ∧ ∀ y, DFlow.Due n.data.travelTime Q' C' y → DFlow.Due n.data.travelTime Q C y ∨ b.flow.phi + τ ≤ y) ∧
    ((∃ K : Nat, b'.flow.phi = K * d) ∨ b'.flow.phi ∈ breakTimes n ∨ DFlow.Due n.data.travelTime Q C b'.flow.phi ∨ b.flow.phi + τ ≤ b'.flow.phi) := by
  have hnet := netOk hn
  unfold step at he
  obtain ⟨⟨l, T, b1⟩, hp, he⟩ := bind_eq_ok.mp he
  obtain ⟨⟨flow, ch⟩, hext, he⟩ := bind_eq_ok.mp he
  obtain ⟨hdl, hmap, he⟩ := bind_eq_ok.mp he
  injection he with he
  subst he
  unfold prepare at hp
  obtain ⟨b2, h2, hp⟩ := bind_eq_ok.mp hp
  obtain ⟨b3, h3, hp⟩ := bind_eq_ok.mp hp
  obtain ⟨⟨l4, b4⟩, h4, hp⟩ := bind_eq_ok.mp hp
  obtain ⟨k, hk, hp⟩ := bind_eq_ok.mp hp
  obtain ⟨T', hT', hp⟩ := bind_eq_ok.mp hp
  injection hp with hp; injection hp with hp1 hp; injection hp with hp2 hp3
  subst hp1; subst hp2; subst hp3
  obtain ⟨W, hW, hWb⟩ := h.heap
  obtain ⟨h', W', H, a1, a2, a3, a4⟩ := popChanges_spec (b.changes.len + 1) b W hW (by omega)
  rw [a1] at h2
  injection h2 with h2
  subst h2
  -- rerouting
  have hH : ∀ v ∈ H, v ∈ n.graph.nodes := by
    intro v hv
    obtain ⟨x, x1, x2, _⟩ := (a4 v).mp hv
    obtain ⟨c, f, y1, y2, _⟩ := hWb x x1
    rw [← x2]
    exact (hn.source c (List.mem_of_getElem? y1) _ y2).1
  obtain ⟨K, hK⟩ := h.next
  have r3 : b3.net = n ∧ b3.interval = some d ∧ b3.flow = b.flow ∧ b3.changes = h' ∧ (∃ K : Nat, b3.nextReroute = K * d) ∧ b.flow.phi < b3.nextReroute ∧ ∀ v ∈ b3.handle, v ∈ n.graph.nodes := by
    unfold reroute at h3
    simp only [h.interval] at h3
    by_cases hge : b.flow.phi ≥ b.nextReroute
    · rw [if_pos hge] at h3
      injection h3 with h3
      subst h3
      refine ⟨h.net, rfl, rfl, rfl, ⟨K + 1, ?_⟩, ?_, ?_⟩
      · simp only [hK]; push_cast; ring
      · have := h.le
        simp only
        linarith
      · intro v hv
        simp only [h.net] at hv
        exact hv
    · rw [if_neg hge] at h3
      injection h3 with h3
      subst h3
      refine ⟨h.net, rfl, rfl, rfl, ⟨K, hK⟩, not_le.mp hge, ?_⟩
      intro v hv
      rcases List.mem_append.mp hv with hv | hv
      · exact h.handle v hv
      · exact hH v hv
  obtain ⟨c1, c2, c3, c4, ⟨K', c5⟩, c6, c7⟩ := r3
  have hkeys : ∀ v ∈ ord b3.handle, ∀ e ∈ b3.net.graph.outgoing v, (b3.net.graph.edge e).id < n.graph.edges.length := by
    intro v hv e hev
    have hv' := c7 v (((hord _).2 v).mp hv)
    rw [c1] at hev ⊢
    rw [hn.graph.out v hv', List.mem_filter] at hev
    exact (edge_id hn.graph hev.1).1
  obtain ⟨f1, f2, f3, f4, f5⟩ := newInflow_frame (net' := n.data) (m := n.graph.edges.length) (by intro p hp; cases hp) (by rw [c3]; exact h.head) hkeys h4
  obtain ⟨Q0, C0, hs0⟩ := h.safe
  have hs4 : DFlow.Safe n.data b4.flow Q0 C0 := f5 _ _ (by rw [c3]; exact hs0)
  have hphi : b4.flow.phi = b.flow.phi := by rw [f4, c3]
  -- the bound on the time
  obtain ⟨k', hk', hkmin, hkex⟩ := a2.minKey
  have hch : b4.changes = h' := by rw [f1.changes, c4]
  rw [hch, hk'] at hk
  injection hk with hk
  subst hk
  have hnr : b4.nextReroute = K' * d := by rw [f1.next, c5]
  have hT : T' = b4.nextReroute ∨ ∃ x, W' x = true ∧ T' = x.2.2 := by
    rcases le_total (ev b4.nextReroute) k' with hle | hle
    · rw [min_eq_left hle] at hT'
      left
      injection hT' with hT'
      exact hT'.symm
    · rw [min_eq_right hle] at hT'
      rcases hkex with ⟨x, hx⟩ | ⟨rfl, _⟩
      · right
        unfold wmap at hx
        split at hx
        · rename_i hWx
          injection hx with hx
          rw [← hx] at hT'
          injection hT' with hT'
          exact ⟨x, hWx, hT'.symm⟩
        · cases hx
      · exact absurd hle (not_le.mpr (ev_lt_top _))
  have hlt : b.flow.phi < T' := by
    rcases hT with h1 | ⟨x, h1, h2⟩
    · rw [h1, f1.next]; exact c6
    · rw [h2]; exact ((a3 x).mp h1).2
  have hTle : T' ≤ b4.nextReroute := by
    rcases le_total (ev b4.nextReroute) k' with hle | hle
    · rw [min_eq_left hle] at hT'
      injection hT' with hT'
      exact hT'.symm.le
    · have := hle
      rw [min_eq_right hle] at hT'
      have hk2 : k' = ev T' := by
        unfold EVal.toRat at hT'
        split at hT'
        · cases hT'
        · cases hT'
        · injection hT' with hT'; rw [hT']; rfl
      rw [hk2] at this
      exact ev_le.mp this
  -- the flow
  have hnet4 : b4.net = n := f1.net.trans c1
  rw [hnet4] at hext
  have hτl : ∀ p ∈ l4, τ ≤ n.data.travelTime p.1 := by
    intro p hp
    have := f2 p hp
    rw [← hn.ttLen] at this
    show τ ≤ n.travelTime.getD p.1 0
    rw [List.getD_eq_getElem?_getD, List.getElem?_eq_getElem this]
    exact hτ _ (List.getElem_mem this)
  obtain ⟨⟨Q1, C1, g1, g2⟩, g3⟩ := DFlow.extend_due hnet hs4.rep hτl hext
  obtain ⟨e1, e2, e3, _, _, _⟩ := DFlow.extend_safe hnet hs4 (by rw [hphi]; exact hlt.le) hext
  have hhead := DFlow.extend_head hnet hs4 f3 (by rw [hphi]; exact hlt.le) hext
  have hback : ∀ y, DFlow.Due n.data.travelTime Q0 C0 y → DFlow.Due n.data.travelTime Q C y := fun y hy => DFlow.due_unique hs0.rep hs hy
  have hpos : ∀ y, DFlow.Due n.data.travelTime Q0 C0 y → b.flow.phi < y := by
    rintro y (⟨e, hy⟩ | ⟨e, D, va, hy, rfl⟩)
    · exact (hs0.chg e y hy).1
    · have := (hs0.dep e D _ hy).1
      have := hnet.tt e
      linarith
  rw [hphi] at g2 g3
  have hadv : b.flow.phi < flow.phi := by
    rcases g3 with g | g | g
    · rw [g]; exact hlt
    · exact hpos _ g
    · linarith
  refine ⟨⟨hnet4, f1.interval.trans c2, e1, hhead, ⟨K', hnr⟩, le_trans e2 hTle, ?_, ⟨W', ?_, ?_⟩, ?_⟩, hadv, ⟨Q1, C1, g1, ?_⟩, ?_⟩
  · have := h.nonneg
    show 0 ≤ flow.phi
    linarith
  · show b4.changes.Rep _
    rw [hch]; exact a2
  · intro x hx; exact hWb x ((a3 x).mp hx).1
  · intro v hv
    simp only at hv
    rw [hnet4] at hmap
    obtain ⟨e, _, he⟩ := mapPy_mem hmap hv
    obtain ⟨r, hr, he⟩ := bind_eq_ok.mp he
    injection he with he
    rw [← he]
    exact (hn.graph.ends r (List.mem_of_getElem? (rd_eq_ok.mp hr))).2
  · intro y hy
    exact (g2 y hy).imp_left (hback y)
  · show (∃ K : Nat, flow.phi = K * d) ∨ _
    rcases g3 with g | g | g
    · rcases hT with t | ⟨x, t1, t2⟩
      · left; exact ⟨K', by rw [g, t, hnr]⟩
      · right; left
        show flow.phi ∈ _
        rw [g, t2]
        exact breakTimes_mem (hWb x ((a3 x).mp t1).1)
    · right; right; left; exact hback _ g
    · right; right; right; exact g

theorem rounds_add : ∀ (j m : Nat) (b : Builder P), rounds ord preds (m + j) b = (do let b ← rounds ord preds m b; rounds ord preds j b) := by
  intro j
  induction j with
  | zero => intro m b; cases h : rounds ord preds m b <;> simp [rounds, h]
  | succ j ih =>
    intro m b
    show (rounds ord preds (m + j) b >>= fun b => b.step ord preds) = _
    rw [ih m b]
    cases h : rounds ord preds m b with
    | error e => rfl
    | ok b' => rfl

/-- The number of entries after a time. -/
def countAfter (L : List ℚ) (t : ℚ) : Nat := (L.filter (fun x => decide (t < x))).length

theorem countAfter_lt {L : List ℚ} {t t' : ℚ} (h : t < t') (hm : t' ∈ L) : countAfter L t' < countAfter L t := by
  unfold countAfter
  induction L with
  | nil => cases hm
  | cons a L ih =>
    have hle : ∀ L : List ℚ, (L.filter (fun x => decide (t' < x))).length ≤ (L.filter (fun x => decide (t < x))).length := by
      intro L
      induction L with
      | nil => simp
      | cons b L ih =>
        by_cases h1 : t' < b
        · have h2 : t < b := lt_trans h h1
          simp [h1, h2, ih]
        · by_cases h2 : t < b
          · simp [h1, h2]; omega
          · simp [h1, h2, ih]
    by_cases ha : a = t'
    · subst ha
      have := hle L
      simp [h]
      omega
    · have := ih ((List.mem_cons.mp hm).resolve_left (Ne.symm ha))
      by_cases h1 : t' < a
      · have h2 : t < a := lt_trans h h1
        simp [h1, h2, this]
      · by_cases h2 : t < a
        · simp [h1, h2]; omega
        · simp [h1, h2, this]

/-- Within `τ` only finitely many rounds end. -/
theorem going_block (hn : InputOk n) (hord : OrderOk ord) {d τ : ℚ} (hd : 0 < d) (hτ0 : 0 < τ) (hτ : ∀ t ∈ n.travelTime, τ ≤ t) {X : ℚ} {L : List ℚ}
    (hLb : ∀ y ∈ breakTimes n, y ∈ L) (hLd : ∀ K : Nat, (K : ℚ) * d < X → (K : ℚ) * d ∈ L) :
    ∀ (c : Nat) {b : Builder P} {Q : Nat → Pend} {C : Nat × ℚ → Bool}, Going n d b → DFlow.Rep n.data b.flow Q C → (∀ y, DFlow.Due n.data.travelTime Q C y → y < X → y ∈ L) → X ≤ b.flow.phi + τ →
      countAfter L b.flow.phi ≤ c → ∃ N, (∃ e, rounds ord preds N b = .error e) ∨ ∃ b', rounds ord preds N b = .ok b' ∧ Going n d b' ∧ X ≤ b'.flow.phi := by
  intro c
  induction c with
  | zero =>
    intro b Q C hg hr hdue hX hc
    cases hs : b.step ord preds with
    | error e => exact ⟨1, .inl ⟨e, by show (Except.ok b >>= fun b => b.step ord preds) = _; rw [ok_bind, hs]⟩⟩
    | ok b' =>
      obtain ⟨g1, g2, _, g4⟩ := going_step hn hord hd hτ0 hτ hg hr hs
      refine ⟨1, .inr ⟨b', by show (Except.ok b >>= fun b => b.step ord preds) = _; rw [ok_bind, hs], g1, ?_⟩⟩
      by_contra hlt
      have hlt := not_le.mp hlt
      have hmem : b'.flow.phi ∈ L := by
        rcases g4 with ⟨K, g⟩ | g | g | g
        · rw [g]; exact hLd K (by rw [← g]; exact hlt)
        · exact hLb _ g
        · exact hdue _ g hlt
        · linarith
      have := countAfter_lt g2 hmem
      omega
  | succ c ih =>
    intro b Q C hg hr hdue hX hc
    cases hs : b.step ord preds with
    | error e => exact ⟨1, .inl ⟨e, by show (Except.ok b >>= fun b => b.step ord preds) = _; rw [ok_bind, hs]⟩⟩
    | ok b' =>
      obtain ⟨g1, g2, ⟨Q', C', r1, r2⟩, g4⟩ := going_step hn hord hd hτ0 hτ hg hr hs
      by_cases hlt : X ≤ b'.flow.phi
      · exact ⟨1, .inr ⟨b', by show (Except.ok b >>= fun b => b.step ord preds) = _; rw [ok_bind, hs], g1, hlt⟩⟩
      · have hlt := not_le.mp hlt
        have hmem : b'.flow.phi ∈ L := by
          rcases g4 with ⟨K, g⟩ | g | g | g
          · rw [g]; exact hLd K (by rw [← g]; exact hlt)
          · exact hLb _ g
          · exact hdue _ g hlt
          · linarith
        have := countAfter_lt g2 hmem
        obtain ⟨N, hN⟩ := ih g1 r1 (fun y hy hyX => by
          rcases r2 y hy with h | h
          · exact hdue y h hyX
          · linarith) (by linarith) (by omega)
        refine ⟨N + 1, ?_⟩
        rw [rounds_succ', hs, ok_bind]
        exact hN

/-- Every time is reached, unless a round raises. -/
theorem going_reaches (hn : InputOk n) (hord : OrderOk ord) {d τ : ℚ} (hd : 0 < d) (hτ0 : 0 < τ) (hτ : ∀ t ∈ n.travelTime, τ ≤ t) :
    ∀ (j : Nat) {b : Builder P}, Going n d b → ∃ N, (∃ e, rounds ord preds N b = .error e) ∨ ∃ b', rounds ord preds N b = .ok b' ∧ Going n d b' ∧ j * τ ≤ b'.flow.phi := by
  intro j
  induction j with
  | zero => intro b hg; exact ⟨0, .inr ⟨b, rfl, hg, by simpa using hg.nonneg⟩⟩
  | succ j ih =>
    intro b hg
    obtain ⟨N, h | ⟨b1, h1, h2, h3⟩⟩ := ih hg
    · exact ⟨N, .inl h⟩
    · obtain ⟨Q, C, hs⟩ := h2.safe
      obtain ⟨l, hl⟩ := DFlow.due_finite hs.rep
      obtain ⟨M, hM⟩ := exists_nat_gt ((b1.flow.phi + τ) / d)
      have hM' : b1.flow.phi + τ < M * d := (div_lt_iff₀ hd).mp hM
      obtain ⟨N', h'⟩ := going_block hn hord (preds := preds) hd hτ0 hτ (X := b1.flow.phi + τ) (L := l ++ breakTimes n ++ (List.range M).map (fun (K : Nat) => (K : ℚ) * d))
        (fun y hy => by simp [hy])
        (fun K hK => by
          refine List.mem_append_right _ (List.mem_map.mpr ⟨K, ?_, rfl⟩)
          rw [List.mem_range]
          have : (K : ℚ) < M := lt_of_mul_lt_mul_right (lt_trans hK hM') hd.le
          exact_mod_cast this) _ h2 hs.rep (fun y hy _ => by simp [hl y hy]) le_rfl le_rfl
      refine ⟨N + N', ?_⟩
      rw [rounds_add, h1, ok_bind]
      rcases h' with h' | ⟨b2, k1, k2, k3⟩
      · exact .inl h'
      · refine .inr ⟨b2, k1, k2, ?_⟩
        push_cast
        linarith

end Builder
end Verif
