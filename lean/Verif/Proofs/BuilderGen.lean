import Verif.Proofs.BuilderStep
import Verif.Spec.Generators

/-! Proofs on the generators of `build_flow` and on `build_with_times`. -/

namespace Verif
namespace Builder
open Spec
variable {P : Type} [DecidableEq P]

theorem getCosts_built {preds : P → Predictor} {b b' : Builder P} {p : P} {l : List PL} (h : getCosts preds b p = .ok (l, b')) : b'.built = b.built := by
  unfold getCosts at h
  split at h
  · injection h with h; injection h with _ h; rw [h]
  · obtain ⟨ps, _, h⟩ := bind_eq_ok.mp h
    obtain ⟨cs, _, h⟩ := bind_eq_ok.mp h
    injection h with h; injection h with _ h; rw [← h]

theorem getActive_built {ord : List Nat → List Nat} {preds : P → Predictor} {b b' : Builder P} {i s : Nat} {l : List Nat}
    (h : getActive ord preds b i s = .ok (l, b')) : b'.built = b.built := by
  unfold getActive at h
  split at h
  · injection h with h; injection h with _ h; rw [h]
  · obtain ⟨c, _, h⟩ := bind_eq_ok.mp h
    obtain ⟨nodes, _, h⟩ := bind_eq_ok.mp h
    split at h
    · obtain ⟨⟨costs, b1⟩, hc, h⟩ := bind_eq_ok.mp h
      obtain ⟨consts, _, h⟩ := bind_eq_ok.mp h
      obtain ⟨dist, _, h⟩ := bind_eq_ok.mp h
      obtain ⟨d, _, h⟩ := bind_eq_ok.mp h
      split at h
      · injection h with h; injection h with _ h; rw [← h]; have := getCosts_built hc; exact this
      · cases h
    · obtain ⟨⟨costs, b1⟩, hc, h⟩ := bind_eq_ok.mp h
      obtain ⟨res, _, h⟩ := bind_eq_ok.mp h
      obtain ⟨a, _, h⟩ := bind_eq_ok.mp h
      injection h with h; injection h with _ h; rw [← h]; have := getCosts_built hc; exact this

theorem distribute_built {ord : List Nat → List Nat} {preds : P → Predictor} {v : Nat} {outs : List Rates} {net : Rates} :
    ∀ {is : List Nat} {b b' : Builder P} {d d' : List (Nat × Rates)}, distribute ord preds v outs net is b d = .ok (d', b') → b'.built = b.built := by
  intro is
  induction is with
  | nil => intro b b' d d' h; injection h with h; injection h with _ h; rw [h]
  | cons i is ih =>
    intro b b' d d' h
    unfold distribute at h
    simp only at h
    split at h
    · exact ih h
    · obtain ⟨⟨a, b1⟩, ha, h⟩ := bind_eq_ok.mp h
      obtain ⟨x, _, h⟩ := bind_eq_ok.mp h
      obtain ⟨d1, _, h⟩ := bind_eq_ok.mp h
      rw [ih h]; exact getActive_built ha

theorem newInflow_built {ord : List Nat → List Nat} {preds : P → Predictor} :
    ∀ {vs : List Nat} {b b' : Builder P} {d d' : List (Nat × Rates)}, newInflow ord preds vs b d = .ok (d', b') → b'.built = b.built := by
  intro vs
  induction vs with
  | nil => intro b b' d d' h; injection h with h; injection h with _ h; rw [h]
  | cons v vs ih =>
    intro b b' d d' h
    unfold newInflow at h
    simp only at h
    obtain ⟨⟨outs, flow⟩, _, h⟩ := bind_eq_ok.mp h
    obtain ⟨⟨net, c⟩, _, h⟩ := bind_eq_ok.mp h
    obtain ⟨⟨d1, b1⟩, hd, h⟩ := bind_eq_ok.mp h
    have := distribute_built hd; rw [ih h]; exact this

theorem popChanges_built : ∀ {fuel : Nat} {b b' : Builder P}, popChanges fuel b = .ok b' → b'.built = b.built := by
  intro fuel
  induction fuel with
  | zero => intro b b' h; cases h
  | succ fuel ih =>
    intro b b' h
    unfold popChanges at h
    obtain ⟨k, _, h⟩ := bind_eq_ok.mp h
    split at h
    · obtain ⟨⟨h1, x⟩, _, h⟩ := bind_eq_ok.mp h
      rw [ih h]
    · injection h with h; rw [h]

theorem reroute_built {b b' : Builder P} (h : reroute b = .ok b') : b'.built = b.built := by
  unfold reroute at h
  split at h
  · cases h
  · split at h
    · injection h with h; rw [← h]
    · injection h with h; rw [h]

theorem step_built {ord : List Nat → List Nat} {preds : P → Predictor} {b b' : Builder P} (h : b.step ord preds = .ok b') : b'.built = b.built := by
  unfold step at h
  obtain ⟨⟨l, T, b1⟩, hp, h⟩ := bind_eq_ok.mp h
  obtain ⟨⟨flow, ch⟩, _, h⟩ := bind_eq_ok.mp h
  obtain ⟨hd, _, h⟩ := bind_eq_ok.mp h
  injection h with h
  rw [← h]
  show b1.built = b.built
  unfold prepare at hp
  obtain ⟨b2, h2, hp⟩ := bind_eq_ok.mp hp
  obtain ⟨b3, h3, hp⟩ := bind_eq_ok.mp hp
  obtain ⟨⟨l4, b4⟩, h4, hp⟩ := bind_eq_ok.mp hp
  obtain ⟨k, _, hp⟩ := bind_eq_ok.mp hp
  obtain ⟨T', _, hp⟩ := bind_eq_ok.mp hp
  injection hp with hp; injection hp with _ hp; injection hp with _ hp
  rw [← hp, newInflow_built h4, reroute_built h3, popChanges_built h2]

/-- One round first, then the others. -/
theorem rounds_succ' {ord : List Nat → List Nat} {preds : P → Predictor} : ∀ (m : Nat) (b : Builder P),
    rounds ord preds (m + 1) b = (do let b ← b.step ord preds; rounds ord preds m b) := by
  intro m
  induction m with
  | zero =>
    intro b
    show (Except.ok b >>= fun b => b.step ord preds) = _
    rw [ok_bind]
    cases h : b.step ord preds with
    | error e => rfl
    | ok b' => rfl
  | succ m ih =>
    intro b
    show (rounds ord preds (m + 1) b >>= fun b => b.step ord preds) = _
    rw [ih b]
    cases h : b.step ord preds with
    | error e => rfl
    | ok b' => rfl

/-! Several generators. -/

/-- Generator `g0` has been started, the others have not done anything to the builder. -/
structure Owned (s : Shared P) (g0 : Nat) : Prop where
  built : s.builder.built = true
  own : s.gens g0 ≠ .fresh
  other : ∀ g, g ≠ g0 → s.gens g ≠ .running

theorem Owned.next_own {ord : List Nat → List Nat} {preds : P → Predictor} {s : Shared P} {g0 : Nat} (h : Owned s g0) : Owned (s.next ord preds g0).1 g0 := by
  unfold Shared.next
  cases hg : s.gens g0 with
  | fresh => exact absurd hg h.own
  | ended =>
    refine ⟨h.built, ?_, ?_⟩
    · show (if g0 = g0 then Gen.ended else _) ≠ _
      rw [if_pos rfl]; intro hc; cases hc
    · intro g hne
      show (if g = g0 then _ else s.gens g) ≠ _
      rw [if_neg hne]; exact h.other g hne
  | running =>
    unfold next
    simp only
    cases hs : s.builder.step ord preds with
    | ok b' =>
      refine ⟨by rw [← h.built]; exact step_built hs, ?_, ?_⟩
      · simp
      · intro g hne
        simp only [if_neg hne]; exact h.other g hne
    | error e =>
      refine ⟨h.built, ?_, ?_⟩
      · simp
      · intro g hne
        simp only [if_neg hne]; exact h.other g hne

/-- A generator other than the started one: the outcome, and nothing changes but that it ends. -/
theorem Owned.next_other {ord : List Nat → List Nat} {preds : P → Predictor} {s : Shared P} {g0 g : Nat} (h : Owned s g0) (hg : g ≠ g0) :
    s.next ord preds g = (⟨fun j => if j = g then .ended else s.gens j, s.builder⟩, .error (if s.gens g = .fresh then some .runtime else none)) := by
  unfold Shared.next
  cases hc : s.gens g with
  | running => exact absurd hc (h.other g hg)
  | ended =>
    simp [next]
  | fresh =>
    simp [next, h.built]

theorem Owned.after_other {ord : List Nat → List Nat} {preds : P → Predictor} {s : Shared P} {g0 g : Nat} (h : Owned s g0) (hg : g ≠ g0) :
    Owned (s.next ord preds g).1 g0 := by
  rw [h.next_other hg]
  refine ⟨h.built, ?_, ?_⟩
  · show (if g0 = g then _ else s.gens g0) ≠ _
    rw [if_neg (Ne.symm hg)]; exact h.own
  · intro j hj
    show (if j = g then Gen.ended else s.gens j) ≠ _
    split
    · intro hc; cases hc
    · exact h.other j hj

/-- The outcomes of the others. -/
theorem Owned.run_other {ord : List Nat → List Nat} {preds : P → Predictor} {g0 : Nat} : ∀ (gs : List Nat) (s : Shared P), Owned s g0 →
    ∀ (i g : Nat), gs[i]? = some g → g ≠ g0 →
      (s.run ord preds gs).1[i]? = some (Except.error (if s.gens g = .fresh ∧ g ∉ gs.take i then some .runtime else none)) := by
  intro gs
  induction gs with
  | nil => intro s _ i g h; simp at h
  | cons a gs ih =>
    intro s hs i g hg hne
    have hown : Owned (s.next ord preds a).1 g0 := by
      by_cases ha : a = g0
      · rw [ha]; exact hs.next_own
      · exact hs.after_other ha
    cases i with
    | zero =>
      simp only [List.getElem?_cons_zero, Option.some.injEq] at hg
      subst hg
      unfold Shared.run
      simp only [List.getElem?_cons_zero, List.take_zero, List.not_mem_nil, not_false_eq_true, and_true, Option.some.injEq]
      rw [hs.next_other hne]
    | succ i =>
      simp only [List.getElem?_cons_succ] at hg
      unfold Shared.run
      simp only [List.getElem?_cons_succ, List.take_succ_cons, List.mem_cons, not_or]
      rw [ih _ hown i g hg hne]
      congr 3
      by_cases hag : g = a
      · subst hag
        rw [hs.next_other hne]
        simp
      · have : (s.next ord preds a).1.gens g = s.gens g := by
          unfold Shared.next
          simp [hag]
        rw [this]
        simp [hag]

/-- The outcomes at the positions of `g0`, and the builder, are those of `g0` alone. -/
theorem Owned.run_own {ord : List Nat → List Nat} {preds : P → Predictor} {g0 : Nat} : ∀ (gs : List Nat) (s s' : Shared P), Owned s g0 →
    s'.builder = s.builder → s'.gens g0 = s.gens g0 →
      ((gs.zip (s.run ord preds gs).1).filter (fun p => p.1 = g0)).map Prod.snd = (s'.run ord preds (gs.filter (· = g0))).1 ∧
      (s.run ord preds gs).2.builder = (s'.run ord preds (gs.filter (· = g0))).2.builder := by
  intro gs
  induction gs with
  | nil => intro s s' _ hb _; exact ⟨rfl, by simp [Shared.run, hb]⟩
  | cons a gs ih =>
    intro s s' hs hb hg
    by_cases ha : a = g0
    · subst ha
      have e : ∀ x : Shared P, x.next ord preds a = (⟨fun j => if j = a then (Builder.next ord preds (x.gens a) x.builder).1 else x.gens j, (Builder.next ord preds (x.gens a) x.builder).2.1⟩,
          (Builder.next ord preds (x.gens a) x.builder).2.2) := fun _ => rfl
      have h2 : (s'.next ord preds a).2 = (s.next ord preds a).2 := by rw [e, e, hb, hg]
      obtain ⟨i1, i2⟩ := ih (s.next ord preds a).1 (s'.next ord preds a).1 hs.next_own (by rw [e, e, hb, hg]) (by rw [e, e, hb, hg]; simp)
      rw [List.filter_cons_of_pos (by simp)]
      unfold Shared.run
      simp only [List.zip_cons_cons]
      rw [List.filter_cons_of_pos (by simp), List.map_cons, h2, i1]
      exact ⟨rfl, i2⟩
    · obtain ⟨i1, i2⟩ := ih (s.next ord preds a).1 s' (hs.after_other ha) (by rw [hs.next_other ha, hb]) (by
        rw [hs.next_other ha]
        show _ = (if g0 = a then _ else s.gens g0)
        rw [if_neg (Ne.symm ha), hg])
      rw [List.filter_cons_of_neg (by simpa using ha)]
      have hrun : s.run ord preds (a :: gs) = ((s.next ord preds a).2 :: ((s.next ord preds a).1.run ord preds gs).1, ((s.next ord preds a).1.run ord preds gs).2) := rfl
      rw [hrun]
      simp only [List.zip_cons_cons]
      rw [List.filter_cons_of_neg (by simpa using ha)]
      exact ⟨i1, i2⟩

/-- A started generator used `m` times. -/
theorem run_replicate {ord : List Nat → List Nat} {preds : P → Predictor} {g0 : Nat} : ∀ (m : Nat) (s : Shared P), s.gens g0 = .running →
    ∀ b, rounds ord preds m s.builder = .ok b → (s.run ord preds (List.replicate m g0)).2.builder = b ∧
      ∀ i < m, ∃ c, rounds ord preds (i + 1) s.builder = .ok c ∧ (s.run ord preds (List.replicate m g0)).1[i]? = some (.ok c.flow) := by
  intro m
  induction m with
  | zero => intro s _ b h; injection h with h; exact ⟨h, fun i hi => by omega⟩
  | succ m ih =>
    intro s hg b h
    rw [rounds_succ'] at h
    obtain ⟨c, hc, h⟩ := bind_eq_ok.mp h
    have hn : s.next ord preds g0 = (⟨fun j => if j = g0 then .running else s.gens j, c⟩, .ok c.flow) := by
      unfold Shared.next next
      rw [hg]; simp only [hc]
    rw [List.replicate_succ]
    unfold Shared.run
    simp only [hn]
    obtain ⟨i1, i2⟩ := ih ⟨fun j => if j = g0 then .running else s.gens j, c⟩ (by simp) b h
    refine ⟨i1, ?_⟩
    intro i hi
    cases i with
    | zero => exact ⟨c, by rw [rounds_succ', hc]; rfl, by simp⟩
    | succ i =>
      obtain ⟨x, x1, x2⟩ := i2 i (by omega)
      exact ⟨x, by rw [rounds_succ', hc]; exact x1, by simpa using x2⟩

/-! `build_with_times`. -/

theorem mark_ok {interval phi m : ℚ} {bd : Bool} (hi : interval ≠ 0) :
    mark interval phi m bd = .ok (if phi ≥ m then (m + interval, true) else (m, bd)) := by
  unfold mark
  split
  · unfold pyDiv; rw [if_neg hi]; rfl
  · rfl

/-- What a finished loop has done. -/
theorem buildLoop_sound {ord : List Nat → List Nat} {preds : P → Predictor} {interval horizon : ℚ} {observe : Option (List Nat)} {suppress : Bool} {tick : Nat → Bool} :
    ∀ (fuel k : Nat) (b : Builder P) (ms : ℚ) (now bound : Bool) (f' : DFlow) (b' : Builder P) (now' bound' : Bool),
      buildLoop ord preds interval horizon observe suppress tick fuel k .running b b.flow ms now bound = .ok (f', b', now', bound') →
      ∃ N, rounds ord preds N b = .ok b' ∧ f' = b'.flow ∧ horizon ≤ b'.flow.phi ∧ ∀ m < N, ∃ c, rounds ord preds m b = .ok c ∧ c.flow.phi < horizon := by
  intro fuel
  induction fuel with
  | zero => intro k b ms now bound f' b' now' bound' h; cases h
  | succ fuel ih =>
    intro k b ms now bound f' b' now' bound' h
    unfold buildLoop at h
    split at h
    · rename_i hlt
      cases hs : b.step ord preds with
      | error e =>
        simp only [next, hs] at h
        cases h
      | ok c =>
        simp only [next, hs] at h
        obtain ⟨⟨ms', bd'⟩, _, h⟩ := bind_eq_ok.mp h
        have key : ∃ N, rounds ord preds N c = .ok b' ∧ f' = b'.flow ∧ horizon ≤ b'.flow.phi ∧ ∀ m < N, ∃ c', rounds ord preds m c = .ok c' ∧ c'.flow.phi < horizon := by
          simp only at h
          split at h
          · obtain ⟨_, _, h⟩ := bind_eq_ok.mp h
            exact ih _ _ _ _ _ _ _ _ _ h
          · exact ih _ _ _ _ _ _ _ _ _ h
        obtain ⟨N, n1, n2, n3, n4⟩ := key
        refine ⟨N + 1, by rw [rounds_succ', hs]; exact n1, n2, n3, ?_⟩
        intro m hm
        cases m with
        | zero => exact ⟨b, rfl, hlt⟩
        | succ m =>
          obtain ⟨c', c1, c2⟩ := n4 m (by omega)
          exact ⟨c', by rw [rounds_succ', hs]; exact c1, c2⟩
    · rename_i hge
      injection h with h; injection h with h1 h; injection h with h2 h
      subst h2
      exact ⟨0, rfl, h1.symm, not_lt.mp hge, fun m hm => by omega⟩

/-- With enough fuel the loop ends as soon as the horizon is reached. `bound` is preserved, and set by the first round if the milestone is not in the future. -/
theorem buildLoop_complete {ord : List Nat → List Nat} {preds : P → Predictor} {interval horizon : ℚ} {observe : Option (List Nat)} {suppress : Bool} {tick : Nat → Bool} (hi : interval ≠ 0) :
    ∀ (N k : Nat) (b b' : Builder P) (ms : ℚ) (now bound : Bool),
      rounds ord preds N b = .ok b' → horizon ≤ b'.flow.phi → (∀ m < N, ∃ c, rounds ord preds m b = .ok c ∧ c.flow.phi < horizon) →
      (bound = true ∨ 0 < N → bound = false → ∀ c, rounds ord preds 1 b = .ok c → ms ≤ c.flow.phi) →
      (∀ m c, 0 < m → m ≤ N → rounds ord preds m b = .ok c → suppress = false → observeTimes c.net c.flow observe = .ok ()) →
      ∀ fuel, N < fuel → buildLoop ord preds interval horizon observe suppress tick fuel k .running b b.flow ms now bound =
        .ok (b'.flow, b', now || decide (0 < N), bound || decide (0 < N)) := by
  intro N
  induction N with
  | zero =>
    intro k b b' ms now bound h1 h2 _ _ _ fuel hf
    injection h1 with h1; subst h1
    obtain ⟨fuel, rfl⟩ : ∃ f, fuel = f + 1 := ⟨fuel - 1, by omega⟩
    unfold buildLoop
    rw [if_neg (not_lt.mpr h2)]
    simp
  | succ N ih =>
    intro k b b' ms now bound h1 h2 h3 h4 h5 fuel hf
    obtain ⟨fuel, rfl⟩ : ∃ f, fuel = f + 1 := ⟨fuel - 1, by omega⟩
    obtain ⟨c, hc, hr⟩ := bind_eq_ok.mp (rounds_succ' N b ▸ h1)
    have hlt : b.flow.phi < horizon := by
      obtain ⟨x, x1, x2⟩ := h3 0 (by omega)
      injection x1 with x1; rw [x1]; exact x2
    have h3' : ∀ m < N, ∃ c', rounds ord preds m c = .ok c' ∧ c'.flow.phi < horizon := by
      intro m hm
      obtain ⟨x, x1, x2⟩ := h3 (m + 1) (by omega)
      rw [rounds_succ', hc] at x1
      exact ⟨x, x1, x2⟩
    have hone : rounds ord preds 1 b = .ok c := by rw [rounds_succ', hc]; rfl
    have hb : (if c.flow.phi ≥ ms then (ms + interval, true) else (ms, bound)).2 = true := by
      split
      · rfl
      · rename_i hn
        cases hbd : bound with
        | true => rfl
        | false => exact absurd (h4 (Or.inr (by omega)) hbd c hone) hn
    unfold buildLoop
    rw [if_pos hlt]
    simp only [next, hc]
    rw [mark_ok hi, ok_bind]
    generalize (if c.flow.phi ≥ ms then (ms + interval, true) else (ms, bound)) = q at hb ⊢
    obtain ⟨ms', bd'⟩ := q
    simp only at hb ⊢
    subst hb
    have key := ih (k + 1) c b' ms' true true hr h2 h3' (fun _ hc => by cases hc)
      (fun m c' m1 m2 m3 m4 => h5 (m + 1) c' (by omega) (by omega) (by rw [rounds_succ', hc]; exact m3) m4) fuel (by omega)
    rw [key]
    by_cases hs : suppress = false
    · simp [logTime, h5 1 c one_pos (by omega) hone hs]
    · simp [hs]

end Builder
end Verif
