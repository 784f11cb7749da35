import Verif.Proofs.SavedFlow
import Verif.Props.FlowBuilder

/-! Property theorem C117 (src/core/dynamic_flow.py:97-106): a flow that was saved and loaded can be used like the original. -/

namespace Verif.Props
open Verif Spec SavedFlow

variable {P : Type}

/-- **C117**: whatever was done with a flow object before (among it any number of saves and loads), it can be saved as long as it has its network, loading it succeeds, and once `_network` is assigned the loaded copy gives the same answers to
all further uses as the object that was saved, raises the same exceptions and ends in the same state. -/
theorem C117_reload {n : Network P} {o0 o : Obj P} {before : List (Use P)} {answers : List Answer} (h0 : SavedFlow.new n = .ok o0) (h : uses o0 before = .ok (answers, o))
    {n' : Network P} (hn : o.own = some n') (m : Nat) (after : List (Use P)) :
    uses o (.reload m :: .reset n' :: after) = (uses o after).map (fun r => (.nothing :: .nothing :: r.1, r.2)) := by
  have hp := pos_uses (pos_new h0) h
  have e1 : use o (.reload m) = .ok (.nothing, ⟨o.flow, none, o.extra⟩) := by
    unfold use save
    rw [hn]
    simp only [ok_bind]
    rw [load_same (by exact hp), ok_bind]
    rfl
  have e2 : SavedFlow.reset ⟨o.flow, none, o.extra⟩ n' = o := by
    obtain ⟨a, b, c⟩ := o
    simp only at hn
    subst hn; rfl
  have e3 : ∀ (x : Obj P) u us, uses x (u :: us) = (use x u >>= fun r => uses r.2 us >>= fun q => pure (r.1 :: q.1, q.2)) := fun x u us => rfl
  have e4 : use ⟨o.flow, none, o.extra⟩ (.reset n') = .ok (.nothing, o) := by rw [← e2]; rfl
  rw [e3, e1, ok_bind, e3, e4, ok_bind]
  cases uses o after with
  | error e => rfl
  | ok r => rfl

/-- **C117**, before that: without its network a loaded flow can be read (current outflow rates and edge loads as for the original, queues and recorded rates unchanged), but it cannot be extended, gives no average travel times and
cannot be saved again; assigning the attribute `network`, as the generators of training data do, does not change this. -/
theorem C117_missing {n : Network P} {o0 o o1 : Obj P} {before : List (Use P)} {answers : List Answer} (h0 : SavedFlow.new n = .ok o0) (h : uses o0 before = .ok (answers, o))
    {m : Nat} {a : Answer} (h1 : use o (.reload m) = .ok (a, o1)) (o2 : Obj P) (ho : o2 = o1 ∨ ∃ x, o2 = SavedFlow.annotate o1 x) :
    o2.flow = o.flow ∧ (∀ l T, use o2 (.extend l T) = .error .attribute) ∧ (∀ i t, use o2 (.average i t) = .error .attribute) ∧ (∀ k, use o2 (.reload k) = .error .key) ∧
    (∀ e, (use o2 (.look e)).map Prod.fst = (use o (.look e)).map Prod.fst) ∧ ∀ e, (use o2 (.edgeLoad e)).map Prod.fst = (use o (.edgeLoad e)).map Prod.fst := by
  have hp := pos_uses (pos_new h0) h
  have k : o1.flow = o.flow ∧ o1.own = none := by
    unfold use save at h1
    cases hn : o.own with
    | none => rw [hn] at h1; cases h1
    | some n =>
      rw [hn] at h1
      simp only [ok_bind] at h1
      rw [load_same (by exact hp), ok_bind] at h1
      injection h1 with h1; injection h1 with _ h1; subst h1; exact ⟨rfl, rfl⟩
  have k2 : o2.flow = o.flow ∧ o2.own = none := by
    rcases ho with rfl | ⟨x, rfl⟩
    · exact k
    · exact k
  refine ⟨k2.1, fun l T => ?_, fun i t => ?_, fun k => ?_, fun e => ?_, fun e => ?_⟩
  · simp only [use, SavedFlow.extend, k2.2]; rfl
  · simp only [use, SavedFlow.average, k2.2]; rfl
  · simp only [use, save, k2.2]; rfl
  · simp only [use, SavedFlow.look, k2.1]
    cases o.flow.lookOutflow e <;> rfl
  · simp only [use, k2.1]
    cases o.flow.edgeLoad e <;> rfl

/-- A run on the network of C43: two extensions, a save, and further extensions of the loaded copy. -/
def savedUses : List (Use (Fin 3)) :=
  [.extend [(0, [(0, 3), (1, 1)])] 1, .look 0, .reload 4, .reset buildNet, .extend [(0, [(0, 1 / 2)])] 2, .edgeLoad 0]

/-- The hypotheses of C117 are met, with a queue on the first edge. -/
example : ∃ o0 answers o, SavedFlow.new buildNet = .ok o0 ∧ uses o0 savedUses = .ok (answers, o) ∧ o.own = some buildNet ∧ o.flow.phi > 0 ∧ (o.flow.queues 0).eval 1 = .ok 3 ∧
    ∃ a o1, use o (.reload 4) = .ok (a, o1) := by
  have h : (match SavedFlow.new buildNet with
    | .error _ => false
    | .ok o0 => match uses o0 savedUses with
      | .error _ => false
      | .ok (_, o) => o.own.isSome && (decide (o.flow.phi > 0) && decide ((o.flow.queues 0).eval 1 = .ok 3))) = true := by decide +kernel
  obtain ⟨o0, h0⟩ : ∃ o0, SavedFlow.new buildNet = .ok o0 := by
    cases e : SavedFlow.new buildNet with
    | error x => rw [e] at h; cases h
    | ok o => exact ⟨o, rfl⟩
  rw [h0] at h
  simp only at h
  obtain ⟨l, o, h1⟩ : ∃ l o, uses o0 savedUses = .ok (l, o) := by
    cases e : uses o0 savedUses with
    | error x => rw [e] at h; cases h
    | ok r => exact ⟨r.1, r.2, rfl⟩
  rw [h1] at h
  simp only [Bool.and_eq_true, decide_eq_true_eq] at h
  obtain ⟨k1, k2, k3⟩ := h
  have hown : o.own = some buildNet := by
    have key : ∀ {o o' : Obj (Fin 3)} {us : List (Use (Fin 3))} {l}, (∀ u ∈ us, ∀ x, u = .reset x → x = buildNet) → (∀ x, o.own = some x → x = buildNet) → uses o us = .ok (l, o') → ∀ x, o'.own = some x → x = buildNet := by
      intro o o' us
      induction us generalizing o with
      | nil => intro l _ ho hu; unfold uses at hu; injection hu with hu; injection hu with _ hu; subst hu; exact ho
      | cons u us ih =>
        intro l hr ho hu
        unfold uses at hu
        obtain ⟨⟨a, o1⟩, g1, hu⟩ := bind_eq_ok.mp hu
        obtain ⟨⟨b, o2⟩, g2, hu⟩ := bind_eq_ok.mp hu
        injection hu with hu; injection hu with _ hu; subst hu
        refine ih (fun v hv => hr v (by simp [hv])) ?_ g2
        cases u with
        | extend l T =>
          unfold use SavedFlow.extend at g1
          obtain ⟨⟨c, x⟩, h1, g1⟩ := bind_eq_ok.mp g1
          injection g1 with g1; injection g1 with _ g1; subst g1
          cases hn : o.own with
          | none => rw [hn] at h1; cases h1
          | some n =>
            rw [hn] at h1
            obtain ⟨⟨s, ch⟩, h2, h1⟩ := bind_eq_ok.mp h1
            injection h1 with h1; injection h1 with _ h1; subst h1
            intro x hx; injection hx with hx; subst hx; exact ho _ hn
        | look e =>
          unfold use SavedFlow.look at g1
          obtain ⟨⟨v, x⟩, h1, g1⟩ := bind_eq_ok.mp g1
          injection g1 with g1; injection g1 with _ g1; subst g1
          obtain ⟨⟨w, s⟩, h2, h1⟩ := bind_eq_ok.mp h1
          injection h1 with h1; injection h1 with _ h1; subst h1
          exact ho
        | average i t =>
          unfold use at g1
          obtain ⟨_, _, g1⟩ := bind_eq_ok.mp g1
          injection g1 with g1; injection g1 with _ g1; subst g1; exact ho
        | edgeLoad e =>
          unfold use at g1
          obtain ⟨_, _, g1⟩ := bind_eq_ok.mp g1
          injection g1 with g1; injection g1 with _ g1; subst g1; exact ho
        | reset n =>
          injection g1 with g1; injection g1 with _ g1; subst g1
          intro x hx; injection hx with hx; subst hx
          exact hr (.reset n) (by simp) n rfl
        | annotate n => injection g1 with g1; injection g1 with _ g1; subst g1; exact ho
        | reload m =>
          unfold use load at g1
          obtain ⟨f, _, g1⟩ := bind_eq_ok.mp g1
          obtain ⟨y, h1, g1⟩ := bind_eq_ok.mp g1
          injection g1 with g1; injection g1 with _ g1; subst g1
          obtain ⟨_, _, h1⟩ := bind_eq_ok.mp h1
          obtain ⟨_, _, h1⟩ := bind_eq_ok.mp h1
          injection h1 with h1; subst h1
          intro x hx; cases hx
    obtain ⟨x, hx⟩ := Option.isSome_iff_exists.mp k1
    rw [hx, key (by intro u hu x; simp only [savedUses, List.mem_cons, List.not_mem_nil, or_false] at hu; rcases hu with rfl | rfl | rfl | rfl | rfl | rfl <;> intro e <;> cases e; rfl) (by
      intro x hx
      unfold SavedFlow.new at h0
      obtain ⟨s, _, h0⟩ := bind_eq_ok.mp h0
      injection h0 with h0; subst h0
      injection hx with hx; exact hx.symm) h1 x hx]
  refine ⟨o0, l, o, h0, h1, hown, k2, k3, ?_⟩
  have := C117_reload h0 h1 hown 4 []
  refine ⟨.nothing, ⟨o.flow, none, o.extra⟩, ?_⟩
  unfold use save
  rw [hown]
  simp only [ok_bind]
  rw [load_same (by exact pos_uses (pos_new h0) h1), ok_bind]
  rfl

end Verif.Props
