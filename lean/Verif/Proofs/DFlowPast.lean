import Verif.Proofs.DFlowLoad

/-! What is recorded is never changed. -/

namespace Verif
open Spec
namespace DFlow

/-- `s'` has the same record as `s` up to time `t`. -/
structure Agree (s s' : DFlow) (t : ℚ) : Prop where
  inflow : ∀ e, FRC.Same (s.inflow e) (s'.inflow e) t
  outflow : ∀ e, FRC.Same (s.outflow e) (s'.outflow e) t
  queue : ∀ e x, x ≤ t → (s'.queues e).fn x = (s.queues e).fn x

theorem Agree.refl (s : DFlow) (t : ℚ) : Agree s s t := ⟨fun _ => .refl _ _, fun _ => .refl _ _, fun _ _ _ => rfl⟩

theorem Agree.trans {a b c : DFlow} {t : ℚ} (h1 : Agree a b t) (h2 : Agree b c t) : Agree a c t :=
  ⟨fun e => (h1.inflow e).trans (h2.inflow e), fun e => (h1.outflow e).trans (h2.outflow e),
   fun e x hx => by rw [h2.queue e x hx, h1.queue e x hx]⟩

theorem Agree.mono {a b : DFlow} {t u : ℚ} (h : Agree a b t) (hle : u ≤ t) : Agree a b u :=
  ⟨fun e => (h.inflow e).mono hle, fun e => (h.outflow e).mono hle, fun e x hx => h.queue e x (le_trans hx hle)⟩

theorem look_agree {s s' : DFlow} {e : Nat} {v : Rates} (h : s.lookOutflow e = .ok (v, s')) (t : ℚ) : Agree s s' t := by
  unfold lookOutflow at h
  obtain ⟨⟨v1, c⟩, h1, h⟩ := bind_eq_ok.mp h
  injection h with h
  injection h with _ h
  subst h
  have hc : c.funs = (s.outflow e).funs ∧ c.acc = (s.outflow e).acc := by
    unfold FRC.getValuesAtTime at h1
    split at h1
    · cases h1; exact ⟨rfl, rfl⟩
    · split at h1
      · cases h1
      · split at h1 <;> cases h1 <;> exact ⟨rfl, rfl⟩
  refine ⟨fun _ => .refl _ _, fun j => ?_, fun _ _ _ => rfl⟩
  simp only
  by_cases hj : j = e
  · subst hj
    rw [setAt_self]
    exact ⟨fun i x _ _ => by rw [hc.1], fun x _ => by rw [hc.2]⟩
  · rw [setAt_ne _ _ hj]; exact .refl _ _

variable {net : EdgeData}

theorem run_past (hn : NetOk net) : ∀ (calls : List FlowCall) {s : DFlow}, (∃ P C, Safe net s P C) → HeadOk s →
    (∃ P C, Exact net s P C) → CallsOk net s calls →
    ∃ s', runFlow net s calls = .ok s' ∧ s.phi ≤ s'.phi ∧ (∃ P C, Safe net s' P C) ∧ HeadOk s' ∧ (∃ P C, Exact net s' P C) ∧ Agree s s' s.phi := by
  intro calls
  induction calls with
  | nil => intro s h1 h2 h3 _; exact ⟨s, rfl, le_rfl, h1, h2, h3, .refl _ _⟩
  | cons c calls ih =>
    rintro s ⟨P, C, h1⟩ h2 ⟨P2, C2, h3⟩ hok
    cases c with
    | extend l T =>
      have hcall := hok.1 l T rfl
      obtain ⟨s1, ch, P3, C3, e1, x1, i1, i2, i3, _⟩ := extend_exact hn h3 hcall
      have estep : stepFlow net s (.extend l T) = .ok s1 := by simp only [stepFlow]; rw [e1, ok_bind]; rfl
      have hok2 := hok.2 s1 estep
      obtain ⟨a, _, a2, _⟩ := extend_safe hn h1 hcall.time e1
      have hag : Agree s s1 s.phi := by
        refine ⟨fun e => ?_, fun e => (i3 e).1, fun e => (i3 e).2⟩
        by_cases he : e ∈ l.map Prod.fst
        · obtain ⟨p, hp, rfl⟩ := List.mem_map.mp he
          obtain ⟨k1, k2⟩ := i1 p hp
          refine ⟨fun i x h0 hx => by rw [k2 i x h0, if_pos hx], fun x hx => ?_⟩
          rw [k1 x]; unfold PL.ext; rw [if_pos hx]
        · rw [i2 e he]; exact .refl _ _
      obtain ⟨s', r1, r2, r3, r4, r5, r6⟩ := ih a (extend_head hn h1 h2 hcall.time e1) ⟨P3, C3, x1⟩ hok2
      refine ⟨s', ?_, le_trans a2 r2, r3, r4, r5, hag.trans (r6.mono a2)⟩
      unfold runFlow; rw [estep, ok_bind, r1]
    | look e =>
      obtain ⟨v, s2, e3, a1, a2, a5, a3, a4⟩ := look_ok (net := net) h2 e
      have estep : stepFlow net s (.look e) = .ok s2 := by simp only [stepFlow]; rw [e3, ok_bind]; rfl
      have hok2 := hok.2 s2 estep
      obtain ⟨s', r1, r2, r3, r4, r5, r6⟩ := ih ⟨P, C, a3 P C h1⟩ a1 ⟨P2, C2, a4 P2 C2 h3⟩ hok2
      refine ⟨s', ?_, by rw [← a2]; exact r2, r3, r4, r5, ?_⟩
      · unfold runFlow; rw [estep, ok_bind, r1]
      · exact (look_agree e3 _).trans (r6.mono (le_of_eq a2.symm))

end DFlow
end Verif
