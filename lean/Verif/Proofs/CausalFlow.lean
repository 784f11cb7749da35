import Verif.Proofs.DFlowPast
import Verif.Proofs.DFlowEvents

/-! How far a flow is extended does not matter for what is recorded before. -/

namespace Verif
open Spec
namespace DFlow
variable {net : EdgeData}

theorem processDepletion_phi {s s' : DFlow} (φ : ℚ) (h : s.processDepletion = .ok s') : ({ s with phi := φ } : DFlow).processDepletion = .ok { s' with phi := φ } := by
  unfold processDepletion at h ⊢
  obtain ⟨⟨e, depl, change, deps⟩, e1, h⟩ := bind_eq_ok.mp h
  simp only at h
  obtain ⟨q, e2, h⟩ := bind_eq_ok.mp h
  obtain ⟨l, e3, h⟩ := bind_eq_ok.mp h
  obtain ⟨u, e4, h⟩ := bind_eq_ok.mp h
  simp only
  rw [e1, ok_bind]
  simp only
  rw [e2, ok_bind, e3, ok_bind, e4, ok_bind]
  cases change with
  | none =>
    simp only at h ⊢
    injection h with h; subst h; rfl
  | some c =>
    obtain ⟨ct, v, sum⟩ := c
    simp only at h ⊢
    obtain ⟨ch, e5, h⟩ := bind_eq_ok.mp h
    obtain ⟨out, e6, h⟩ := bind_eq_ok.mp h
    rw [e5, ok_bind, e6, ok_bind]
    injection h with h; subst h; rfl

theorem processDepletions_more : ∀ (fuel k : Nat) {s s' : DFlow}, processDepletions fuel s = .ok s' → processDepletions (fuel + k) s = .ok s' := by
  intro fuel
  induction fuel with
  | zero => intro k s s' h; cases h
  | succ fuel ih =>
    intro k s s' h
    rw [Nat.add_right_comm]
    unfold processDepletions at h ⊢
    obtain ⟨key, e1, h⟩ := bind_eq_ok.mp h
    rw [e1, ok_bind]
    split at h
    · rename_i hc
      rw [if_pos hc]
      obtain ⟨s1, e2, h⟩ := bind_eq_ok.mp h
      rw [e2, ok_bind]
      exact ih k h
    · rename_i hc
      rw [if_neg hc]; exact h

theorem processDepletions_unique {f g : Nat} {s a b : DFlow} (h1 : processDepletions f s = .ok a) (h2 : processDepletions g s = .ok b) : a = b := by
  have x := processDepletions_more f g h1
  have y := processDepletions_more g f h2
  rw [Nat.add_comm, x] at y
  injection y

/-- All depletions up to `φ` are those up to `t` and then the others. -/
theorem processDepletions_split {t φ : ℚ} (hle : t ≤ φ) : ∀ (f g : Nat) {s a b : DFlow}, processDepletions f { s with phi := t } = .ok a → processDepletions g { a with phi := φ } = .ok b →
    processDepletions (f + g) { s with phi := φ } = .ok b := by
  intro f
  induction f with
  | zero => intro g s a b h; cases h
  | succ f ih =>
    intro g s a b h1 h2
    rw [Nat.add_right_comm]
    unfold processDepletions at h1
    simp only at h1
    obtain ⟨key, e1, h1⟩ := bind_eq_ok.mp h1
    split at h1
    · rename_i hc
      obtain ⟨s1, e2, h1⟩ := bind_eq_ok.mp h1
      have e3 : ({ s with phi := φ } : DFlow).processDepletion = .ok { s1 with phi := φ } := processDepletion_phi (s := { s with phi := t }) φ e2
      have hs1 : s1.phi = t := by
        have := processDepletion_phi t e2
        simp only at this
        rw [e2] at this
        injection this with this
        rw [this]
      unfold processDepletions
      simp only
      rw [e1, ok_bind, if_pos ⟨le_trans hc.1 (ev_le.mpr hle), hc.2⟩, e3, ok_bind]
      refine ih g (s := s1) (a := a) ?_ h2
      have : ({ s1 with phi := t } : DFlow) = s1 := by rw [← hs1]
      rw [this]; exact h1
    · injection h1 with h1; subst h1
      simp only at h2
      have := processDepletions_more g (f + 1) h2
      rw [show f + g + 1 = g + (f + 1) by omega]
      exact this

/-- Extending a flow with two bounds at or after time `t`: either nothing differs, or both get to `t` and agree up to `t`. -/
theorem extend_bounds (hn : NetOk net) {s : DFlow} {P : Nat → Pend} {C : Nat × ℚ → Bool} (h : Exact net s P C) {l : List (Nat × Rates)} {t B B' : ℚ}
    (ht : s.phi ≤ t) (hB : t ≤ B) (hB' : t ≤ B') (hcall : CallOk net s l B) {s1 s2 : DFlow} {ch1 ch2 : List Nat}
    (h1 : s.extend net l B = .ok (s1, ch1)) (h2 : s.extend net l B' = .ok (s2, ch2)) :
    (s1 = s2 ∧ ch1 = ch2) ∨ (t ≤ s1.phi ∧ t ≤ s2.phi ∧ ∃ m, Agree m s1 t ∧ Agree m s2 t) := by
  obtain ⟨s0, P1, C1, e1, x1, p1, _⟩ := setInflows_exact hn l h hcall.nodup hcall.rates hcall.clear
  obtain ⟨a, b, φ, ea, eb, eφ, n1, n2, n3, n4⟩ := next_event s0 x1.rep B
  obtain ⟨a', b', φ', ea', eb', eφ', m1, m2, m3, m4⟩ := next_event s0 x1.rep B'
  rw [ea] at ea'; injection ea' with ea'; subst ea'
  rw [eb] at eb'; injection eb' with eb'; subst eb'
  unfold extend at h1 h2
  rw [e1, ok_bind, ea, ok_bind, eb, ok_bind, eφ, ok_bind] at h1
  rw [e1, ok_bind, ea, ok_bind, eb, ok_bind, eφ', ok_bind] at h2
  simp only at h1 h2
  by_cases hev : min a b ≤ ev t
  · left
    have g1 : min (min a b) (ev B) = min a b := min_eq_left (le_trans hev (ev_le.mpr hB))
    have g2 : min (min a b) (ev B') = min a b := min_eq_left (le_trans hev (ev_le.mpr hB'))
    rw [g1] at eφ; rw [g2, eφ] at eφ'
    injection eφ' with eφ'; subst eφ'
    rw [h1] at h2
    injection h2 with h2; injection h2 with h2 h3
    exact ⟨h2, h3⟩
  · right
    have hev := not_le.mp hev
    have key : ∀ {φ : ℚ} {X : ℚ} {z : DFlow} {ch : List Nat}, t ≤ X → (min (min a b) (ev X)).toRat = .ok φ → (∀ p, C1 p = true → φ ≤ p.2) → (∀ e D va, P1 e = some (D, some va) → φ ≤ D + net.travelTime e) →
        (do
          let s ← processDepletions (s0.deps.depletions.len + 1) { s0 with phi := φ }
          collectChanges (s.changes.len + 1) s []) = .ok (z, ch) →
        t ≤ φ ∧ z.phi = φ ∧ ∃ sT, processDepletions (s0.deps.depletions.len + 1) { s0 with phi := t } = .ok sT ∧ Agree sT z t := by
      intro φ X z ch hX hφ c1 c2 hz
      have hlt : t ≤ φ := by
        have : ev t ≤ min (min a b) (ev X) := le_min hev.le (ev_le.mpr hX)
        cases hm : min (min a b) (ev X) with
        | none => rw [hm] at hφ; cases hφ
        | some y =>
          cases y with
          | top => rw [hm] at hφ; cases hφ
          | coe y =>
            rw [hm] at hφ this
            injection hφ with hφ
            rw [← hφ]
            exact ev_le.mp this
      obtain ⟨sT, P2, C2, k1, k2, k3, k4, k5, _⟩ := processDepletions_exact hn s.phi (s0.deps.depletions.len + 1) (s := { s0 with phi := t }) (P := P1) (C := C1)
        ⟨x1.rep.deps, x1.rep.chg⟩ (fun p hp => le_trans hlt (c1 p hp)) (fun e D va hp => le_trans hlt (c2 e D va hp))
        (fun e => ⟨s0.phi, ⟨by simp only; rw [p1]; exact ht, by rw [p1]⟩, (x1.edge e).congr rfl rfl rfl rfl⟩) (by simp only; omega)
      have hbounds : (∀ p, C2 p = true → φ ≤ p.2) ∧ (∀ e D va, P2 e = some (D, some va) → φ ≤ D + net.travelTime e) := by
        obtain ⟨_, P3, C3, r3, d3⟩ := processDepletions_due (net := net) _ (P := P1) (C := C1) (s := { s0 with phi := t }) ⟨x1.rep.deps, x1.rep.chg⟩ k1
        obtain ⟨u, v, y, q1, q2, q3, q4, q5, q6, _⟩ := next_event sT k2.rep φ
        obtain ⟨u', v', y', w1, w2, w3, w4, w5, w6, w7⟩ := next_event sT r3 φ
        rw [q1] at w1; injection w1 with w1; subst w1
        rw [q2] at w2; injection w2 with w2; subst w2
        rw [q3] at w3; injection w3 with w3; subst w3
        have : φ ≤ y := by
          rcases w7 with h | ⟨p, hp, h⟩ | ⟨e, D, va, hp, h⟩
          · exact h.ge
          · rcases d3 y (Or.inl ⟨p.1, by rw [h]; exact hp⟩) with ⟨e, he⟩ | ⟨e, D, va, he, h⟩
            · exact c1 _ he
            · rw [h]; exact c2 _ _ _ he
          · rcases d3 y (Or.inr ⟨e, D, va, hp, h⟩) with ⟨e, he⟩ | ⟨e, D, va, he, h⟩
            · exact c1 _ he
            · rw [h]; exact c2 _ _ _ he
        exact ⟨fun p hp => le_trans this (q5 p hp), fun e D va hp => le_trans this (q6 e D va hp)⟩
      obtain ⟨s3, P4, C4, j1, j2, j3, j4, j5, _⟩ := processDepletions_exact hn t (sT.deps.depletions.len + 1) (s := { sT with phi := φ }) (P := P2) (C := C2)
        ⟨k2.rep.deps, k2.rep.chg⟩ hbounds.1 hbounds.2
        (fun e => ⟨sT.phi, ⟨by simp only; rw [k3]; exact hlt, by rw [k3]⟩, (k2.edge e).congr rfl rfl rfl rfl⟩) (by simp only; omega)
      have hall := processDepletions_split hlt _ _ k1 j1
      obtain ⟨s4, e4, hz⟩ := bind_eq_ok.mp hz
      have := processDepletions_unique hall e4
      subst this
      obtain ⟨h', C', ch', f1, _⟩ := collect_spec (s3.changes.len + 1) s3 [] C4 j2.rep.chg (by omega)
      rw [f1] at hz
      injection hz with hz; injection hz with hz _
      subst hz
      refine ⟨hlt, j3, sT, k1, ⟨fun e => ?_, fun e => (j5 e).1, fun e => (j5 e).2⟩⟩
      simp only [j4]
      exact .refl _ _
    obtain ⟨y1, y2, sT, y3, y4⟩ := key hB eφ n2 n3 h1
    obtain ⟨z1, z2, sT', z3, z4⟩ := key hB' eφ' m2 m3 h2
    rw [y3] at z3; injection z3 with z3; subst z3
    exact ⟨y2 ▸ y1, z2 ▸ z1, sT, y4, z4⟩

theorem Agree.symm {a b : DFlow} {t : ℚ} (h : Agree a b t) : Agree b a t :=
  ⟨fun e => ⟨fun i x h0 hx => ((h.inflow e).1 i x h0 hx).symm, fun x hx => ((h.inflow e).2 x hx).symm⟩,
   fun e => ⟨fun i x h0 hx => ((h.outflow e).1 i x h0 hx).symm, fun x hx => ((h.outflow e).2 x hx).symm⟩, fun e x hx => (h.queue e x hx).symm⟩

end DFlow
end Verif
