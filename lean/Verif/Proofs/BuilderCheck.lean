import Verif.Proofs.BuilderGen
import Verif.Proofs.DFlowCheck

/-! A decision procedure for `ClearRounds` on concrete builders, used only for the examples. -/

namespace Verif
namespace Builder
open Spec
variable {P : Type} [DecidableEq P]

/-- The rest of a round after `prepare`. -/
def finish (l : List (Nat × Rates)) (T : ℚ) (b : Builder P) : Py (Builder P) := do
  let (flow, changed) ← b.flow.extend b.net.data l T
  let handle ← mapPy (fun e => do
    let r ← rd b.net.graph.edges e
    pure (b.net.graph.nodeTo r)) changed
  pure { b with flow := flow, handle := handle }

theorem step_eq (ord : List Nat → List Nat) (preds : P → Predictor) (b : Builder P) :
    b.step ord preds = (do let r ← b.prepare ord preds; finish r.1 r.2.1 r.2.2) := rfl

/-- Decides `ClearRounds`, and that the state after the rounds meets `post`. -/
def roundsB (ord : List Nat → List Nat) (preds : P → Predictor) (post : Builder P → Bool) : Nat → Builder P → Bool
  | 0, b => post b
  | k + 1, b =>
    match b.prepare ord preds with
    | .error _ => false
    | .ok r => r.1.all (clearCur r.2.2.net.data r.2.2.flow) &&
      (match finish r.1 r.2.1 r.2.2 with
       | .error _ => false
       | .ok b' => roundsB ord preds post k b')

theorem roundsB_sound {ord : List Nat → List Nat} {preds : P → Predictor} {post : Builder P → Bool} : ∀ (k : Nat) (b : Builder P),
    roundsB ord preds post k b = true → ClearRounds ord preds b k ∧ ∃ b', rounds ord preds k b = .ok b' ∧ post b' = true := by
  intro k
  induction k with
  | zero => intro b h; exact ⟨fun m hm => by omega, b, rfl, h⟩
  | succ k ih =>
    intro b h
    unfold roundsB at h
    cases hp : b.prepare ord preds with
    | error e => rw [hp] at h; cases h
    | ok r =>
      rw [hp] at h
      simp only [Bool.and_eq_true] at h
      obtain ⟨h1, h2⟩ := h
      cases hf : finish r.1 r.2.1 r.2.2 with
      | error e => rw [hf] at h2; cases h2
      | ok c =>
        rw [hf] at h2
        simp only at h2
        obtain ⟨i1, b', i2, i3⟩ := ih c h2
        have hs : b.step ord preds = .ok c := by rw [step_eq, hp, ok_bind, hf]
        refine ⟨?_, b', by rw [rounds_succ', hs]; exact i2, i3⟩
        intro m hm bm l T b'' hr hprep p hpl cur cc g1 g2
        cases m with
        | zero =>
          injection hr with hr; subst hr
          rw [hp] at hprep; injection hprep with hprep; subst hprep
          have := List.all_eq_true.mp h1 p hpl
          unfold clearCur at this
          rw [g1] at this
          simp only [g2, Bool.false_or] at this
          exact clearB_sound this
        | succ m =>
          rw [rounds_succ', hs] at hr
          exact i1 m (by omega) bm l T b'' hr hprep p hpl cur cc g1 g2

/-- Constructs the builder and checks rounds. -/
def buildB (ord : List Nat → List Nat) (preds : P → Predictor) (n : Network P) (d : ℚ) (k : Nat) (post : Builder P → Bool) : Bool :=
  match Builder.init n (some d) with
  | .error _ => false
  | .ok b => roundsB ord preds post k { b with built := true }

theorem buildB_sound {ord : List Nat → List Nat} {preds : P → Predictor} {n : Network P} {d : ℚ} {k : Nat} {post : Builder P → Bool}
    (h : buildB ord preds n d k post = true) : ∃ b0, Builder.init n (some d) = .ok b0 ∧ ClearRounds ord preds { b0 with built := true } k ∧
      ∃ b', rounds ord preds k { b0 with built := true } = .ok b' ∧ post b' = true := by
  unfold buildB at h
  cases hi : Builder.init n (some d) with
  | error e => rw [hi] at h; cases h
  | ok b =>
    rw [hi] at h
    obtain ⟨h1, h2⟩ := roundsB_sound k _ h
    exact ⟨b, rfl, h1, h2⟩

end Builder
end Verif
