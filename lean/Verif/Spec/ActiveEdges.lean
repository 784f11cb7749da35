import Verif.Spec.Routes

/-! What active edges are. -/

namespace Verif.Spec
open Verif

/-- Later departures arrive strictly later. -/
def StrongFifo (g : Graph) (phi : ℚ) (c : Nat → ℚ → ℚ) : Prop := ∀ e ∈ g.edges, ∀ s t, phi ≤ s → s < t → s + c e s < t + c e t

/-- Every edge takes some time. -/
def PositiveCosts (g : Graph) (phi : ℚ) (c : Nat → ℚ → ℚ) : Prop := ∀ e ∈ g.edges, ∀ t, phi ≤ t → 0 < c e t

/-- Who leaves `source` at time `phi` along edge `e` can be at the sink as early as anybody who leaves `source` at `phi`. -/
def StartsFastest (g : Graph) (c : Nat → ℚ → ℚ) (relevant : List Nat) (source sink : Nat) (phi : ℚ) (e : Nat) : Prop :=
  e ∈ g.edges ∧ g.nodeFrom e = source ∧ g.nodeTo e ∈ relevant ∧
  ∃ T, Arrives g c relevant (g.nodeTo e) (phi + c e phi) sink T ∧ ∀ t, Arrives g c relevant source phi sink t → T ≤ t

end Verif.Spec
