import Verif.Spec.Reproducible
import Verif.Spec.FlowBuilder

/-! What the flow builder relies on to be reproducible. -/

namespace Verif.Spec
open Verif

/-- Predictions follow from the record of the flow: not from the order of dict entries, nor from what has been read. -/
def Blind (p : Predictor) : Prop := ∀ t s s', SameRecord s s' → p.predict t s = p.predict t s'

/-- `v` lies on a path from a source of the commodity to its sink. -/
def UsesNode {P : Type} (n : Network P) (c : Commodity P) (v : Nat) : Prop :=
  Path n.graph v c.sink ∧ ∃ s ∈ c.sources, Path n.graph s.1 v

/-- Commodities that share a constant predictor and a sink use the same nodes. -/
def SharedNodes {P : Type} (n : Network P) (preds : P → Predictor) : Prop :=
  ∀ c ∈ n.commodities, ∀ c' ∈ n.commodities, c.predictor = c'.predictor → (preds c.predictor).constant = true → c.sink = c'.sink →
    ∀ v, UsesNode n c v ↔ UsesNode n c' v

end Verif.Spec
