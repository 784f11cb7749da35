import Verif.Proofs.Accepted
import Verif.Props.FlowBuilder
import Verif.Model.Slides

/-! Property C121 (src/core/flow_builder.py:35-86): which networks the constructor of the flow builder accepts. -/

namespace Verif.Props
open Verif Verif.Spec

variable {P : Type} {n : Network P}

/-- **C121**: the constructor returns exactly if every source can reach its sink, no inflow has a break point before time 0, and at every source some inflow has
one at 0. -/
theorem C121_accepts (hn : Offered n) (interval : Option ℚ) : (∃ b, Builder.init n interval = .ok b) ↔ Accepted n := by
  obtain ⟨h1, h2⟩ := Accept.init_accepts hn interval
  refine ⟨fun ⟨b, hb⟩ => ?_, h1⟩
  by_contra hc
  rw [h2 hc] at hb; cases hb

/-- **C121**: otherwise it raises `AssertionError`. -/
theorem C121_refuses (hn : Offered n) (interval : Option ℚ) (h : ¬ Accepted n) : Builder.init n interval = .error .assertion :=
  (Accept.init_accepts hn interval).2 h

/-- **C121**: so none of the slide examples 2, 3 and 4 gets as far as building a flow: their inflow starts at -1. -/
theorem C121_slides : Slides.example2 = .error .assertion ∧ Slides.example3 = .error .assertion ∧ Slides.example4 = .error .assertion := by
  have key : ∀ {r : Py (Builder Nat)}, (match r with | .error .assertion => true | _ => false) = true → r = .error .assertion := by
    intro r h
    cases r with
    | ok b => cases h
    | error e => cases e <;> first | rfl | cases h
  exact ⟨key (by decide +kernel), key (by decide +kernel), key (by decide +kernel)⟩

/-- Every valid input of the flow builder (`InputOk`, the hypothesis of the other properties of the builder) is offered and accepted. -/
theorem C121_valid (hn : InputOk n) : Offered n ∧ Accepted n := by
  have hs := fun c hc s hs => (hn.source c hc s hs).2.2
  exact ⟨⟨hn.graph, hn.sink, hn.keys, fun c hc s hs => (hn.source c hc s hs).1, fun c hc s h => (hs c hc s h).len, fun c hc s h => (hs c hc s h).ne,
    fun c hc s h => (hs c hc s h).lt, fun c hc s h t ht => by rw [(hs c hc s h).lo]; exact WithBot.coe_le_coe.mpr ((hs c hc s h).pos t ht),
    fun c hc s h => le_of_eq (hs c hc s h).lo, fun c hc s h => (hs c hc s h).hi, fun c hc s h => (hs c hc s h).vals, hn.apart⟩,
    fun c hc s h => ⟨(hn.source c hc s h).2.1, (hs c hc s h).pos, hn.start c hc s h⟩⟩

/-- The network of `buildNet` with one commodity, whose inflow is that of slide example 2. -/
def earlyNet : Network Nat := { buildNet with commodities := [⟨[(0, ⟨[-1, 0, 1600], [0, 20, 0], ⊥, ⊤⟩)], 2, 0⟩] }

/-- The same with an inflow that starts at 0, on the default domain. -/
def promptNet : Network Nat := { buildNet with commodities := [⟨[(0, ⟨[0, 1600], [20, 0], ⊥, ⊤⟩)], 2, 0⟩] }

/-- A network whose sink cannot be reached. -/
def brokenNet : Network Nat := { buildNet with commodities := [⟨[(2, ⟨[0, 1600], [20, 0], ⊥, ⊤⟩)], 0, 0⟩] }

theorem offered_one {v w : Nat} {f : RC} (hv : v ∈ buildNet.graph.nodes) (hw : w ∈ buildNet.graph.nodes) (hl : f.values.length = f.times.length) (hne : f.times ≠ [])
    (hlt : f.times.Pairwise (fun a b => eps < b - a)) (hlo : f.lo = ⊥) (hhi : f.hi = ⊤) (hvals : ∀ x ∈ f.values, 0 ≤ x) :
    Offered ({ buildNet with commodities := [⟨[(v, f)], w, 0⟩] } : Network Nat) := by
  have he : (0 : ℚ) < eps := by unfold eps; norm_num
  have hs : f.times.Pairwise (· < ·) := hlt.imp (fun h => by linarith)
  refine ⟨buildNet_ok.graph, ?_, ?_, ?_, ?_, ?_, ?_, ?_, ?_, ?_, ?_, ?_⟩ <;>
    simp only [List.mem_singleton, forall_eq, List.map_cons, List.map_nil]
  · exact hw
  · simp
  · exact hv
  · exact hl
  · exact hne
  · exact hs
  · intro t _; rw [hlo]; exact bot_le
  · rw [hlo]; exact bot_le
  · exact hhi
  · exact hvals
  · intro _ a ha b hb hab
    obtain ⟨x, hx, rfl⟩ := List.getElem_of_mem ha
    obtain ⟨y, hy, rfl⟩ := List.getElem_of_mem hb
    have hxy : x < y := by
      by_contra hc
      rcases Nat.lt_or_ge y x with h' | h'
      · exact absurd (List.pairwise_iff_getElem.mp hs y x hy hx h') (not_lt.mpr (le_of_lt hab))
      · have : x = y := by omega
        subst this; exact lt_irrefl _ hab
    exact List.pairwise_iff_getElem.mp hlt x y hx hy hxy

/-- The hypotheses are met, on both sides: by a network that is accepted, one with inflow before 0, and one with a sink that is out of reach. -/
example : (Offered promptNet ∧ Accepted promptNet) ∧ (Offered earlyNet ∧ ¬ Accepted earlyNet) ∧ Offered brokenNet ∧ ¬ Accepted brokenNet := by
  have e01 : Path buildNet.graph 0 1 := Relation.ReflTransGen.single ⟨0, by decide +kernel, rfl, rfl⟩
  have e12 : Path buildNet.graph 1 2 := Relation.ReflTransGen.single ⟨3, by decide +kernel, rfl, rfl⟩
  refine ⟨⟨offered_one (by decide +kernel) (by decide +kernel) rfl (by simp) (by unfold eps; decide +kernel) rfl rfl (by decide +kernel), ?_⟩,
    ⟨offered_one (by decide +kernel) (by decide +kernel) rfl (by simp) (by unfold eps; decide +kernel) rfl rfl (by decide +kernel), ?_⟩,
    offered_one (by decide +kernel) (by decide +kernel) rfl (by simp) (by unfold eps; decide +kernel) rfl rfl (by decide +kernel), ?_⟩
  · intro c hc s hs
    simp only [promptNet, List.mem_singleton] at hc
    subst hc
    simp only [List.mem_singleton] at hs
    subst hs
    exact ⟨e01.trans e12, by decide +kernel, _, List.mem_singleton_self _, _, List.mem_singleton_self _, rfl, by decide +kernel⟩
  · intro h
    have := (h _ (List.mem_singleton_self _) _ (List.mem_singleton_self _)).2.1 (-1) (by simp)
    exact absurd this (by norm_num)
  · intro h
    have : (match Builder.init brokenNet none with | .ok _ => false | .error _ => true) = true := by decide +kernel
    obtain ⟨b, hb⟩ := (C121_accepts (offered_one (by decide +kernel) (by decide +kernel) rfl (by simp) (by unfold eps; decide +kernel) rfl rfl (by decide +kernel)) none).mpr h
    have hb : Builder.init brokenNet none = .ok b := hb
    rw [hb] at this; cases this

end Verif.Props
