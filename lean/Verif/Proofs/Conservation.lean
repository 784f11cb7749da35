import Verif.Proofs.AvgTravelTime
import Verif.Proofs.Merge
import Verif.Proofs.DFlowRun

namespace Verif
namespace DFlow
open Spec

/-- What has entered an edge of one commodity up to `t` has left it at the exit time of `t`. -/
theorem EdgeOk.carried {cap tt φ : ℚ} {cin cout : FRC} {q : PL} {p : Pend} {Lin : ℚ} {Vin : Rates} {Lout : ℚ} {Vout : Rates} {r : ℚ}
    (hc : 0 < cap) (htt : 0 ≤ tt) (h : EdgeOk cap tt φ cin cout q p Lin Vin Lout Vout r) {i : Nat} {I O : ℚ → ℚ}
    (hI : StepArea (FRC.rate cin.funs i) I) (hO : StepArea (FRC.rate cout.funs i) O) {t : ℚ} (h0 : 0 ≤ t) (ht : t ≤ φ) :
    O (t + tt + q.fn t / cap) = I t := by
  obtain ⟨I0, T, hT⟩ := hI
  have hθ : ∀ x, 0 ≤ x → x ≤ φ → 0 ≤ x + tt + q.fn x / cap := by
    intro x hx hx'
    have := div_nonneg (h.laws.q_nonneg x (h.dom hx hx')) hc.le
    linarith
  have key := const_of_pieces (D := fun x => O (min x φ + tt + q.fn (min x φ) / cap) - I (min x φ)) (T ++ q.times) (by
    intro a b ha hab hno
    rcases le_or_gt φ a with h1 | h1
    · rw [min_eq_right h1, min_eq_right (le_trans h1 hab)]
    · rw [min_eq_left h1.le]
      have hab' : a ≤ min b φ := le_min hab h1.le
      rcases eq_or_lt_of_le hab' with he | hlt
      · rw [← he]
      have hbφ : min b φ ≤ φ := min_le_right _ _
      have hno' : ∀ t ∈ T ++ q.times, ¬ (a < t ∧ t < min b φ) := fun t ht hc => hno t ht ⟨hc.1, lt_of_lt_of_le hc.2 (min_le_left _ _)⟩
      generalize min b φ = b' at *
      have hnoT : ∀ t ∈ T, ¬ (a < t ∧ t < b') := fun t ht => hno' t (List.mem_append.mpr (.inl ht))
      obtain ⟨m, hm⟩ := PL.fn_affine h.qwf (a := a) (b := b') (fun t ht => hno' t (List.mem_append.mpr (.inr ht)))
      have hθa : ∀ x, a ≤ x → x ≤ b' → x + tt + q.fn x / cap = a + tt + q.fn a / cap + (1 + m / cap) * (x - a) := by
        intro x h1 h2
        rw [hm x h1 h2]; field_simp; ring
      have hslope : ∀ y, a ≤ y → y < b' → 0 ≤ 1 + m / cap ∧ FRC.rate cin.funs i a = (1 + m / cap) * FRC.rate cout.funs i (y + tt + q.fn y / cap) := by
        intro y h1 h2
        obtain ⟨k, k0, k1, δ, k2, k3⟩ := h.mix y (h.dom (le_trans ha h1) (by linarith))
        have hu1 : y < min (y + δ) b' := lt_min (by linarith) h2
        have hu := k3 (min (y + δ) b') hu1.le (min_le_left _ _) (h.dom (by linarith) (le_trans (min_le_right _ _) hbφ))
        rw [hθa _ (by linarith) (min_le_right _ _), hθa y h1 h2.le] at hu
        have hk : k = 1 + m / cap := by
          have h3 : (k - (1 + m / cap)) * (min (y + δ) b' - y) = 0 := by linarith
          rcases mul_eq_zero.mp h3 with h | h
          · linarith
          · linarith
        rw [← hk]
        refine ⟨k0, ?_⟩
        rw [← k1 i, StepArea.rate hT ha hnoT h1 h2]
      obtain ⟨s0, s1⟩ := hslope a le_rfl hlt
      have eI := hT a b' ha hlt.le hnoT
      rcases eq_or_lt_of_le s0 with hz | hp
      · rw [hθa b' hlt.le le_rfl, ← hz, zero_mul, add_zero]
        rw [s1, ← hz] at eI
        linarith
      · have hOc := StepArea.const hO (a := a + tt + q.fn a / cap) (b := b' + tt + q.fn b' / cap) (c := FRC.rate cin.funs i a / (1 + m / cap)) (hθ a ha h1.le)
          (by rw [hθa b' hlt.le le_rfl]; have := mul_nonneg s0 (sub_nonneg.mpr hlt.le); linarith) (by
            intro u u1 u2
            rw [hθa b' hlt.le le_rfl] at u2
            have e1 : (1 + m / cap) * ((u - (a + tt + q.fn a / cap)) / (1 + m / cap)) = u - (a + tt + q.fn a / cap) := mul_div_cancel₀ _ (ne_of_gt hp)
            have y1 : 0 ≤ (u - (a + tt + q.fn a / cap)) / (1 + m / cap) := div_nonneg (by linarith) s0
            have y2 : (u - (a + tt + q.fn a / cap)) / (1 + m / cap) < b' - a := by
              rw [div_lt_iff₀ hp]; linarith
            have := (hslope (a + (u - (a + tt + q.fn a / cap)) / (1 + m / cap)) (by linarith) (by linarith)).2
            rw [hθa _ (by linarith) (by linarith)] at this
            have e2 : a + (u - (a + tt + q.fn a / cap)) / (1 + m / cap) - a = (u - (a + tt + q.fn a / cap)) / (1 + m / cap) := by ring
            rw [e2, e1] at this
            have e3 : a + tt + q.fn a / cap + (u - (a + tt + q.fn a / cap)) = u := by ring
            rw [e3] at this
            rw [this]; exact (mul_div_cancel_left₀ _ (ne_of_gt hp)).symm)
        have e4 : FRC.rate cin.funs i a / (1 + m / cap) * (b' + tt + q.fn b' / cap - (a + tt + q.fn a / cap)) = FRC.rate cin.funs i a * (b' - a) := by
          rw [hθa b' hlt.le le_rfl]
          have : a + tt + q.fn a / cap + (1 + m / cap) * (b' - a) - (a + tt + q.fn a / cap) = (1 + m / cap) * (b' - a) := by ring
          rw [this, ← mul_assoc, div_mul_cancel₀ _ (ne_of_gt hp)]
        rw [e4] at hOc
        linarith) t h0
  simp only [min_eq_left ht, min_eq_left h.phi] at key
  have hz := StepArea.const hO (a := 0) (b := 0 + tt + q.fn 0 / cap) (c := 0) le_rfl (hθ 0 le_rfl h.phi) (by
    intro x h1 h2
    rw [h.qneg 0 le_rfl, zero_div, add_zero, zero_add] at h2
    exact h.quiet i x h1 h2)
  rw [hO.1] at hz
  linarith

/-- The cumulative amount of one commodity in a collection. -/
theorem area_rate {c : FRC} {L R : ℚ} {V : Rates} (h : c.Good L V R) (i : Nat) : (∃ F, StepArea (FRC.rate c.funs i) F) ∧ ∀ x, 0 ≤ FRC.rate c.funs i x := by
  obtain ⟨H, _, hH, h0, hW⟩ := h.chain
  cases hf : c.funs i with
  | none =>
    have : FRC.rate c.funs i = fun _ => 0 := by funext x; unfold FRC.rate; rw [hf]
    rw [this]
    exact ⟨⟨_, StepArea.zero⟩, fun _ => le_rfl⟩
  | some f =>
    have hg := (h.funs i).1 _ hf
    have hw := hW.2 _ _ hf
    have hok : InflowOk f := by
      refine ⟨hg.wf.len, hg.wf.ne, hg.wf.lt, fun t ht => ?_, hg.lo, hg.hi, hw.2⟩
      have := (hg.wf.dom t ht).1
      rw [hg.lo] at this
      exact WithBot.coe_le_coe.mp this
    have hr : FRC.rate c.funs i = fun x => f.fn x := by funext x; unfold FRC.rate; rw [hf]
    rw [hr]
    obtain ⟨F, _, _, _, _, a5, _⟩ := AvgTravelTime.accumulate_spec (fs := [f]) (by simpa using hok) (by
      have hs : ∀ a ∈ (0 : ℚ) :: ([f].map RC.times).flatten, a ∈ H := by
        intro a ha
        simp only [List.map_cons, List.map_nil, List.flatten_cons, List.flatten_nil, List.append_nil, List.mem_cons] at ha
        rcases ha with rfl | ha
        · exact h0
        · exact hw.1 a ha
      exact fun a ha b hb => hH a (hs a ha) b (hs b hb))
    refine ⟨⟨F.fn, a5.congr (fun x _ => by simp)⟩, fun x => AvgTravelTime.inflow_nonneg hok x⟩

end DFlow

namespace Conservation
open Spec

/-- Summing over the nodes and over what belongs to each node. -/
theorem sum_fibers {nodes : List Nat} (hn : nodes.Nodup) (g : Nat → Nat) (f : Nat → ℚ) : ∀ (edges : List Nat), (∀ e ∈ edges, g e ∈ nodes) →
    (nodes.map (fun v => ((edges.filter (fun e => g e = v)).map f).sum)).sum = (edges.map f).sum := by
  intro edges
  induction edges with
  | nil => intro _; simp
  | cons e es ih =>
    intro h
    have hv : ∀ v, (((e :: es).filter (fun e => g e = v)).map f).sum = (if v = g e then f e else 0) + ((es.filter (fun e => g e = v)).map f).sum := by
      intro v
      by_cases hve : g e = v
      · rw [List.filter_cons_of_pos (by simpa using hve), if_pos hve.symm]; simp
      · rw [List.filter_cons_of_neg (by simpa using hve), if_neg (Ne.symm hve)]; simp
    rw [List.map_congr_left (fun v _ => hv v), List.sum_map_add, Merge.sum_ite_mem hn, if_pos (h e (by simp)), ih (fun e he => h e (by simp [he]))]
    simp

theorem sum_ite_ne {nodes : List Nat} (hn : nodes.Nodup) {k : Nat} (hk : k ∈ nodes) (f : Nat → ℚ) :
    (nodes.map (fun v => if v = k then 0 else f v)).sum = (nodes.map f).sum - f k := by
  have h1 : (nodes.map f).sum = (nodes.map (fun v => (if v = k then f k else 0) + (if v = k then 0 else f v))).sum := by
    congr 1
    refine List.map_congr_left (fun v _ => ?_)
    by_cases h : v = k
    · subst h; simp
    · simp [h]
  rw [h1, List.sum_map_add, Merge.sum_ite_mem hn, if_pos hk]; ring

theorem sum_le_sum {α : Type} {f g : α → ℚ} : ∀ (l : List α), (∀ a ∈ l, f a ≤ g a) → (l.map f).sum ≤ (l.map g).sum := by
  intro l
  induction l with
  | nil => intro _; exact le_rfl
  | cons a l ih =>
    intro h
    rw [List.map_cons, List.map_cons, List.sum_cons, List.sum_cons]
    exact add_le_add (h a (by simp)) (ih (fun b hb => h b (by simp [hb])))

theorem sum_nonneg {α : Type} {f : α → ℚ} : ∀ (l : List α), (∀ a ∈ l, 0 ≤ f a) → 0 ≤ (l.map f).sum := by
  intro l
  induction l with
  | nil => intro _; exact le_rfl
  | cons a l ih =>
    intro h
    rw [List.map_cons, List.sum_cons]
    exact add_nonneg (h a (by simp)) (ih (fun b hb => h b (by simp [hb])))

/-- The inflow of a commodity, summed over the nodes. -/
theorem sum_sources {nodes : List Nat} (hn : nodes.Nodup) (g : RC → ℚ) : ∀ (l : List (Nat × RC)), (l.map Prod.fst).Nodup → (∀ p ∈ l, p.1 ∈ nodes) →
    (nodes.map (fun v => match l.lookup v with | none => 0 | some f => g f)).sum = (l.map (fun p => g p.2)).sum := by
  intro l
  induction l with
  | nil => intro _ _; simp
  | cons p l ih =>
    obtain ⟨u, f⟩ := p
    intro hd hm
    rw [List.map_cons, List.nodup_cons] at hd
    have hv : ∀ v, (match ((u, f) :: l).lookup v with | none => 0 | some f => g f) = (if v = u then g f else 0) + (match l.lookup v with | none => 0 | some f => g f) := by
      intro v
      rw [List.lookup_cons]
      by_cases h : v = u
      · subst h
        have : l.lookup v = none := List.lookup_eq_none_iff.mpr (fun q hq => by
          have : v ≠ q.1 := fun e => hd.1 (by simp only; rw [e]; exact List.mem_map.mpr ⟨q, hq, rfl⟩)
          simpa using this)
        rw [this]; simp
      · have : (v == u) = false := by simpa using h
        rw [this]; simp [h]
    rw [List.map_congr_left (fun v _ => hv v), List.sum_map_add, Merge.sum_ite_mem hn, if_pos (hm (u, f) (by simp)), ih hd.2 (fun p hp => hm p (by simp [hp]))]
    simp

end Conservation
end Verif
