import Verif.Proofs.Area
import Verif.Spec.Evaluate
import Mathlib.Tactic.FieldSimp
import Mathlib.Tactic.LinearCombination
import Mathlib.Algebra.Order.Archimedean.Basic

/-! Exchanging the order of integration for monotone piecewise linear functions. -/

namespace Verif
open Verif.Spec
namespace EarliestAverage

/-- A function whose growth is of second order on an interval does not grow. -/
theorem no_growth {D F : ℚ → ℚ} {K a b : ℚ} (hab : a ≤ b) (hF : ∀ x, a ≤ x → x ≤ b → F x * (b - a) = F a * (b - x) + F b * (x - a))
    (hD : ∀ x y, a ≤ x → x ≤ y → y ≤ b → D y - D x ≤ K * (y - x) * (F y - F x)) : D b ≤ D a := by
  rcases eq_or_lt_of_le hab with rfl | hab
  · exact le_rfl
  have hpos : 0 < b - a := by linarith
  have key : ∀ m : Nat, 0 < m → (D b - D a) * m ≤ K * (b - a) * (F b - F a) := by
    intro m hm
    have hm' : (0 : ℚ) < m := by exact_mod_cast hm
    have hstep : ∀ j : Nat, j ≤ m → D (a + j * ((b - a) / m)) - D a ≤ j * (K * ((b - a) / m) * ((F b - F a) / m)) := by
      intro j
      induction j with
      | zero => intro _; simp
      | succ j ih =>
        intro hj
        have h1 := ih (by omega)
        have hj' : ((j : ℚ) + 1) ≤ m := by exact_mod_cast hj
        have hd : 0 < (b - a) / m := div_pos hpos hm'
        have e1 : (m : ℚ) * ((b - a) / m) = b - a := by field_simp
        have l1 : a ≤ a + j * ((b - a) / m) := by have : (0 : ℚ) ≤ j := Nat.cast_nonneg j; nlinarith
        have l2 : a + j * ((b - a) / m) ≤ a + ((j : ℚ) + 1) * ((b - a) / m) := by nlinarith
        have l3 : a + ((j : ℚ) + 1) * ((b - a) / m) ≤ b := by nlinarith
        have h2 := hD _ _ l1 l2 l3
        have f1 := hF _ l1 (le_trans l2 l3)
        have f2 := hF _ (le_trans l1 l2) l3
        have f3 : F (a + ((j : ℚ) + 1) * ((b - a) / m)) - F (a + j * ((b - a) / m)) = (F b - F a) / m := by
          have : (F (a + ((j : ℚ) + 1) * ((b - a) / m)) - F (a + j * ((b - a) / m))) * (b - a) = (F b - F a) / m * (b - a) := by
            rw [sub_mul, f1, f2]; ring
          exact mul_right_cancel₀ (ne_of_gt hpos) this
        rw [f3] at h2
        push_cast
        have e2 : a + ((j : ℚ) + 1) * ((b - a) / m) - (a + j * ((b - a) / m)) = (b - a) / m := by ring
        rw [e2] at h2
        linarith
    have := hstep m le_rfl
    have e1 : a + (m : ℚ) * ((b - a) / m) = b := by field_simp; ring
    rw [e1] at this
    have e2 : (m : ℚ) * (K * ((b - a) / m) * ((F b - F a) / m)) = K * (b - a) * (F b - F a) / m := by field_simp
    rw [e2, le_div_iff₀ hm'] at this
    exact this
  by_contra hlt
  push Not at hlt
  obtain ⟨m, hm⟩ := exists_nat_gt (K * (b - a) * (F b - F a) / (D b - D a))
  rw [div_lt_iff₀ (by linarith)] at hm
  have h1 := key (m + 1) (Nat.succ_pos m)
  push_cast at h1
  nlinarith

/-- `le_of_pieces` up to `h`. -/
theorem le_of_pieces_upto {D : ℚ → ℚ} (T : List ℚ) {h : ℚ} (hh : 0 ≤ h) (hp : ∀ a b, 0 ≤ a → a ≤ b → b ≤ h → (∀ t ∈ T, ¬ (a < t ∧ t < b)) → D a ≤ D b) :
    ∀ a b, 0 ≤ a → a ≤ b → b ≤ h → D a ≤ D b := by
  intro a b ha hab hb
  have := le_of_pieces (D := fun t => D (min t h)) (h :: T) (by
    intro a b ha hab hT
    rcases le_total b h with hb | hb
    · rw [min_eq_left hb, min_eq_left (le_trans hab hb)]
      exact hp a b ha hab hb (fun t ht => hT t (by simp [ht]))
    · rw [min_eq_right hb]
      rcases le_total h a with ha' | ha'
      · rw [min_eq_right ha']
      · rcases eq_or_lt_of_le ha' with rfl | h1
        · rw [min_eq_left le_rfl]
        · rcases eq_or_lt_of_le hb with rfl | h2
          · rw [min_eq_left ha']
            exact hp a _ ha hab le_rfl (fun t ht => hT t (by simp [ht]))
          · exact absurd ⟨h1, h2⟩ (hT h (by simp))) a b ha hab
  simpa [min_eq_left hb, min_eq_left (le_trans hab hb)] using this

theorem AreaUpTo.of_lin {F A : ℚ → ℚ} (h : LinArea F A) (M : ℚ) : AreaUpTo M F A := by
  obtain ⟨h0, T, hT⟩ := h
  exact ⟨h0, T, fun a b ha hab _ hn => hT a b ha hab hn⟩

theorem AreaUpTo.sub {M : ℚ} {F G A B : ℚ → ℚ} (h : AreaUpTo M F A) (k : AreaUpTo M G B) : AreaUpTo M (fun x => F x - G x) (fun x => A x - B x) := by
  obtain ⟨h0, T, hT⟩ := h
  obtain ⟨k0, S, kS⟩ := k
  refine ⟨by simp [h0, k0], T ++ S, fun a b ha hab hb hn => ?_⟩
  have h1 := hT a b ha hab hb (fun t ht => hn t (by simp [ht]))
  have h2 := kS a b ha hab hb (fun t ht => hn t (by simp [ht]))
  simp only
  linarith

theorem AreaUpTo.congr {M : ℚ} {F G A : ℚ → ℚ} (h : AreaUpTo M F A) (he : ∀ x, 0 ≤ x → x ≤ M → F x = G x) : AreaUpTo M G A := by
  obtain ⟨h0, T, hT⟩ := h
  refine ⟨h0, T, fun a b ha hab hb hn => ?_⟩
  rw [hT a b ha hab hb hn, he a ha (le_trans hab hb), he b (le_trans ha hab) hb]

/-- The area under a function below `c`. -/
theorem AreaUpTo.le {M : ℚ} {F A : ℚ → ℚ} (h : AreaUpTo M F A) {x y c : ℚ} (hx : 0 ≤ x) (hxy : x ≤ y) (hy : y ≤ M) (hF : ∀ t, 0 ≤ t → t ≤ y → F t ≤ c) :
    A y - A x ≤ c * (y - x) := by
  obtain ⟨_, T, hT⟩ := h
  have := le_of_pieces_upto (D := fun t => c * t - A t) T (le_trans hx hxy) (by
    intro a b ha hab hb hn
    have h1 := hT a b ha hab (le_trans hb hy) hn
    have h2 := hF a ha (le_trans hab hb)
    have h3 := hF b (le_trans ha hab) hb
    nlinarith) x y hx hxy le_rfl
  linarith

/-- Between bends the function is linear. -/
theorem AreaUpTo.linear {h : ℚ} {F A : ℚ → ℚ} {T : List ℚ}
    (hT : ∀ a b, 0 ≤ a → a ≤ b → b ≤ h → (∀ t ∈ T, ¬ (a < t ∧ t < b)) → A b - A a = (F a + F b) / 2 * (b - a))
    {a b : ℚ} (ha : 0 ≤ a) (hab : a ≤ b) (hb : b ≤ h) (hn : ∀ t ∈ T, ¬ (a < t ∧ t < b)) {x : ℚ} (hx : a ≤ x) (hx' : x ≤ b) :
    F x * (b - a) = F a * (b - x) + F b * (x - a) := by
  have h1 := hT a b ha hab hb hn
  have h2 := hT a x ha hx (le_trans hx' hb) (fun t ht ⟨p, q⟩ => hn t ht ⟨p, lt_of_lt_of_le q hx'⟩)
  have h3 := hT x b (le_trans ha hx) hx' hb (fun t ht ⟨p, q⟩ => hn t ht ⟨lt_of_le_of_lt hx p, q⟩)
  linear_combination 2 * h1 - 2 * h2 - 2 * h3

/-- If at most `r * t` has arrived up to time `F t`, at most as much area is under the arrivals as under the inverse of `F`. -/
theorem area_bound {Out B F A : ℚ → ℚ} {r h M : ℚ} (hr : 0 ≤ r) (hh : 0 ≤ h) (hB : AreaUpTo M Out B) (hmono : ∀ x y, 0 ≤ x → x ≤ y → Out x ≤ Out y)
    (hF : ∀ x y, 0 ≤ x → x ≤ y → y ≤ h → F x ≤ F y) (hF0 : ∀ x, 0 ≤ x → x ≤ h → 0 ≤ F x ∧ F x ≤ M) (hOut : ∀ t, 0 ≤ t → t ≤ h → Out (F t) ≤ r * t)
    (hA : AreaUpTo h (fun t => F t - t) A) : B (F h) ≤ r * (h * F h - (A h + h ^ 2 / 2)) := by
  obtain ⟨hA0, T, hT⟩ := hA
  have hgrow : ∀ x y, 0 ≤ x → x ≤ y → y ≤ h → B (F y) - B (F x) ≤ r * y * (F y - F x) := by
    intro x y hx hxy hy
    have h1 := AreaUpTo.le hB (c := Out (F y)) (hF0 x hx (le_trans hxy hy)).1 (hF x y hx hxy hy) (hF0 y (le_trans hx hxy) hy).2 (fun t ht hty => hmono t _ ht hty)
    have h2 := hOut y (le_trans hx hxy) hy
    have h3 := hF x y hx hxy hy
    nlinarith
  have hdec := le_of_pieces_upto (D := fun t => -(B (F t) - r * (t * F t - (A t + t ^ 2 / 2)))) T hh (by
    intro a b ha hab hb hn
    have hlin : ∀ x, a ≤ x → x ≤ b → F x * (b - a) = F a * (b - x) + F b * (x - a) := by
      intro x hx hx'
      have := AreaUpTo.linear (F := fun t => F t - t) hT ha hab hb hn hx hx'
      linear_combination this
    have := no_growth (D := fun t => B (F t) - r * (t * F t - (A t + t ^ 2 / 2))) (F := F) (K := r / 2) hab hlin (by
      intro x y hx hxy hy
      have h1 := hgrow x y (le_trans ha hx) hxy (le_trans hy hb)
      have h2 := hT x y (le_trans ha hx) hxy (le_trans hy hb) (fun t ht ⟨p, q⟩ => hn t ht ⟨lt_of_le_of_lt hx p, lt_of_lt_of_le q hy⟩)
      have e : B (F y) - r * (y * F y - (A y + y ^ 2 / 2)) - (B (F x) - r * (x * F x - (A x + x ^ 2 / 2))) =
          (B (F y) - B (F x)) - r * ((x + y) / 2 * (F y - F x)) := by
        linear_combination r * h2
      rw [e]
      nlinarith)
    linarith) 0 h le_rfl hh le_rfl
  have h0 := AreaUpTo.le hB (c := Out (F 0)) le_rfl (hF0 0 le_rfl hh).1 (hF0 0 le_rfl hh).2 (fun t ht hty => hmono t _ ht hty)
  have h1 := hOut 0 le_rfl hh
  have h2 := (hF0 0 le_rfl hh).1
  have hB0 := hB.1
  simp only [hA0] at hdec
  have : Out (F 0) * (F 0 - 0) ≤ 0 := by nlinarith
  nlinarith

end EarliestAverage
end Verif
