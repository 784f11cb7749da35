import Verif.Spec.Area
import Mathlib.Data.Rat.Defs
import Mathlib.Tactic.Linarith
import Mathlib.Tactic.Ring
import Mathlib.Tactic.FieldSimp

namespace Verif.Spec

/-- A function on `[0, ∞)` that grows between the points of a finite list grows. -/
theorem le_of_pieces {D : ℚ → ℚ} (T : List ℚ) (h : ∀ a b, 0 ≤ a → a ≤ b → (∀ t ∈ T, ¬ (a < t ∧ t < b)) → D a ≤ D b) :
    ∀ w x, 0 ≤ w → w ≤ x → D w ≤ D x := by
  intro w x0 hw
  have main : ∀ (k : Nat) (x : ℚ), w ≤ x → (T.filter (fun t => decide (w < t ∧ t < x))).length ≤ k → D w ≤ D x := by
    intro k
    induction k with
    | zero =>
      intro x hx hk
      refine h w x hw hx (fun t ht hc => ?_)
      have : T.filter (fun t => decide (w < t ∧ t < x)) = [] := List.eq_nil_of_length_eq_zero (by omega)
      have hm : t ∈ T.filter (fun t => decide (w < t ∧ t < x)) := List.mem_filter.mpr ⟨ht, decide_eq_true hc⟩
      rw [this] at hm; cases hm
    | succ k ih =>
      intro x hx hk
      by_cases he : T.filter (fun t => decide (w < t ∧ t < x)) = []
      · exact ih x hx (by rw [he]; simp)
      · obtain ⟨m, hm⟩ : ∃ m, (T.filter (fun t => decide (w < t ∧ t < x))).max? = some m := by
          cases hmx : (T.filter (fun t => decide (w < t ∧ t < x))).max? with
          | none => exact absurd (List.max?_eq_none_iff.mp hmx) he
          | some m => exact ⟨m, rfl⟩
        obtain ⟨hmem, hmax⟩ := List.max?_eq_some_iff.mp hm
        obtain ⟨hmT, hmx⟩ := List.mem_filter.mp hmem
        have hmx := of_decide_eq_true hmx
        have e1 : D m ≤ D x := h m x (le_trans hw hmx.1.le) hmx.2.le (fun t ht hc => by
          have := hmax t (List.mem_filter.mpr ⟨ht, decide_eq_true ⟨lt_trans hmx.1 hc.1, hc.2⟩⟩)
          exact absurd hc.1 (not_lt.mpr this))
        refine le_trans (ih m hmx.1.le ?_) e1
        have hlt : (T.filter (fun t => decide (w < t ∧ t < m))).length < (T.filter (fun t => decide (w < t ∧ t < x))).length := by
          have hsub : T.filter (fun t => decide (w < t ∧ t < m)) = (T.filter (fun t => decide (w < t ∧ t < x))).filter (fun t => decide (t < m)) := by
            rw [List.filter_filter]
            refine List.filter_congr (fun t _ => ?_)
            rw [← Bool.decide_and]
            apply decide_eq_decide.mpr
            constructor
            · rintro ⟨a, b⟩; exact ⟨b, a, lt_trans b hmx.2⟩
            · rintro ⟨a, b, _⟩; exact ⟨b, a⟩
          rw [hsub]
          rcases Nat.lt_or_ge ((T.filter (fun t => decide (w < t ∧ t < x))).filter (fun t => decide (t < m))).length
            (T.filter (fun t => decide (w < t ∧ t < x))).length with hl | hl
          · exact hl
          · have := List.length_filter_eq_length_iff.mp (le_antisymm (List.length_filter_le _ _) hl) m hmem
            exact absurd (of_decide_eq_true this) (lt_irrefl _)
        omega
  exact fun hx => main _ x0 hx le_rfl

/-- A function on `[0, ∞)` that is constant between the points of a finite list is constant. -/
theorem const_of_pieces {D : ℚ → ℚ} (T : List ℚ) (h : ∀ a b, 0 ≤ a → a ≤ b → (∀ t ∈ T, ¬ (a < t ∧ t < b)) → D b = D a) :
    ∀ x, 0 ≤ x → D x = D 0 := by
  intro x hx
  apply le_antisymm
  · have := le_of_pieces (D := fun x => - D x) T (fun a b ha hab hno => by rw [h a b ha hab hno]) 0 x le_rfl hx
    linarith
  · exact le_of_pieces T (fun a b ha hab hno => by rw [h a b ha hab hno]) 0 x le_rfl hx

theorem StepArea.congr {f g F : ℚ → ℚ} (h : StepArea f F) (he : ∀ x, 0 ≤ x → f x = g x) : StepArea g F := by
  obtain ⟨h0, T, hT⟩ := h
  exact ⟨h0, T, fun a b ha hab hno => by rw [hT a b ha hab hno, he a ha]⟩

theorem StepArea.add {f g F G : ℚ → ℚ} (h : StepArea f F) (k : StepArea g G) : StepArea (fun x => f x + g x) (fun x => F x + G x) := by
  obtain ⟨h0, T, hT⟩ := h
  obtain ⟨k0, S, hS⟩ := k
  refine ⟨by simp only; rw [h0, k0, add_zero], T ++ S, ?_⟩
  intro a b ha hab hno
  have := hT a b ha hab (fun t ht => hno t (List.mem_append.mpr (.inl ht)))
  have := hS a b ha hab (fun t ht => hno t (List.mem_append.mpr (.inr ht)))
  simp only; linarith

theorem StepArea.sub {f g F G : ℚ → ℚ} (h : StepArea f F) (k : StepArea g G) : StepArea (fun x => f x - g x) (fun x => F x - G x) := by
  obtain ⟨h0, T, hT⟩ := h
  obtain ⟨k0, S, hS⟩ := k
  refine ⟨by simp only; rw [h0, k0, sub_zero], T ++ S, ?_⟩
  intro a b ha hab hno
  have := hT a b ha hab (fun t ht => hno t (List.mem_append.mpr (.inl ht)))
  have := hS a b ha hab (fun t ht => hno t (List.mem_append.mpr (.inr ht)))
  simp only; linarith

theorem StepArea.zero : StepArea (fun _ => 0) (fun _ => 0) := ⟨rfl, [], fun _ _ _ _ _ => by ring⟩

theorem StepArea.sum {α : Type} {f F : α → ℚ → ℚ} : ∀ (l : List α), (∀ a ∈ l, StepArea (f a) (F a)) →
    StepArea (fun x => (l.map (fun a => f a x)).sum) (fun x => (l.map (fun a => F a x)).sum) := by
  intro l
  induction l with
  | nil => intro _; exact StepArea.zero
  | cons a l ih =>
    intro h
    simpa using StepArea.add (h a (by simp)) (ih (fun b hb => h b (by simp [hb])))

/-- Smaller rates give a smaller area. -/
theorem StepArea.le {f g F G : ℚ → ℚ} (h : StepArea f F) (k : StepArea g G) {M : ℚ} (hM : 0 ≤ M) (hle : ∀ x, 0 ≤ x → x < M → f x ≤ g x) :
    ∀ x y, 0 ≤ x → x ≤ y → y ≤ M → F y - F x ≤ G y - G x := by
  obtain ⟨h0, T, hT⟩ := h
  obtain ⟨k0, S, hS⟩ := k
  intro x y hx hxy hy
  have := le_of_pieces (D := fun z => G (min z M) - F (min z M)) (T ++ S) (by
    intro a b ha hab hno
    rcases le_or_gt M a with h1 | h1
    · rw [min_eq_right h1, min_eq_right (le_trans h1 hab)]
    · rw [min_eq_left h1.le]
      have hab' : a ≤ min b M := le_min hab h1.le
      have hno' : ∀ t ∈ T ++ S, ¬ (a < t ∧ t < min b M) := fun t ht hc => hno t ht ⟨hc.1, lt_of_lt_of_le hc.2 (min_le_left _ _)⟩
      have e1 := hT a (min b M) ha hab' (fun t ht => hno' t (List.mem_append.mpr (.inl ht)))
      have e2 := hS a (min b M) ha hab' (fun t ht => hno' t (List.mem_append.mpr (.inr ht)))
      have := mul_le_mul_of_nonneg_right (hle a ha h1) (sub_nonneg.mpr hab')
      linarith) x y hx hxy
  rw [min_eq_left hy, min_eq_left (le_trans hxy hy)] at this
  linarith

theorem StepArea.mono {f F : ℚ → ℚ} (h : StepArea f F) (hf : ∀ x, 0 ≤ x → 0 ≤ f x) {x y : ℚ} (hx : 0 ≤ x) (hxy : x ≤ y) : F x ≤ F y := by
  have := StepArea.le StepArea.zero h (le_trans hx hxy) (fun z hz _ => hf z hz) x y hx hxy le_rfl
  linarith

/-- Where the rate is constant the area is a rectangle. -/
theorem StepArea.const {f F : ℚ → ℚ} (h : StepArea f F) {a b c : ℚ} (ha : 0 ≤ a) (hab : a ≤ b) (hf : ∀ x, a ≤ x → x < b → f x = c) :
    F b - F a = c * (b - a) := by
  obtain ⟨_, T, hT⟩ := h
  have := const_of_pieces (D := fun x => F (a + min x (b - a)) - c * min x (b - a)) (T.map (fun t => t - a)) (by
    intro x y hx hxy hno
    rcases le_or_gt (b - a) x with h1 | h1
    · rw [min_eq_right h1, min_eq_right (le_trans h1 hxy)]
    · rw [min_eq_left h1.le]
      have hxy' : x ≤ min y (b - a) := le_min hxy h1.le
      have := hT (a + x) (a + min y (b - a)) (by linarith) (by linarith) (fun t ht hc => by
        refine hno (t - a) (List.mem_map.mpr ⟨t, ht, rfl⟩) ⟨by linarith [hc.1], ?_⟩
        have := min_le_left y (b - a)
        linarith [hc.2])
      rw [hf (a + x) (by linarith) (by linarith)] at this
      linarith) (b - a) (sub_nonneg.mpr hab)
  simp only [min_self, min_eq_left (sub_nonneg.mpr hab), add_zero, mul_zero, sub_zero] at this
  have e : a + (b - a) = b := by ring
  rw [e] at this
  linarith

/-- Where the area is a rectangle the rate is constant. -/
theorem StepArea.rate {f F : ℚ → ℚ} {T : List ℚ} (hT : ∀ a b, 0 ≤ a → a ≤ b → (∀ t ∈ T, ¬ (a < t ∧ t < b)) → F b - F a = f a * (b - a))
    {a b : ℚ} (ha : 0 ≤ a) (hno : ∀ t ∈ T, ¬ (a < t ∧ t < b)) {y : ℚ} (h1 : a ≤ y) (h2 : y < b) : f y = f a := by
  have e1 := hT a b ha (by linarith) hno
  have e2 := hT a y ha h1 (fun t ht hc => hno t ht ⟨hc.1, lt_trans hc.2 h2⟩)
  have e3 := hT y b (by linarith) h2.le (fun t ht hc => hno t ht ⟨lt_of_le_of_lt h1 hc.1, hc.2⟩)
  have : (f y - f a) * (b - y) = 0 := by nlinarith
  rcases mul_eq_zero.mp this with h | h
  · linarith
  · linarith

theorem LinArea.sub {F G A B : ℚ → ℚ} (h : LinArea F A) (k : LinArea G B) : LinArea (fun x => F x - G x) (fun x => A x - B x) := by
  obtain ⟨h0, T, hT⟩ := h
  obtain ⟨k0, S, hS⟩ := k
  refine ⟨by simp only; rw [h0, k0, sub_zero], T ++ S, ?_⟩
  intro a b ha hab hno
  have := hT a b ha hab (fun t ht => hno t (List.mem_append.mpr (.inl ht)))
  have := hS a b ha hab (fun t ht => hno t (List.mem_append.mpr (.inr ht)))
  simp only; linarith

theorem StepArea.unique {f F G : ℚ → ℚ} (h : StepArea f F) (k : StepArea f G) (x : ℚ) (hx : 0 ≤ x) : F x = G x := by
  have h1 := StepArea.le h k hx (fun _ _ _ => le_rfl) 0 x le_rfl hx le_rfl
  have h2 := StepArea.le k h hx (fun _ _ _ => le_rfl) 0 x le_rfl hx le_rfl
  rw [h.1, k.1] at h1 h2
  linarith

/-- The area under a function between 0 and `c` is between 0 and `c * M`. -/
theorem LinArea.range {F A : ℚ → ℚ} (h : LinArea F A) {M c : ℚ} (hM : 0 ≤ M) (hF : ∀ x, 0 ≤ x → x ≤ M → 0 ≤ F x ∧ F x ≤ c) : 0 ≤ A M ∧ A M ≤ c * M := by
  obtain ⟨h0, T, hT⟩ := h
  have key : ∀ (a b : ℚ), 0 ≤ a → a ≤ b → (∀ t ∈ T, ¬ (a < t ∧ t < b)) →
      A (min a M) ≤ A (min b M) ∧ c * min a M - A (min a M) ≤ c * min b M - A (min b M) := by
    intro a b ha hab hno
    rcases le_or_gt M a with h1 | h1
    · rw [min_eq_right h1, min_eq_right (le_trans h1 hab)]
      exact ⟨le_rfl, le_rfl⟩
    · rw [min_eq_left h1.le]
      have hab' : a ≤ min b M := le_min hab h1.le
      have e1 := hT a (min b M) ha hab' (fun t ht hc => hno t ht ⟨hc.1, lt_of_lt_of_le hc.2 (min_le_left _ _)⟩)
      obtain ⟨p1, p2⟩ := hF a ha h1.le
      obtain ⟨p3, p4⟩ := hF (min b M) (le_trans ha hab') (min_le_right _ _)
      have hd := sub_nonneg.mpr hab'
      have q1 : 0 ≤ (F a + F (min b M)) / 2 * (min b M - a) := mul_nonneg (by linarith) hd
      have q2 : (F a + F (min b M)) / 2 * (min b M - a) ≤ c * (min b M - a) := mul_le_mul_of_nonneg_right (by linarith) hd
      constructor <;> linarith
  have k1 := le_of_pieces (D := fun z => A (min z M)) T (fun a b ha hab hno => (key a b ha hab hno).1) 0 M le_rfl hM
  have k2 := le_of_pieces (D := fun z => c * min z M - A (min z M)) T (fun a b ha hab hno => (key a b ha hab hno).2) 0 M le_rfl hM
  simp only [min_self, min_eq_left hM, h0] at k1 k2
  constructor <;> linarith

theorem LinArea.unique {F A B : ℚ → ℚ} (h : LinArea F A) (k : LinArea F B) (x : ℚ) (hx : 0 ≤ x) : A x = B x := by
  have := (LinArea.range (h.sub k) (c := 0) hx (fun y _ _ => by simp))
  simp only [zero_mul] at this
  linarith [this.1, this.2]

end Verif.Spec
