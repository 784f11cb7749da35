import Verif.Model.Observers
import Verif.Props.PiecewiseLinear
import Verif.Props.RightConstant

/-! Property theorems C125 (src/utilities/arrays.py, src/utilities/piecewise_linear.py, src/utilities/right_constant.py): `arg_min`, `equals`, `reversal`. -/

namespace Verif.Props
open Verif Verif.Spec

theorem argMinLoop_spec {α : Type} {key : α → Py ℚ} {k : α → ℚ} : ∀ (l : List α), (∀ x ∈ l, key x = .ok (k x)) → ∀ best : Option (ℚ × α), (∀ b ∈ best, b.1 = k b.2) →
    ∃ r, argMinLoop key l best = .ok r ∧ (∀ b ∈ r, b.1 = k b.2) ∧
      ((r = best ∧ (l = [] ∨ best ≠ none) ∧ ∀ b ∈ best, ∀ x ∈ l, k b.2 ≤ k x) ∨
        ∃ y before after, r = some (k y, y) ∧ l = before ++ y :: after ∧ (∀ x ∈ before, k y < k x) ∧ (∀ x ∈ after, k y ≤ k x) ∧ ∀ b ∈ best, k y < k b.2) := by
  intro l
  induction l with
  | nil => intro _ best hb; exact ⟨best, rfl, hb, .inl ⟨rfl, .inl rfl, by simp⟩⟩
  | cons x xs ih =>
    intro h best hb
    have ih := ih fun y hy => h y (List.mem_cons_of_mem _ hy)
    unfold argMinLoop
    rw [h x List.mem_cons_self, ok_bind]
    have fresh : (∀ b ∈ best, k x < k b.2) → ∃ r, argMinLoop key xs (some (k x, x)) = .ok r ∧ (∀ b ∈ r, b.1 = k b.2) ∧
        ∃ y before after, r = some (k y, y) ∧ x :: xs = before ++ y :: after ∧ (∀ x ∈ before, k y < k x) ∧ (∀ x ∈ after, k y ≤ k x) ∧ ∀ b ∈ best, k y < k b.2 := by
      intro hlt
      obtain ⟨r, h1, h2, h3⟩ := ih (some (k x, x)) (by rintro b ⟨⟩; rfl)
      refine ⟨r, h1, h2, ?_⟩
      rcases h3 with ⟨rfl, _, h4⟩ | ⟨y, bf, af, rfl, rfl, h5, h6, h7⟩
      · exact ⟨x, [], xs, rfl, rfl, by simp, h4 _ rfl, hlt⟩
      · have hy := h7 _ rfl
        exact ⟨y, x :: bf, af, rfl, rfl, by rintro z (_ | ⟨_, hz⟩); exacts [hy, h5 z hz], h6, fun b hbb => lt_trans hy (hlt b hbb)⟩
    cases best with
    | none =>
      obtain ⟨r, h1, h2, h3⟩ := fresh (by simp)
      exact ⟨r, h1, h2, .inr h3⟩
    | some b =>
      have hbk : b.1 = k b.2 := hb b rfl
      simp only
      split
      · rename_i hlt
        obtain ⟨r, h1, h2, h3⟩ := fresh (by rintro c ⟨⟩; rw [← hbk]; exact hlt)
        exact ⟨r, h1, h2, .inr h3⟩
      · rename_i hlt
        rw [hbk, not_lt] at hlt
        obtain ⟨r, h1, h2, h3⟩ := ih (some b) hb
        refine ⟨r, h1, h2, ?_⟩
        rcases h3 with ⟨rfl, _, h4⟩ | ⟨y, bf, af, rfl, rfl, h5, h6, h7⟩
        · refine .inl ⟨rfl, .inr (by simp), ?_⟩
          rintro c ⟨⟩ z (_ | ⟨_, hz⟩)
          exacts [hlt, h4 b rfl z hz]
        · have hy := h7 b rfl
          exact .inr ⟨y, x :: bf, af, rfl, rfl, by rintro z (_ | ⟨_, hz⟩); exacts [lt_of_lt_of_le hy hlt, h5 z hz], h6, by rintro c ⟨⟩; exact hy⟩

/-- **C125**: `arg_min` returns the first of the items with the least key, `None` when there are no items. -/
theorem C125_arg_min {α : Type} {key : α → Py ℚ} {k : α → ℚ} (l : List α) (h : ∀ x ∈ l, key x = .ok (k x)) :
    (l = [] ∧ argMin key l = .ok none) ∨
    ∃ y before after, argMin key l = .ok (some y) ∧ l = before ++ y :: after ∧ (∀ x ∈ before, k y < k x) ∧ ∀ x ∈ after, k y ≤ k x := by
  obtain ⟨r, h1, _, h3⟩ := argMinLoop_spec l h none (by simp)
  unfold argMin
  rw [h1, ok_bind]
  rcases h3 with ⟨rfl, h4, _⟩ | ⟨y, bf, af, rfl, h4, h5, h6, _⟩
  · rcases h4 with rfl | h4
    · exact .inl ⟨rfl, rfl⟩
    · exact absurd rfl h4
  · exact .inr ⟨y, bf, af, rfl, h4, h5, h6⟩

/-- **C125**: `arg_min` passes the first exception of the key function on. -/
theorem C125_arg_min_raises {α : Type} {key : α → Py ℚ} {k : α → ℚ} (before after : List α) (x : α) (e : Err) (h : ∀ y ∈ before, key y = .ok (k y)) (hx : key x = .error e) :
    argMin key (before ++ x :: after) = .error e := by
  have : ∀ (l : List α), (∀ y ∈ l, key y = .ok (k y)) → ∀ best, argMinLoop key (l ++ x :: after) best = .error e := by
    intro l
    induction l with
    | nil => intro _ best; rw [List.nil_append]; unfold argMinLoop; rw [hx, error_bind]
    | cons y ys ih =>
      intro hl best
      have ih := ih fun z hz => hl z (List.mem_cons_of_mem _ hz)
      rw [List.cons_append]
      unfold argMinLoop
      rw [hl y List.mem_cons_self, ok_bind]
      cases best with
      | none => exact ih _
      | some b =>
        simp only
        split <;> exact ih _
  unfold argMin
  rw [this before h none, error_bind]

/-- **C125**: `equals` answers `True` exactly for a function of the same class with the same break points, values, slopes and domain; nothing else that is called on the two can then tell them apart. -/
theorem C125_equals (f : RC) (g : PL) :
    (∀ o, f.equals o = true ↔ o = .rc f) ∧ ∀ o, g.equals o = true ↔ o = .pl g := by
  constructor
  · intro o
    cases o with
    | rc g =>
      simp only [RC.equals, Bool.and_eq_true, decide_eq_true_eq, Other.rc.injEq]
      obtain ⟨a, b, c, d⟩ := f
      obtain ⟨a', b', c', d'⟩ := g
      simp only [RC.mk.injEq]
      tauto
    | pl g => simp [RC.equals]
    | thing => simp [RC.equals]
  · intro o
    cases o with
    | pl f =>
      simp only [PL.equals, Bool.and_eq_true, decide_eq_true_eq, Other.pl.injEq]
      obtain ⟨a, b, c, d, e, h⟩ := f
      obtain ⟨a', b', c', d', e', h'⟩ := g
      simp only [PL.mk.injEq]
      tauto
    | rc f => simp [PL.equals]
    | thing => simp [PL.equals]

/-- The value changes at every break point but the first. -/
def Changing (values : List ℚ) : Prop := ∀ (i : Nat) (a b : ℚ), values[i]? = some a → values[i + 1]? = some b → a ≠ b

/-- `F` has the values of the break points. -/
def Pieces (times values : List ℚ) (F : ℚ → ℚ) : Prop :=
  ∀ (i : Nat) (t v : ℚ), times[i]? = some t → values[i]? = some v → ∀ x, t ≤ x → (∀ t', times[i + 1]? = some t' → x < t') → F x = v

theorem pieces_unique {F G : ℚ → ℚ} : ∀ (ts us vs ws : List ℚ), vs.length = ts.length → ws.length = us.length → ts.Pairwise (· < ·) → us.Pairwise (· < ·) → Changing vs → Changing ws →
    Pieces ts vs F → Pieces us ws G → ts.head? = us.head? → (∀ x, x ∈ ts ∨ x ∈ us → F x = G x) → ts = us ∧ vs = ws := by
  intro ts
  induction ts with
  | nil =>
    intro us vs ws hv hw _ _ _ _ _ _ hh _
    cases us with
    | nil => exact ⟨rfl, by rw [List.length_eq_zero_iff.mp hv, List.length_eq_zero_iff.mp hw]⟩
    | cons u us => simp at hh
  | cons t ts ih =>
    intro us vs ws hv hw hst hsu hcv hcw hF hG hh hFG
    cases us with
    | nil => simp at hh
    | cons u us =>
    simp only [List.head?_cons, Option.some.injEq] at hh
    subst hh
    cases vs with
    | nil => simp at hv
    | cons v vs =>
    cases ws with
    | nil => simp at hw
    | cons w ws =>
    have hFt : F t = v := hF 0 t v rfl rfl t le_rfl (by
      intro t' ht'
      simp only [Nat.zero_add, List.getElem?_cons_succ] at ht'
      exact List.rel_of_pairwise_cons hst (List.mem_of_getElem? ht'))
    have hGt : G t = w := hG 0 t w rfl rfl t le_rfl (by
      intro t' ht'
      simp only [Nat.zero_add, List.getElem?_cons_succ] at ht'
      exact List.rel_of_pairwise_cons hsu (List.mem_of_getElem? ht'))
    have hvw : v = w := by rw [← hFt, ← hGt]; exact hFG t (.inl List.mem_cons_self)
    subst hvw
    have tailF : Pieces ts vs F := fun i a b ha hb => hF (i + 1) a b ha hb
    have tailG : Pieces us ws G := fun i a b ha hb => hG (i + 1) a b ha hb
    have first : ∀ {t1 : ℚ} {l m : List ℚ} {H : ℚ → ℚ}, (t :: t1 :: l).Pairwise (· < ·) → (v :: m).length = (t :: t1 :: l).length → Changing (v :: m) → Pieces (t :: t1 :: l) (v :: m) H → H t1 ≠ v := by
      intro t1 l m H hs hl hc hH
      cases m with
      | nil => simp at hl
      | cons v1 m =>
        have h1 : H t1 = v1 := hH 1 t1 v1 rfl rfl t1 le_rfl (by
          intro t' ht'
          simp only [List.getElem?_cons_succ] at ht'
          exact List.rel_of_pairwise_cons (List.pairwise_cons.mp hs).2 (List.mem_of_getElem? ht'))
        rw [h1]
        exact fun e => hc 0 v v1 rfl rfl e.symm
    have still : ∀ {l m : List ℚ} {H : ℚ → ℚ} {x : ℚ}, Pieces (t :: l) (v :: m) H → t ≤ x → (∀ t', l.head? = some t' → x < t') → H x = v := by
      intro l m H x hH hx h
      refine hH 0 t v rfl rfl x hx ?_
      intro t' ht'
      simp only [Nat.zero_add, List.getElem?_cons_succ] at ht'
      exact h t' (by rw [List.head?_eq_getElem?]; exact ht')
    have heads : ts.head? = us.head? := by
      cases ts with
      | nil =>
        cases us with
        | nil => rfl
        | cons u1 us =>
          refine absurd ?_ (first hsu hw hcw hG)
          rw [← hFG u1 (.inr (by simp))]
          exact still hF (List.rel_of_pairwise_cons hsu (by simp)).le (by simp)
      | cons t1 ts =>
        have h1 := first hst hv hcv hF
        have ht1 : t < t1 := List.rel_of_pairwise_cons hst (by simp)
        cases us with
        | nil =>
          refine absurd ?_ h1
          rw [hFG t1 (.inl (by simp))]
          exact still hG ht1.le (by simp)
        | cons u1 us =>
          have h2 := first hsu hw hcw hG
          have hu1 : t < u1 := List.rel_of_pairwise_cons hsu (by simp)
          rcases lt_trichotomy t1 u1 with hlt | rfl | hlt
          · refine absurd ?_ h1
            rw [hFG t1 (.inl (by simp))]
            exact still hG ht1.le (by simp [hlt])
          · rfl
          · refine absurd ?_ h2
            rw [← hFG u1 (.inr (by simp))]
            exact still hF hu1.le (by simp [hlt])
    obtain ⟨rfl, rfl⟩ := ih us vs ws (by simpa using hv) (by simpa using hw) (List.pairwise_cons.mp hst).2 (List.pairwise_cons.mp hsu).2
      (fun i a b ha hb => hcv (i + 1) a b ha hb) (fun i a b ha hb => hcw (i + 1) a b ha hb) tailF tailG heads
      (fun x hx => hFG x (hx.imp (List.mem_cons_of_mem _) (List.mem_cons_of_mem _)))
    exact ⟨rfl, rfl⟩

/-- **C125**: for step functions on the same domain whose values change at every break point but a common first one, `equals` answers whether they are the same function. -/
theorem C125_equals_exact (f g : RC) (hf : ValidRC f) (hg : ValidRC g) (hlo : f.lo = g.lo) (hhi : f.hi = g.hi) (h0 : f.times.head? = g.times.head?)
    (hcf : Changing f.values) (hcg : Changing g.values) : f.equals (.rc g) = true ↔ ∀ x, f.eval x = g.eval x := by
  constructor
  · intro h x
    have := ((C125_equals f ⟨[], [], 0, 0, ⊥, ⊤⟩).1 (.rc g)).mp h
    injection this with this
    rw [this]
  · intro h
    obtain ⟨F, hF, eF, _⟩ := C09_eval f hf
    obtain ⟨G, hG, eG, _⟩ := C09_eval g hg
    have hdom : ∀ x, g.inDom x ↔ f.inDom x := by
      intro x
      unfold RC.inDom
      rw [hlo, hhi]
    obtain ⟨e1, e2⟩ := pieces_unique f.times g.times f.values g.values hf.len hg.len hf.lt hg.lt hcf hcg hF.on_piece hG.on_piece h0 (by
      intro x hx
      have hd : f.inDom x := hx.elim (fun hx => hf.dom x hx) (fun hx => (hdom x).mp (hg.dom x hx))
      have := h x
      rw [(eF x hd).1, (eG x ((hdom x).mpr hd)).1] at this
      injection this)
    simp only [RC.equals, e1, e2, hlo, hhi, decide_true, Bool.and_self]

/-- `equals` compares how functions are stored: the same step function with a break point more is not equal. -/
theorem C125_equals_stored : ∃ f g : RC, ValidRC f ∧ ValidRC g ∧ f.lo = g.lo ∧ f.hi = g.hi ∧ (∀ x, f.eval x = g.eval x) ∧ f.equals (.rc g) = false := by
  have v1 : ValidRC ⟨[0], [1], (0 : ℚ), ⊤⟩ := ⟨by decide, by decide, by decide +kernel, by decide +kernel⟩
  have v2 : ValidRC ⟨[0, 1], [1, 1], (0 : ℚ), ⊤⟩ := ⟨by decide, by decide, by decide +kernel, by decide +kernel⟩
  refine ⟨_, _, v1, v2, rfl, rfl, fun x => ?_, by decide +kernel⟩
  obtain ⟨F, hF, eF, nF⟩ := C09_eval _ v1
  obtain ⟨G, hG, eG, nG⟩ := C09_eval _ v2
  by_cases hd : RC.inDom ⟨[0], [1], (0 : ℚ), ⊤⟩ x
  · have hd' : RC.inDom ⟨[0, 1], [1, 1], (0 : ℚ), ⊤⟩ x := hd
    have hx : (0 : ℚ) ≤ x := WithBot.coe_le_coe.mp hd.1
    rw [(eF x hd).1, (eG x hd').1, hF.on_piece 0 0 1 rfl rfl x hx (by simp)]
    by_cases h1 : x < 1
    · rw [hG.on_piece 0 0 1 rfl rfl x hx (by simpa using h1)]
    · rw [hG.on_piece 1 1 1 rfl rfl x (not_lt.mp h1) (by simp)]
  · have hd' : ¬ RC.inDom ⟨[0, 1], [1, 1], (0 : ℚ), ⊤⟩ x := hd
    rw [(nF x hd).1, (nG x hd').1]

/-- Larger arguments have larger values. -/
def Increasing (f : PL) : Prop := ∀ x y a b, x < y → f.eval x = .ok a → f.eval y = .ok b → a < b

/-- **C125**: on the values of an increasing function, `reversal` is the inverse function. -/
theorem C125_reversal (f : PL) (h : ValidPL f) (hi : Increasing f) (t b : ℚ) (ht : f.eval t = .ok b) : f.reversal b = .ok (some (t : WithTop ℚ)) := by
  have hm : NonDecreasing f := by
    intro x y a c hxy ha hc
    rcases hxy.eq_or_lt with rfl | hlt
    · rw [ha] at hc; injection hc with hc; exact hc.le
    · exact (hi x y a c hlt ha hc).le
  obtain ⟨r, h1, h2, h3, h4⟩ := C16_max_t_below f h hm b none ⟨t, b, ht, le_rfl⟩
  unfold PL.reversal
  rw [h1]
  congr 2
  have hr : (t : WithTop ℚ) ≤ r := (h4 t b ht).mp le_rfl
  cases r with
  | top =>
    have hd : f.inDom t := by
      by_contra hc
      rw [PL.eval_err hc] at ht; cases ht
    have hd' : f.inDom (t + 1) := by
      refine ⟨le_trans hd.1 (WithBot.coe_le_coe.mpr (by linarith)), ?_⟩
      rw [h3 rfl]; exact le_top
    have e := PL.eval_eq h.wf hd'
    have a := (h4 _ _ e).mpr le_top
    have c := hi t (t + 1) _ _ (by linarith) ht e
    exact absurd a (not_le.mpr c)
  | coe q =>
    have hq : t ≤ q := WithTop.coe_le_coe.mp hr
    obtain ⟨v, e, hv⟩ := h2 q rfl
    rcases hq.eq_or_lt with rfl | hlt
    · rfl
    · exact absurd hv (not_le.mpr (hi t q _ _ hlt ht e))

/-- `arg_min` on values, and with a tie. -/
example : argMin (fun x : ℚ => .ok (x * x)) [3, -1, 2, 1] = .ok (some (-1)) ∧ argMin (fun x : ℚ => .ok x) [] = .ok none ∧
    argMin (fun x : ℚ => if x = 0 then .error .zeroDiv else .ok (1 / x)) [2, 0, 1] = .error .zeroDiv := by decide +kernel

/-- Two step functions with changing values that differ at one break point. -/
example : ValidRC steps ∧ Changing steps.values ∧ steps.equals (.rc steps) = true ∧ steps.equals (.rc ⟨[0, 3, 5], [1, 4, 0], (0 : ℚ), ⊤⟩) = false ∧ steps.equals .thing = false := by
  refine ⟨steps_valid, ?_, by decide +kernel, by decide +kernel, by decide +kernel⟩
  intro i a b ha hb
  match i with
  | 0 => injection ha with ha; injection hb with hb; subst ha; subst hb; norm_num
  | 1 => injection ha with ha; injection hb with hb; subst ha; subst hb; norm_num
  | 2 => cases hb
  | i + 3 => cases hb

/-- An increasing function on `[0, ∞)` and its reversal. -/
def incline : PL := ⟨[0, 2], [1, 3], 1, 1 / 2, (0 : ℚ), ⊤⟩

theorem incline_valid : ValidPL incline := ⟨by decide, by decide, by unfold eps; decide +kernel, by decide +kernel⟩

theorem incline_increasing : Increasing incline := by
  obtain ⟨F, hF, hin, hout, _⟩ := C13_evaluators_agree incline incline_valid
  have h0 : F 0 = 1 := hF.at_break 0 0 1 rfl rfl
  have h2 : F 2 = 3 := hF.at_break 1 2 3 rfl rfl
  have val : ∀ x a, incline.eval x = .ok a → 0 ≤ x ∧ (x ≤ 2 → a = 1 + x) ∧ (2 ≤ x → a = 3 + 1 / 2 * (x - 2)) := by
    intro x a ha
    by_cases hd : incline.inDom x
    · have hx : (0 : ℚ) ≤ x := WithBot.coe_le_coe.mp hd.1
      rw [(hin x hd).1] at ha
      injection ha with ha
      subst ha
      refine ⟨hx, fun h => ?_, fun h => ?_⟩
      · rw [hF.between 0 0 2 rfl rfl x hx h, h0, h2]; ring
      · rw [hF.after 2 rfl x h, h2]; rfl
    · rw [(hout x hd).1] at ha; cases ha
  intro x y a b hxy ha hb
  obtain ⟨_, a1, a2⟩ := val x a ha
  obtain ⟨_, b1, b2⟩ := val y b hb
  rcases le_total x 2 with hx | hx <;> rcases le_total y 2 with hy | hy
  · rw [a1 hx, b1 hy]; linarith
  · rw [a1 hx, b2 hy]
    rcases hx.eq_or_lt with rfl | hx <;> linarith
  · exact absurd (lt_of_lt_of_le hxy hy) (not_lt.mpr hx)
  · rw [a2 hx, b2 hy]; linarith

example : ValidPL incline ∧ Increasing incline ∧ incline.eval 4 = .ok 4 ∧ incline.reversal 4 = .ok (some ((4 : ℚ) : WithTop ℚ)) ∧ incline.reversal 2 = .ok (some ((1 : ℚ) : WithTop ℚ)) :=
  ⟨incline_valid, incline_increasing, by decide +kernel, by decide +kernel, by decide +kernel⟩

end Verif.Props
