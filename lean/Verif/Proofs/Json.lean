import Verif.Spec.Json
import Verif.Proofs.BuilderBase
import Mathlib.Tactic.Linarith
import Mathlib.Data.Nat.Cast.Order.Ring

set_option linter.unusedSimpArgs false

namespace Verif.Json
open Verif Spec Builder Resume

theorem hex_inj {a b : Nat} (ha : a < 16) (hb : b < 16) (h : hex a = hex b) : a = b := by
  unfold hex at h
  have key : ∀ a < 16, ∀ b < 16, Nat.digitChar a = Nat.digitChar b → a = b := by decide
  exact key a ha b hb h

theorem hex4_inj {a b : Nat} {r r' : List Char} (ha : a < 65536) (hb : b < 65536) (h : hex4 a ++ r = hex4 b ++ r') : a = b ∧ r = r' := by
  simp only [hex4, List.cons_append, List.nil_append, List.cons.injEq, true_and] at h
  obtain ⟨h1, h2, h3, h4, h5⟩ := h
  have k1 := hex_inj (Nat.mod_lt _ (by norm_num)) (Nat.mod_lt _ (by norm_num)) h1
  have k2 := hex_inj (Nat.mod_lt _ (by norm_num)) (Nat.mod_lt _ (by norm_num)) h2
  have k3 := hex_inj (Nat.mod_lt _ (by norm_num)) (Nat.mod_lt _ (by norm_num)) h3
  have k4 := hex_inj (Nat.mod_lt _ (by norm_num)) (Nat.mod_lt _ (by norm_num)) h4
  exact ⟨by omega, h5⟩

/-- The kinds of ways a character is written. -/
inductive Kind (c : Char) (l : List Char) : Prop
  | plain (h : l = [c]) (h1 : c ≠ '"') (h2 : c ≠ '\\') (h3 : 32 ≤ c.toNat)
  | short (x : Char) (h : l = ['\\', x]) (hx : x ∈ "\"\\/bfnrt".toList) (h1 : (x = '"' ∧ c = '"') ∨ (x = '\\' ∧ c = '\\') ∨ (x = 'n' ∧ c = '\n') ∨ (x = 'r' ∧ c = '\r') ∨ (x = 't' ∧ c = '\t') ∨ (x = 'f' ∧ c.toNat = 12) ∨ (x = 'b' ∧ c.toNat = 8))
  | code (h : l = hex4 c.toNat) (h1 : c.toNat < 65536)
  | pair (h : l = hex4 (55296 + (c.toNat - 65536) / 1024) ++ hex4 (56320 + (c.toNat - 65536) % 1024)) (h1 : 65536 ≤ c.toNat)

theorem escape_kind (c : Char) : Kind c (escape c) := by
  unfold escape
  split
  · next h => exact .short '"' rfl (by decide) (by simp [h])
  · next h0 =>
    split
    · next h => exact .short '\\' rfl (by decide) (by simp [h])
    · next h1 =>
      split
      · next h => exact .short 'n' rfl (by decide) (by simp [h])
      · split
        · next h => exact .short 'r' rfl (by decide) (by simp [h])
        · split
          · next h => exact .short 't' rfl (by decide) (by simp [h])
          · split
            · next h => exact .short 'f' rfl (by decide) (by simp [h])
            · split
              · next h => exact .short 'b' rfl (by decide) (by simp [h])
              · split
                · next h => exact .plain rfl h0 h1 h.1
                · split
                  · next h => exact .code rfl h
                  · next h => exact .pair rfl (by omega)

theorem char_valid (c : Char) : c.toNat < 55296 ∨ (57343 < c.toNat ∧ c.toNat < 1114112) := c.valid

theorem toNat_inj {a b : Char} (h : a.toNat = b.toNat) : a = b := by
  apply Char.ext; exact UInt32.toNat_inj.mp h

theorem escape_inj {c c' : Char} {r r' : List Char} (h : escape c ++ r = escape c' ++ r') : c = c' ∧ r = r' := by
  have v := char_valid c
  have v' := char_valid c'
  rcases escape_kind c with ⟨e, a1, a2, a3⟩ | ⟨x, e, ex, a1⟩ | ⟨e, a1⟩ | ⟨e, a1⟩ <;> rcases escape_kind c' with ⟨e', b1, b2, b3⟩ | ⟨y, e', ey, b1⟩ | ⟨e', b1⟩ | ⟨e', b1⟩ <;> rw [e, e'] at h
  · simp only [List.cons_append, List.nil_append, List.cons.injEq] at h; exact h
  · simp only [List.cons_append, List.cons.injEq] at h; exact absurd h.1 a2
  · simp only [hex4, List.cons_append, List.cons.injEq] at h; exact absurd h.1 a2
  · simp only [hex4, List.cons_append, List.cons.injEq] at h; exact absurd h.1 a2
  · simp only [List.cons_append, List.cons.injEq] at h; exact absurd h.1.symm b2
  · simp only [List.cons_append, List.nil_append, List.cons.injEq, true_and] at h
    obtain ⟨rfl, hr⟩ := h
    refine ⟨?_, hr⟩
    rcases a1 with ⟨rfl, p⟩ | ⟨rfl, p⟩ | ⟨rfl, p⟩ | ⟨rfl, p⟩ | ⟨rfl, p⟩ | ⟨rfl, p⟩ | ⟨rfl, p⟩ <;> simp at b1 <;> first | (rw [p, b1]) | (exact toNat_inj (by omega))
  · simp only [hex4, List.cons_append, List.cons.injEq, true_and] at h
    obtain ⟨rfl, _⟩ := h; exact absurd ex (by decide)
  · simp only [hex4, List.cons_append, List.cons.injEq, true_and] at h
    obtain ⟨rfl, _⟩ := h; exact absurd ex (by decide)
  · simp only [hex4, List.cons_append, List.cons.injEq] at h; exact absurd h.1.symm b2
  · simp only [hex4, List.cons_append, List.cons.injEq, true_and] at h
    obtain ⟨rfl, _⟩ := h; exact absurd ey (by decide)
  · obtain ⟨h1, h2⟩ := hex4_inj a1 b1 h; exact ⟨toNat_inj h1, h2⟩
  · rw [List.append_assoc] at h
    obtain ⟨h1, _⟩ := hex4_inj a1 (by omega) h; omega
  · simp only [hex4, List.cons_append, List.cons.injEq] at h; exact absurd h.1.symm b2
  · simp only [hex4, List.cons_append, List.cons.injEq, true_and] at h
    obtain ⟨rfl, _⟩ := h; exact absurd ey (by decide)
  · rw [List.append_assoc] at h
    obtain ⟨h1, _⟩ := hex4_inj (by omega) b1 h; omega
  · rw [List.append_assoc, List.append_assoc] at h
    obtain ⟨h1, h⟩ := hex4_inj (by omega) (by omega) h
    obtain ⟨h2, h⟩ := hex4_inj (by omega) (by omega) h
    exact ⟨toNat_inj (by omega), h⟩

theorem escape_head (c : Char) : ∃ x l, escape c = x :: l ∧ x ≠ '"' := by
  rcases escape_kind c with ⟨e, a1, a2, a3⟩ | ⟨x, e, ex, a1⟩ | ⟨e, a1⟩ | ⟨e, a1⟩ <;> rw [e]
  · exact ⟨c, [], rfl, a1⟩
  · exact ⟨'\\', _, rfl, by decide⟩
  · exact ⟨'\\', _, rfl, by decide⟩
  · exact ⟨'\\', _, rfl, by decide⟩

theorem body_inj : ∀ (s s' : List Char) {r r' : List Char}, body s ++ r = body s' ++ r' → s = s' ∧ r = r'
  | [], [], r, r', h => by simp only [body, List.cons_append, List.nil_append, List.cons.injEq, true_and] at h; exact ⟨rfl, h⟩
  | [], c :: s', r, r', h => by
    obtain ⟨x, l, e, hx⟩ := escape_head c
    simp only [body, e, List.cons_append, List.cons.injEq] at h
    exact absurd h.1.symm hx
  | c :: s, [], r, r', h => by
    obtain ⟨x, l, e, hx⟩ := escape_head c
    simp only [body, e, List.cons_append, List.cons.injEq] at h
    exact absurd h.1 hx
  | c :: s, c' :: s', r, r', h => by
    simp only [body, List.append_assoc] at h
    obtain ⟨h1, h2⟩ := escape_inj h
    obtain ⟨h3, h4⟩ := body_inj s s' h2
    exact ⟨by rw [h1, h3], h4⟩

theorem quote_inj {s s' r r' : List Char} (h : quote s ++ r = quote s' ++ r') : s = s' ∧ r = r' := by
  simp only [quote, List.cons_append, List.cons.injEq, true_and] at h
  exact body_inj s s' h

/-- Characters of numbers. -/
def numChar (c : Char) : Bool := c.isDigit || c == '-' || c == '+' || c == '.' || c == 'e' || c == 'E'

theorem digits_num {l : List Char} (h : Digits l) : ∀ c ∈ l, numChar c = true := fun c hc => by simp [numChar, h.2 c hc]

theorem number_chars {t : List Char} (h : NumberText t) : ∀ c ∈ t, numChar c = true := by
  obtain ⟨s, i, f, e, rfl, hs, hi, hf, he⟩ := h
  intro c hc
  simp only [List.mem_append] at hc
  rcases hc with ((hc | hc) | hc) | hc
  · rcases hs with rfl | rfl
    · simp at hc
    · simp at hc; subst hc; decide
  · exact digits_num hi.1 c hc
  · rcases hf with rfl | ⟨d, rfl, hd⟩
    · simp at hc
    · simp only [List.mem_cons] at hc
      rcases hc with rfl | hc
      · decide
      · exact digits_num hd c hc
  · rcases he with rfl | ⟨x, g, d, rfl, hx, hg, hd⟩
    · simp at hc
    · simp only [List.cons_append, List.mem_cons, List.mem_append] at hc
      rcases hc with rfl | hc | hc
      · rcases hx with rfl | rfl <;> decide
      · rcases hg with rfl | rfl | rfl
        · simp at hc
        · simp at hc; subst hc; decide
        · simp at hc; subst hc; decide
      · exact digits_num hd c hc

/-- What may follow a value: the end, a comma or a bracket. -/
def Follow (r : List Char) : Prop := ∀ c l, r = c :: l → c = ',' ∨ c = ']' ∨ c = '}'

theorem follow_nil : Follow [] := fun c l h => by cases h
theorem follow_cons {c : Char} {l : List Char} (h : c = ',' ∨ c = ']' ∨ c = '}') : Follow (c :: l) := fun a b e => by injection e with e _; rwa [← e]

theorem follow_elements {num : ℚ → List Char} {l : List Tree} {r : List Char} : Follow (Tree.elements num l ++ r) := by
  cases l <;> simp only [Tree.elements, List.cons_append] <;> exact follow_cons (by simp)

theorem follow_members {num : ℚ → List Char} {l : List (List Char × Tree)} {r : List Char} : Follow (Tree.members num l ++ r) := by
  rcases l with _ | ⟨⟨k, t⟩, l⟩ <;> simp only [Tree.members, List.cons_append] <;> exact follow_cons (by simp)

theorem chars_split : ∀ {a b r r' : List Char}, (∀ c ∈ a, numChar c = true) → (∀ c ∈ b, numChar c = true) → Follow r → Follow r' → a ++ r = b ++ r' → a = b ∧ r = r'
  | [], [], _, _, _, _, _, _, h => ⟨rfl, h⟩
  | [], y :: b, r, r', _, hb, hr, _, h => by
    have := hb y (by simp)
    rcases hr y (b ++ r') (by simpa using h) with rfl | rfl | rfl <;> exact absurd this (by decide)
  | x :: a, [], r, r', ha, _, _, hr', h => by
    have := ha x (by simp)
    rcases hr' x (a ++ r) (by simpa using h.symm) with rfl | rfl | rfl <;> exact absurd this (by decide)
  | x :: a, y :: b, r, r', ha, hb, hr, hr', h => by
    simp only [List.cons_append, List.cons.injEq] at h
    obtain ⟨h1, h2⟩ := chars_split (fun c hc => ha c (by simp [hc])) (fun c hc => hb c (by simp [hc])) hr hr' h.2
    exact ⟨by rw [h.1, h1], h2⟩

/-- A text of number characters followed by something cannot start with a character that is neither. -/
theorem number_not {a r l : List Char} {x : Char} (ha : ∀ c ∈ a, numChar c = true) (hr : Follow r) (h : a ++ r = x :: l) (hx : numChar x = false) (hx' : x ≠ ',' ∧ x ≠ ']' ∧ x ≠ '}') : False := by
  cases a with
  | nil => rcases hr x l (by simpa using h) with e | e | e
           · exact hx'.1 e
           · exact hx'.2.1 e
           · exact hx'.2.2 e
  | cons y a =>
    simp only [List.cons_append, List.cons.injEq] at h
    have := ha y (by simp)
    rw [h.1, hx] at this; cases this

theorem text_num (num : ℚ → List Char) (x : ℚ) : (Tree.num x).text num = num x := rfl
theorem text_str (num : ℚ → List Char) (x : List Char) : (Tree.str x).text num = quote x := rfl
theorem text_nil (num : ℚ → List Char) : (Tree.list []).text num = ['[', ']'] := rfl
theorem text_list (num : ℚ → List Char) (t : Tree) (l : List Tree) : (Tree.list (t :: l)).text num = '[' :: (t.text num ++ Tree.elements num l) := rfl
theorem text_empty (num : ℚ → List Char) : (Tree.dict []).text num = ['{', '}'] := rfl
theorem text_dict (num : ℚ → List Char) (k : List Char) (t : Tree) (l : List (List Char × Tree)) :
    (Tree.dict ((k, t) :: l)).text num = '{' :: (quote k ++ ':' :: ' ' :: (t.text num ++ Tree.members num l)) := rfl
theorem elements_nil (num : ℚ → List Char) : Tree.elements num [] = [']'] := rfl
theorem elements_cons (num : ℚ → List Char) (t : Tree) (l : List Tree) : Tree.elements num (t :: l) = ',' :: ' ' :: (t.text num ++ Tree.elements num l) := rfl
theorem members_nil (num : ℚ → List Char) : Tree.members num [] = ['}'] := rfl
theorem members_cons (num : ℚ → List Char) (k : List Char) (t : Tree) (l : List (List Char × Tree)) :
    Tree.members num ((k, t) :: l) = ',' :: ' ' :: (quote k ++ ':' :: ' ' :: (t.text num ++ Tree.members num l)) := rfl

theorem number_cons {t : List Char} (h : NumberText t) : ∃ c l, t = c :: l := by
  cases t with
  | cons c l => exact ⟨c, l, rfl⟩
  | nil =>
    obtain ⟨s, i, f, e, h, _, hi, _, _⟩ := h
    simp only [List.nil_eq, List.append_eq_nil_iff] at h
    exact absurd h.1.1.2 hi.1.1

theorem text_head {num : ℚ → List Char} (hn : NumbersOk num) (t : Tree) : ∃ c l, t.text num = c :: l ∧ c ≠ ']' := by
  match t with
  | .num x =>
    obtain ⟨c, l, e⟩ := number_cons (hn.number x)
    refine ⟨c, l, e, ?_⟩
    rintro rfl
    exact absurd (number_chars (hn.number x) ']' (by rw [e]; simp)) (by decide)
  | .inf true => exact ⟨'-', _, rfl, by decide⟩
  | .inf false => exact ⟨'I', _, rfl, by decide⟩
  | .str s => exact ⟨'"', _, rfl, by decide⟩
  | .list [] => exact ⟨'[', _, rfl, by decide⟩
  | .list (t :: l) => exact ⟨'[', _, rfl, by decide⟩
  | .dict [] => exact ⟨'{', _, rfl, by decide⟩
  | .dict ((k, t) :: l) => exact ⟨'{', _, rfl, by decide⟩

theorem number_minus {a r l : List Char} (ha : ∀ c ∈ a, numChar c = true) (hr : Follow r) (h : a ++ r = '-' :: 'I' :: l) : False := by
  cases a with
  | nil => rcases hr '-' _ (by simpa using h) with e | e | e <;> exact absurd e (by decide)
  | cons y a =>
    simp only [List.cons_append, List.cons.injEq] at h
    exact number_not (fun c hc => ha c (by simp [hc])) hr h.2 (by decide) (by decide)

/-- A number is not the start of another value. -/
theorem number_other {num : ℚ → List Char} (hn : NumbersOk num) {x : ℚ} {t : Tree} {r r' : List Char} (hr : Follow r) (hr' : Follow r') (h : num x ++ r = t.text num ++ r') :
    t = .num x ∧ r = r' := by
  have hc := number_chars (hn.number x)
  match t with
  | .num y =>
    obtain ⟨h1, h2⟩ := chars_split hc (number_chars (hn.number y)) hr hr' h
    exact ⟨by rw [hn.different _ _ h1], h2⟩
  | .inf true => exact (number_minus hc hr h).elim
  | .inf false => exact (number_not hc hr h (by decide) (by decide)).elim
  | .str s => exact (number_not hc hr h (by decide) (by decide)).elim
  | .list [] => exact (number_not hc hr h (by decide) (by decide)).elim
  | .list (t :: l) => exact (number_not hc hr h (by decide) (by decide)).elim
  | .dict [] => exact (number_not hc hr h (by decide) (by decide)).elim
  | .dict ((k, t) :: l) => exact (number_not hc hr h (by decide) (by decide)).elim

/-- The first characters of the other values. -/
def Tree.mark : Tree → Char
  | .num _ => '0'
  | .inf true => '-'
  | .inf false => 'I'
  | .str _ => '"'
  | .list _ => '['
  | .dict _ => '{'

theorem text_mark {num : ℚ → List Char} (t : Tree) (h : ∀ x, t ≠ .num x) : ∃ l, t.text num = t.mark :: l := by
  match t with
  | .num x => exact absurd rfl (h x)
  | .inf true => exact ⟨_, rfl⟩
  | .inf false => exact ⟨_, rfl⟩
  | .str s => exact ⟨_, rfl⟩
  | .list [] => exact ⟨_, rfl⟩
  | .list (t :: l) => exact ⟨_, rfl⟩
  | .dict [] => exact ⟨_, rfl⟩
  | .dict ((k, t) :: l) => exact ⟨_, rfl⟩

theorem text_marks {num : ℚ → List Char} (hn : NumbersOk num) {t t' : Tree} {r r' : List Char} (hr : Follow r) (hr' : Follow r') (h : t.text num ++ r = t'.text num ++ r') (ht : ∀ x, t ≠ .num x) :
    t.mark = t'.mark ∧ ∀ x, t' ≠ .num x := by
  by_cases h' : ∃ x, t' = .num x
  · obtain ⟨x, rfl⟩ := h'
    exact absurd (number_other hn hr' hr h.symm).1 (ht x)
  · push Not at h'
    obtain ⟨l, e⟩ := text_mark (num := num) t ht
    obtain ⟨l', e'⟩ := text_mark (num := num) t' h'
    rw [e, e'] at h
    simp only [List.cons_append, List.cons.injEq] at h
    exact ⟨h.1, h'⟩

attribute [local irreducible] Tree.text Tree.elements Tree.members

theorem inf_inj {num : ℚ → List Char} {b b' : Bool} {r r' : List Char} (hm : (Tree.inf b).mark = (Tree.inf b').mark) (h : (Tree.inf b).text num ++ r = (Tree.inf b').text num ++ r') :
    Tree.inf b = Tree.inf b' ∧ r = r' := by
  have hb : b = b' := by cases b <;> cases b' <;> simp_all [Tree.mark]
  subst hb
  exact ⟨rfl, List.append_cancel_left h⟩

theorem str_inj {num : ℚ → List Char} {s s' : List Char} {r r' : List Char} (h : (Tree.str s).text num ++ r = (Tree.str s').text num ++ r') :
    Tree.str s = Tree.str s' ∧ r = r' := by
  rw [text_str, text_str] at h
  obtain ⟨h1, h2⟩ := quote_inj h
  exact ⟨by rw [h1], h2⟩

mutual
theorem text_inj {num : ℚ → List Char} (hn : NumbersOk num) : ∀ (t t' : Tree) (r r' : List Char), Follow r → Follow r' → t.text num ++ r = t'.text num ++ r' → t = t' ∧ r = r'
  | .num x, t', r, r', hr, hr', h => by
    rw [text_num] at h
    obtain ⟨h1, h2⟩ := number_other hn hr hr' h
    exact ⟨h1.symm, h2⟩
  | .inf b, t', r, r', hr, hr', h => by
    obtain ⟨hm, h'⟩ := text_marks hn hr hr' h (fun x => by simp)
    match t' with
    | .num y => exact absurd rfl (h' y)
    | .inf b' => exact inf_inj hm h
    | .str s => cases b <;> exact absurd hm (by simp [Tree.mark])
    | .list _ => cases b <;> exact absurd hm (by simp [Tree.mark])
    | .dict _ => cases b <;> exact absurd hm (by simp [Tree.mark])
  | .str s, t', r, r', hr, hr', h => by
    obtain ⟨hm, h'⟩ := text_marks hn hr hr' h (fun x => by simp)
    match t' with
    | .num y => exact absurd rfl (h' y)
    | .inf b' => cases b' <;> exact absurd hm (by simp [Tree.mark])
    | .str s' => exact str_inj h
    | .list _ => exact absurd hm (by simp [Tree.mark])
    | .dict _ => exact absurd hm (by simp [Tree.mark])
  | .list [], t', r, r', hr, hr', h => by
    obtain ⟨hm, h'⟩ := text_marks hn hr hr' h (fun x => by simp)
    match t' with
    | .num y => exact absurd rfl (h' y)
    | .inf b' => cases b' <;> exact absurd hm (by simp [Tree.mark])
    | .str s' => exact absurd hm (by simp [Tree.mark])
    | .list [] => simp only [text_nil, text_list, text_empty, text_dict, List.cons_append, List.nil_append, List.cons.injEq, true_and] at h; exact ⟨rfl, h⟩
    | .list (t :: l) =>
      obtain ⟨c, m, e, hc⟩ := text_head hn t
      simp only [text_nil, text_list, text_empty, text_dict, e, List.cons_append, List.cons.injEq, true_and] at h
      exact absurd h.1.symm hc
    | .dict _ => exact absurd hm (by simp [Tree.mark])
  | .list (t :: l), t', r, r', hr, hr', h => by
    obtain ⟨hm, h'⟩ := text_marks hn hr hr' h (fun x => by simp)
    match t' with
    | .num y => exact absurd rfl (h' y)
    | .inf b' => cases b' <;> exact absurd hm (by simp [Tree.mark])
    | .str s' => exact absurd hm (by simp [Tree.mark])
    | .list [] =>
      obtain ⟨c, m, e, hc⟩ := text_head hn t
      simp only [text_nil, text_list, text_empty, text_dict, e, List.cons_append, List.cons.injEq, true_and] at h
      exact absurd h.1 hc
    | .list (t' :: l') =>
      simp only [text_nil, text_list, text_empty, text_dict, List.cons_append, List.cons.injEq, true_and, List.append_assoc] at h
      obtain ⟨h1, h2⟩ := text_inj hn t t' _ _ follow_elements follow_elements h
      obtain ⟨h3, h4⟩ := elements_inj hn l l' r r' h2
      exact ⟨by rw [h1, h3], h4⟩
    | .dict _ => exact absurd hm (by simp [Tree.mark])
  | .dict [], t', r, r', hr, hr', h => by
    obtain ⟨hm, h'⟩ := text_marks hn hr hr' h (fun x => by simp)
    match t' with
    | .num y => exact absurd rfl (h' y)
    | .inf b' => cases b' <;> exact absurd hm (by simp [Tree.mark])
    | .str s' => exact absurd hm (by simp [Tree.mark])
    | .list _ => exact absurd hm (by simp [Tree.mark])
    | .dict [] => simp only [text_nil, text_list, text_empty, text_dict, List.cons_append, List.nil_append, List.cons.injEq, true_and] at h; exact ⟨rfl, h⟩
    | .dict ((k, t) :: l) =>
      simp [text_empty, text_dict, quote] at h
  | .dict ((k, t) :: l), t', r, r', hr, hr', h => by
    obtain ⟨hm, h'⟩ := text_marks hn hr hr' h (fun x => by simp)
    match t' with
    | .num y => exact absurd rfl (h' y)
    | .inf b' => cases b' <;> exact absurd hm (by simp [Tree.mark])
    | .str s' => exact absurd hm (by simp [Tree.mark])
    | .list _ => exact absurd hm (by simp [Tree.mark])
    | .dict [] => simp [text_empty, text_dict, quote] at h
    | .dict ((k', t') :: l') =>
      simp only [text_nil, text_list, text_empty, text_dict, List.cons_append, List.cons.injEq, true_and, List.append_assoc] at h
      obtain ⟨h0, h⟩ := quote_inj h
      simp only [List.cons.injEq, true_and] at h
      obtain ⟨h1, h2⟩ := text_inj hn t t' _ _ follow_members follow_members h
      obtain ⟨h3, h4⟩ := members_inj hn l l' r r' h2
      exact ⟨by rw [h0, h1, h3], h4⟩

theorem elements_inj {num : ℚ → List Char} (hn : NumbersOk num) : ∀ (l l' : List Tree) (r r' : List Char), Tree.elements num l ++ r = Tree.elements num l' ++ r' → l = l' ∧ r = r'
  | [], [], r, r', h => by simp only [elements_nil, elements_cons, List.cons_append, List.nil_append, List.cons.injEq, true_and] at h; exact ⟨rfl, h⟩
  | [], t :: l, r, r', h => by simp [elements_nil, elements_cons] at h
  | t :: l, [], r, r', h => by simp [elements_nil, elements_cons] at h
  | t :: l, t' :: l', r, r', h => by
    simp only [elements_nil, elements_cons, List.cons_append, List.cons.injEq, true_and, List.append_assoc] at h
    obtain ⟨h1, h2⟩ := text_inj hn t t' _ _ follow_elements follow_elements h
    obtain ⟨h3, h4⟩ := elements_inj hn l l' r r' h2
    exact ⟨by rw [h1, h3], h4⟩

theorem members_inj {num : ℚ → List Char} (hn : NumbersOk num) : ∀ (l l' : List (List Char × Tree)) (r r' : List Char), Tree.members num l ++ r = Tree.members num l' ++ r' → l = l' ∧ r = r'
  | [], [], r, r', h => by simp only [members_nil, members_cons, List.cons_append, List.nil_append, List.cons.injEq, true_and] at h; exact ⟨rfl, h⟩
  | [], (k, t) :: l, r, r', h => by simp [members_nil, members_cons] at h
  | (k, t) :: l, [], r, r', h => by simp [members_nil, members_cons] at h
  | (k, t) :: l, (k', t') :: l', r, r', h => by
    simp only [members_nil, members_cons, List.cons_append, List.cons.injEq, true_and, List.append_assoc] at h
    obtain ⟨h0, h⟩ := quote_inj h
    simp only [List.cons.injEq, true_and] at h
    obtain ⟨h1, h2⟩ := text_inj hn t t' _ _ follow_members follow_members h
    obtain ⟨h3, h4⟩ := members_inj hn l l' r r' h2
    exact ⟨by rw [h0, h1, h3], h4⟩
end

/-- Values with the same text are the same. -/
theorem tree_of_text {num : ℚ → List Char} (hn : NumbersOk num) {t t' : Tree} (h : t.text num = t'.text num) : t = t' :=
  (text_inj hn t t' [] [] follow_nil follow_nil (by rw [h])).1

theorem lower_inj {x y : WithBot ℚ} (h : lower x = lower y) : x = y := by
  cases x <;> cases y <;> simp_all [lower]

theorem upper_inj {x y : WithTop ℚ} (h : upper x = upper y) : x = y := by
  cases x <;> cases y <;> simp_all [upper]

theorem nums_inj {l l' : List ℚ} (h : l.map Tree.num = l'.map Tree.num) : l = l' :=
  List.map_injective_iff.mpr (fun a b h => by injection h) h

theorem ofRC_inj {f g : RC} (h : ofRC f = ofRC g) : f = g := by
  simp only [ofRC, Tree.dict.injEq, List.cons.injEq, Prod.mk.injEq, Tree.list.injEq, true_and, and_true] at h
  obtain ⟨h1, h2, h3, h4⟩ := h
  cases f; cases g
  have h1 := nums_inj h1
  have h2 := nums_inj h2
  have h3 := lower_inj h3
  have h4 := upper_inj h4
  simp only at h1 h2 h3 h4
  rw [h1, h2, h3, h4]

theorem ofPL_inj {f g : PL} (h : ofPL f = ofPL g) : f = g := by
  simp only [ofPL, Tree.dict.injEq, List.cons.injEq, Prod.mk.injEq, Tree.list.injEq, true_and, and_true, Tree.num.injEq] at h
  obtain ⟨h1, h2, ⟨h3, h4⟩, h5, h6⟩ := h
  cases f; cases g
  have h1 := nums_inj h1
  have h2 := nums_inj h2
  have h3 := lower_inj h3
  have h4 := upper_inj h4
  simp only at h1 h2 h3 h4 h5 h6
  rw [h1, h2, h3, h4, h5, h6]

theorem digits_inj {i j : Nat} (h : Nat.toDigits 10 i = Nat.toDigits 10 j) : i = j := by
  rw [← Nat.ofDigitChars_ten_toDigits (n := i), h, Nat.ofDigitChars_ten_toDigits]

theorem hex_digit {n : Nat} (h : n < 16) : HexDigit (hex n) := by
  unfold HexDigit hex
  have key : ∀ n < 16, (Nat.digitChar n).isDigit ∨ Nat.digitChar n ∈ "abcdefABCDEF".toList := by decide
  exact key n h

theorem hex4_text {n : Nat} {k : List Char} (h : StringText k) : StringText (hex4 n ++ k) :=
  .code (hex_digit (Nat.mod_lt _ (by norm_num))) (hex_digit (Nat.mod_lt _ (by norm_num))) (hex_digit (Nat.mod_lt _ (by norm_num))) (hex_digit (Nat.mod_lt _ (by norm_num))) h

theorem body_text : ∀ s : List Char, ∃ k, body s = k ++ ['"'] ∧ StringText k
  | [] => ⟨[], rfl, .nil⟩
  | c :: s => by
    obtain ⟨k, h1, h2⟩ := body_text s
    refine ⟨escape c ++ k, by rw [body, h1, List.append_assoc], ?_⟩
    rcases escape_kind c with ⟨e, a1, a2, a3⟩ | ⟨x, e, ex, a1⟩ | ⟨e, a1⟩ | ⟨e, a1⟩ <;> rw [e]
    · exact .plain a3 a1 a2 h2
    · exact .short ex h2
    · exact hex4_text h2
    · rw [List.append_assoc]; exact hex4_text (hex4_text h2)

theorem quote_text (s : List Char) : ∃ k, quote s = '"' :: k ++ ['"'] ∧ StringText k := by
  obtain ⟨k, h1, h2⟩ := body_text s
  exact ⟨k, by rw [quote, h1]; rfl, h2⟩

mutual
/-- No infinite number. -/
def Tree.plain : Tree → Bool
  | .num _ => true
  | .inf _ => false
  | .str _ => true
  | .list l => Tree.plains l
  | .dict l => Tree.plainItems l
/-- No infinite number in a list. -/
def Tree.plains : List Tree → Bool
  | [] => true
  | t :: l => t.plain && Tree.plains l
/-- No infinite number in a dict. -/
def Tree.plainItems : List (List Char × Tree) → Bool
  | [] => true
  | (_, t) :: l => t.plain && Tree.plainItems l
end

theorem blank_nil : Blank [] := fun c h => by cases h
theorem blank_space : Blank [' '] := fun c h => by simp at h; exact Or.inl h

mutual
theorem text_value {num : ℚ → List Char} (hn : NumbersOk num) : ∀ t : Tree, t.plain = true → ValueText (t.text num)
  | .num x, _ => by rw [text_num]; exact .number (hn.number x)
  | .inf b, h => by simp [Tree.plain] at h
  | .str s, _ => by
    rw [text_str]
    obtain ⟨k, h1, h2⟩ := quote_text s
    rw [h1]; exact .string h2
  | .list [], _ => by rw [text_nil]; exact .emptyArray blank_nil
  | .list (t :: l), h => by
    simp only [Tree.plain, Tree.plains, Bool.and_eq_true] at h
    obtain ⟨e, h1, h2⟩ := elements_value hn l h.2 [] _ blank_nil (text_value hn t h.1)
    rw [List.nil_append] at h1
    rw [text_list, h1]
    exact .array h2
  | .dict [], _ => by rw [text_empty]; exact .emptyObject blank_nil
  | .dict ((k, t) :: l), h => by
    simp only [Tree.plain, Tree.plainItems, Bool.and_eq_true] at h
    obtain ⟨e, h1, h2⟩ := members_value hn l h.2 [] k _ blank_nil (text_value hn t h.1)
    rw [List.nil_append] at h1
    rw [text_dict, h1]
    exact .object h2

theorem elements_value {num : ℚ → List Char} (hn : NumbersOk num) : ∀ l : List Tree, Tree.plains l = true → ∀ w t : List Char, Blank w → ValueText t →
    ∃ e, w ++ (t ++ Tree.elements num l) = e ++ [']'] ∧ ElementsText e
  | [], _, w, t, hw, ht => ⟨w ++ t ++ [], by rw [elements_nil]; simp, .one hw ht blank_nil⟩
  | u :: l, h, w, t, hw, ht => by
    simp only [Tree.plains, Bool.and_eq_true] at h
    obtain ⟨e, h1, h2⟩ := elements_value hn l h.2 [' '] _ blank_space (text_value hn u h.1)
    refine ⟨w ++ t ++ [] ++ ',' :: e, ?_, .more hw ht blank_nil h2⟩
    rw [elements_cons]
    simp only [List.cons_append, List.nil_append] at h1
    rw [h1]
    simp

theorem members_value {num : ℚ → List Char} (hn : NumbersOk num) : ∀ l : List (List Char × Tree), Tree.plainItems l = true → ∀ w k t : List Char, Blank w → ValueText t →
    ∃ e, w ++ (quote k ++ ':' :: ' ' :: (t ++ Tree.members num l)) = e ++ ['}'] ∧ MembersText e
  | [], _, w, k, t, hw, ht => by
    obtain ⟨q, h1, h2⟩ := quote_text k
    refine ⟨_, ?_, .one hw h2 blank_nil blank_space ht blank_nil⟩
    rw [members_nil, h1]; simp
  | (k', u) :: l, h, w, k, t, hw, ht => by
    simp only [Tree.plainItems, Bool.and_eq_true] at h
    obtain ⟨q, q1, q2⟩ := quote_text k
    obtain ⟨e, h1, h2⟩ := members_value hn l h.2 [' '] k' _ blank_space (text_value hn u h.1)
    refine ⟨_, ?_, .more hw q2 blank_nil blank_space ht blank_nil h2⟩
    rw [members_cons]
    simp only [List.cons_append, List.nil_append] at h1
    rw [h1, q1]
    simp
end

theorem plains_iff : ∀ l : List Tree, Tree.plains l = true ↔ ∀ t ∈ l, t.plain = true
  | [] => by simp [Tree.plains]
  | t :: l => by simp [Tree.plains, plains_iff l]

theorem plainItems_iff : ∀ l : List (List Char × Tree), Tree.plainItems l = true ↔ ∀ t ∈ l, t.2.plain = true
  | [] => by simp [Tree.plainItems]
  | (k, t) :: l => by simp [Tree.plainItems, plainItems_iff l]

theorem lower_plain (x : WithBot ℚ) : (lower x).plain = true := by cases x <;> rfl
theorem upper_plain (x : WithTop ℚ) : (upper x).plain = true := by cases x <;> rfl

theorem nums_plain (l : List ℚ) : Tree.plains (l.map Tree.num) = true := by
  rw [plains_iff]; intro t ht; rw [List.mem_map] at ht; obtain ⟨x, _, rfl⟩ := ht; rfl

theorem ofRC_plain (f : RC) : (ofRC f).plain = true := by
  simp [ofRC, Tree.plain, Tree.plainItems, Tree.plains, nums_plain, lower_plain, upper_plain]

theorem ofPL_plain (f : PL) : (ofPL f).plain = true := by
  simp [ofPL, Tree.plain, Tree.plainItems, Tree.plains, nums_plain, lower_plain, upper_plain]

/-- The tree of a dict of functions. -/
def functionsTree (l : List (Nat × RC)) : Tree := .dict (l.map (fun q => (Nat.toDigits 10 q.1, ofRC q.2)))

theorem functions_items : ∀ l : List (Nat × RC), Val.items (l.map (fun q => (Key.number q.1, Val.step q.2))) = .ok (l.map (fun q => (Nat.toDigits 10 q.1, ofRC q.2)))
  | [] => rfl
  | q :: l => by
    simp only [List.map_cons, Val.items, functions_items l, Val.tree, ok_bind, Key.text]
    rfl

theorem functions_tree (l : List (Nat × RC)) : Val.tree (.dict (l.map (fun q => (Key.number q.1, Val.step q.2)))) = .ok (functionsTree l) := by
  rw [Val.tree, functions_items, ok_bind]; rfl

theorem trees_map {α : Type} {f : α → Val} {g : α → Tree} (h : ∀ a, (f a).tree = .ok (g a)) : ∀ l : List α, Val.trees (l.map f) = .ok (l.map g)
  | [] => rfl
  | a :: l => by
    simp only [List.map_cons, Val.trees, h a, trees_map h l, ok_bind]
    rfl

theorem functionsTree_inj {l l' : List (Nat × RC)} (h : functionsTree l = functionsTree l') : l = l' := by
  unfold functionsTree at h
  injection h with h
  refine List.map_injective_iff.mpr (fun a b h => ?_) h
  simp only [Prod.mk.injEq] at h
  exact Prod.ext (digits_inj h.1) (ofRC_inj h.2)

theorem functionsTree_plain (l : List (Nat × RC)) : (functionsTree l).plain = true := by
  simp only [functionsTree, Tree.plain]
  rw [plainItems_iff]
  intro t ht
  rw [List.mem_map] at ht
  obtain ⟨q, _, rfl⟩ := ht
  exact ofRC_plain q.2

/-- The tree of a picture. -/
def pictureTree (items : FRC → List (Nat × RC)) (m : Nat) (p : Picture (List Char)) : Tree :=
  .dict [
    ("network".toList, .dict [
      ("nodes".toList, .list (p.nodes.map (fun v => .dict [("id".toList, .num v.1), ("x".toList, .num v.2.1), ("y".toList, .num v.2.2)]))),
      ("edges".toList, .list (p.edges.map (fun e => .dict [("id".toList, .num e.1), ("from".toList, .num e.2.1), ("to".toList, .num e.2.2.1),
        ("capacity".toList, .num e.2.2.2.1), ("transitTime".toList, .num e.2.2.2.2)]))),
      ("commodities".toList, .list (p.commodities.map (fun c => .dict [("id".toList, .num c.1), ("color".toList, .str c.2)])))]),
    ("flow".toList, .dict [
      ("inflow".toList, .list ((List.range m).map (fun e => functionsTree (items (p.flow.inflow e))))),
      ("outflow".toList, .list ((List.range m).map (fun e => functionsTree (items (p.flow.outflow e))))),
      ("queues".toList, .list ((List.range m).map (fun e => ofPL (p.flow.queues e))))])]

theorem picture_tree (items : FRC → List (Nat × RC)) (m : Nat) (p : Picture (List Char)) : (pictureVal items m p).tree = .ok (pictureTree items m p) := by
  have e1 := trees_map (f := fun v : Nat × ℚ × ℚ => Val.dict [(.name "id".toList, .num v.1), (.name "x".toList, .num v.2.1), (.name "y".toList, .num v.2.2)])
    (g := fun v => Tree.dict [("id".toList, .num v.1), ("x".toList, .num v.2.1), ("y".toList, .num v.2.2)]) (fun a => rfl) p.nodes
  have e2 := trees_map (f := fun e : Nat × Nat × Nat × ℚ × ℚ => Val.dict [(.name "id".toList, .num e.1), (.name "from".toList, .num e.2.1), (.name "to".toList, .num e.2.2.1),
        (.name "capacity".toList, .num e.2.2.2.1), (.name "transitTime".toList, .num e.2.2.2.2)])
    (g := fun e => Tree.dict [("id".toList, .num e.1), ("from".toList, .num e.2.1), ("to".toList, .num e.2.2.1),
        ("capacity".toList, .num e.2.2.2.1), ("transitTime".toList, .num e.2.2.2.2)]) (fun a => rfl) p.edges
  have e3 := trees_map (f := fun c : Nat × List Char => Val.dict [(.name "id".toList, .num c.1), (.name "color".toList, .str c.2)])
    (g := fun c => Tree.dict [("id".toList, .num c.1), ("color".toList, .str c.2)]) (fun a => rfl) p.commodities
  have e4 := trees_map (f := fun e => Val.dict ((items (p.flow.inflow e)).map (fun q => (Key.number q.1, Val.step q.2)))) (fun e => functions_tree _) (List.range m)
  have e5 := trees_map (f := fun e => Val.dict ((items (p.flow.outflow e)).map (fun q => (Key.number q.1, Val.step q.2)))) (fun e => functions_tree _) (List.range m)
  have e6 := trees_map (f := fun e => Val.linear (p.flow.queues e)) (g := fun e => ofPL (p.flow.queues e)) (fun e => rfl) (List.range m)
  unfold pictureVal
  simp only [Val.tree, Val.items, e1, e2, e3, e4, e5, e6, ok_bind, Key.text]
  rfl

theorem pictureTree_plain (items : FRC → List (Nat × RC)) (m : Nat) (p : Picture (List Char)) : (pictureTree items m p).plain = true := by
  unfold pictureTree
  simp only [Tree.plain, Tree.plainItems, Bool.and_eq_true, plains_iff, List.mem_map, and_true]
  refine ⟨⟨?_, ?_, ?_⟩, ?_, ?_, ?_⟩ <;> rintro t ⟨a, _, rfl⟩
  · rfl
  · rfl
  · rfl
  · exact functionsTree_plain _
  · exact functionsTree_plain _
  · exact ofPL_plain _

theorem range_map_inj {α : Type} {f g : Nat → α} {m m' : Nat} (h : (List.range m).map f = (List.range m').map g) : m = m' ∧ ∀ e < m, f e = g e := by
  have hl := congrArg List.length h
  simp only [List.length_map, List.length_range] at hl
  subst hl
  refine ⟨rfl, fun e he => ?_⟩
  have := congrArg (fun l => l[e]?) h
  simpa [List.getElem?_map, List.getElem?_range he] using this

theorem pictureTree_inj {items : FRC → List (Nat × RC)} {m m' : Nat} {p p' : Picture (List Char)} (h : pictureTree items m p = pictureTree items m' p') :
    p.nodes = p'.nodes ∧ p.edges = p'.edges ∧ p.commodities = p'.commodities ∧ m = m' ∧ (∀ e < m, items (p.flow.inflow e) = items (p'.flow.inflow e)) ∧
    (∀ e < m, items (p.flow.outflow e) = items (p'.flow.outflow e)) ∧ ∀ e < m, p.flow.queues e = p'.flow.queues e := by
  simp only [pictureTree, Tree.dict.injEq, List.cons.injEq, Prod.mk.injEq, Tree.list.injEq, true_and, and_true] at h
  obtain ⟨⟨h1, h2, h3⟩, h4, h5, h6⟩ := h
  obtain ⟨rfl, _⟩ := range_map_inj h4
  refine ⟨?_, ?_, ?_, rfl, fun e he => functionsTree_inj ((range_map_inj h4).2 e he), fun e he => functionsTree_inj ((range_map_inj h5).2 e he), fun e he => ofPL_inj ((range_map_inj h6).2 e he)⟩
  · refine List.map_injective_iff.mpr (fun a b h => ?_) h1
    simp only [Tree.dict.injEq, List.cons.injEq, Prod.mk.injEq, true_and, and_true, Tree.num.injEq, Nat.cast_inj] at h
    exact Prod.ext h.1 (Prod.ext h.2.1 h.2.2)
  · refine List.map_injective_iff.mpr (fun a b h => ?_) h2
    simp only [Tree.dict.injEq, List.cons.injEq, Prod.mk.injEq, true_and, and_true, Tree.num.injEq, Nat.cast_inj] at h
    exact Prod.ext h.1 (Prod.ext h.2.1 (Prod.ext h.2.2.1 (Prod.ext h.2.2.2.1 h.2.2.2.2)))
  · refine List.map_injective_iff.mpr (fun a b h => ?_) h3
    simp only [Tree.dict.injEq, List.cons.injEq, Prod.mk.injEq, true_and, and_true, Tree.num.injEq, Nat.cast_inj, Tree.str.injEq] at h
    exact Prod.ext h.1 h.2

end Verif.Json
