import Verif.Spec.Importer
import Verif.Proofs.PredictML

/-! Lemmas on `str.split` and the tables of trips. -/

namespace Verif.Importer
open Verif Verif.Spec

theorem splitLoop_step (p acc s : List Char) (c : Char) :
    splitLoop p 0 acc (c :: s) = if p.isPrefixOf (c :: s) then acc :: splitLoop p (p.length - 1) [] s else splitLoop p 0 (acc ++ [c]) s := rfl

theorem splitLoop_skip (p : List Char) : ∀ (q acc s : List Char), splitLoop p q.length acc (q ++ s) = splitLoop p 0 acc s := by
  intro q
  induction q with
  | nil => intro acc s; rfl
  | cons c q ih => intro acc s; exact ih acc s

theorem splitLoop_end {c0 : Char} {q : List Char} : ∀ (a acc : List Char), ¬ (c0 :: q) <:+: a → splitLoop (c0 :: q) 0 acc a = [acc ++ a] := by
  intro a
  induction a with
  | nil => intro acc _; simp [splitLoop]
  | cons x a ih =>
    intro acc h
    rw [splitLoop_step, if_neg (fun hp => h (List.isPrefixOf_iff_prefix.mp hp).isInfix), ih _ (fun hi => h (hi.trans (List.suffix_cons x a).isInfix))]
    simp

theorem splitLoop_sep {c0 : Char} {q : List Char} (h0 : c0 ∉ q) (s : List Char) : ∀ (a acc : List Char), ¬ (c0 :: q) <:+: a →
    splitLoop (c0 :: q) 0 acc (a ++ ((c0 :: q) ++ s)) = (acc ++ a) :: splitLoop (c0 :: q) 0 [] s := by
  intro a
  induction a with
  | nil =>
    intro acc _
    rw [List.nil_append, List.append_nil, List.cons_append, splitLoop_step, if_pos (List.isPrefixOf_iff_prefix.mpr ⟨s, by simp⟩), List.length_cons, Nat.add_sub_cancel, splitLoop_skip]
  | cons x a ih =>
    intro acc h
    have hnp : ¬ (c0 :: q) <+: (x :: a) ++ ((c0 :: q) ++ s) := by
      rintro ⟨u, hu⟩
      rcases List.append_eq_append_iff.mp hu with ⟨w, w1, _⟩ | ⟨w, w1, w2⟩
      · exact h ⟨[], w, by rw [w1]; rfl⟩
      · cases w with
        | nil => exact h ⟨[], [], by simpa using w1⟩
        | cons y w =>
          simp only [List.cons_append, List.cons.injEq] at w1 w2
          obtain ⟨rfl, _⟩ := w2
          exact h0 (by rw [w1.2]; simp)
    rw [List.cons_append, splitLoop_step, if_neg (fun hp => hnp (by rw [List.cons_append]; exact List.isPrefixOf_iff_prefix.mp hp)), ih _ (fun hi => h (hi.trans (List.suffix_cons x a).isInfix))]
    simp

/-- Parts joined by a separator that occurs in none of them are found again. -/
theorem split_join {c0 : Char} {q : List Char} (h0 : c0 ∉ q) : ∀ (bs : List (List Char)) (a acc : List Char), ¬ (c0 :: q) <:+: a → (∀ b ∈ bs, ¬ (c0 :: q) <:+: b) →
    splitLoop (c0 :: q) 0 acc (a ++ bs.flatMap (fun b => (c0 :: q) ++ b)) = (acc ++ a) :: bs := by
  intro bs
  induction bs with
  | nil => intro a acc ha _; rw [List.flatMap_nil, List.append_nil, splitLoop_end a acc ha]
  | cons b bs ih =>
    intro a acc ha hb
    rw [List.flatMap_cons, List.append_assoc, splitLoop_sep h0 _ a acc ha, ih b [] (hb b (by simp)) (fun b hb' => hb b (by simp [hb']))]
    simp

theorem not_infix {c0 : Char} {q a : List Char} (h : c0 ∉ a) : ¬ (c0 :: q) <:+: a := fun hi => h (hi.subset (by simp))

theorem split_one {c : Char} {a : List Char} {bs : List (List Char)} (ha : c ∉ a) (hb : ∀ b ∈ bs, c ∉ b) : split [c] (a ++ bs.flatMap (fun b => c :: b)) = a :: bs := by
  have := split_join (c0 := c) (q := []) (by simp) bs a [] (not_infix ha) (fun b h => not_infix (hb b h))
  simpa [split] using this

variable {readInt : List Char → Option Nat} {readFloat : List Char → Option ℚ}

theorem readAs_some {α : Type} {read : List Char → Option α} {s : List Char} {x : α} (h : read s = some x) : readAs read s = .ok x := by
  unfold readAs; rw [h]

theorem readLine_ok {origin : Nat} {i : TripItem} {l : List (Nat × Nat × ℚ)} (h : ItemReads readInt readFloat origin i l) : readLine readInt readFloat origin i.text = .ok l := by
  cases i with
  | blank s =>
    obtain ⟨_, h2, rfl⟩ := h
    unfold readLine
    rw [if_pos (show blank (TripItem.blank s).text = true from List.all_eq_true.mpr h2)]
  | trip d x =>
    obtain ⟨h1, h2, v, y, h3, h4, rfl⟩ := h
    unfold readLine
    have hs : split [':'] (d ++ ':' :: x) = [d, x] := by
      have := split_one (c := ':') (a := d) (bs := [x]) h1.2.2.1 (by simpa using h2.2.2.1)
      simpa using this
    have hb : blank (TripItem.trip d x).text = false := by
      unfold blank
      rw [List.all_eq_false]
      exact ⟨':', by simp [TripItem.text], by decide⟩
    rw [hb]
    simp only [TripItem.text, Bool.false_eq_true, if_false]
    rw [hs]
    show (do
      let destination ← readAs readInt d
      let demand ← readAs readFloat x
      pure [(origin, destination, demand)]) = _
    rw [readAs_some h3, ok_bind, readAs_some h4, ok_bind]; rfl

theorem replace_id {s : List Char} (h : ';' ∉ s) : replaceSemicolons s = s := by
  unfold replaceSemicolons
  refine (List.map_congr_left (g := id) (fun c hc => ?_)).trans (List.map_id s)
  exact if_neg (fun e => h (by rw [← e]; exact hc))

theorem item_plain {origin : Nat} {i : TripItem} {l : List (Nat × Nat × ℚ)} (h : ItemReads readInt readFloat origin i l) : ';' ∉ i.text ∧ '\n' ∉ i.text ∧ 'O' ∉ i.text := by
  cases i with
  | blank s => exact ⟨h.1.1, h.1.2.1, h.1.2.2.2⟩
  | trip d x =>
    obtain ⟨h1, h2, _⟩ := h
    simp only [TripItem.text, List.mem_append, List.mem_cons, not_or]
    exact ⟨⟨h1.1, by decide, h2.1⟩, ⟨h1.2.1, by decide, h2.2.1⟩, ⟨h1.2.2.2, by decide, h2.2.2.2⟩⟩

theorem forall₂_mem {α β : Type} {R : α → β → Prop} {l : List α} {l' : List β} (h : List.Forall₂ R l l') : ∀ a ∈ l, ∃ b, R a b := by
  induction h with
  | nil => simp
  | cons h _ ih =>
    intro a ha
    rcases List.mem_cons.mp ha with rfl | ha
    · exact ⟨_, h⟩
    · exact ih a ha

theorem mapPy_forall₂ {α β : Type} {f : α → Py β} {l : List α} {l' : List β} (h : List.Forall₂ (fun a b => f a = .ok b) l l') : Builder.mapPy f l = .ok l' := by
  induction h with
  | nil => rfl
  | cons h _ ih =>
    unfold Builder.mapPy
    rw [h, ok_bind, ih, ok_bind]; rfl

/-- The text of a block after `Origin`. -/
def bodyOf (b : TripBlock) : List Char := b.origin ++ b.items.flatMap (fun i => i.1 :: i.2.text)

theorem readBlock_ok {b : TripBlock} {ls : List (List (Nat × Nat × ℚ))} (h : BlockReads readInt readFloat b ls) : readBlock readInt readFloat (bodyOf b) = .ok ls.flatten := by
  obtain ⟨h1, h2, o, h3, h4⟩ := h
  have hm := forall₂_mem h4
  have hr : replaceSemicolons (bodyOf b) = b.origin ++ (b.items.map (fun i => i.2.text)).flatMap (fun t => '\n' :: t) := by
    unfold bodyOf replaceSemicolons
    rw [List.map_append]
    congr 1
    · exact replace_id h1.1
    · rw [List.map_flatMap, List.flatMap_map]
      refine List.flatMap_congr (fun i hi => ?_)
      obtain ⟨l, hl⟩ := hm i hi
      rw [List.map_cons]
      congr 1
      · rcases h2 i hi with e | e <;> rw [e] <;> decide
      · exact replace_id (item_plain hl).1
  have hs : split ['\n'] (replaceSemicolons (bodyOf b)) = b.origin :: b.items.map (fun i => i.2.text) := by
    rw [hr]
    refine split_one h1.2.1 (fun t ht => ?_)
    obtain ⟨i, hi, rfl⟩ := List.mem_map.mp ht
    obtain ⟨l, hl⟩ := hm i hi
    exact (item_plain hl).2.1
  unfold readBlock
  rw [hs]
  simp only [List.drop_one, List.tail_cons]
  rw [show rd (b.origin :: b.items.map (fun i => i.2.text)) 0 = .ok b.origin from rfl, ok_bind, readAs_some h3, ok_bind,
    mapPy_forall₂ (l' := ls) (by
      rw [List.forall₂_map_left_iff]
      exact h4.imp (fun _ _ h => readLine_ok h)), ok_bind]
  rfl

theorem readTrips_ok {header : List Char} (hh : ¬ "Origin".toList <:+: header) {blocks : List TripBlock} {ls : List (List (List (Nat × Nat × ℚ)))}
    (h : List.Forall₂ (BlockReads readInt readFloat) blocks ls) : readTrips readInt readFloat (tripFile header blocks) = .ok ((ls.map List.flatten).flatten) := by
  have hm := forall₂_mem h
  have hf : tripFile header blocks = header ++ (blocks.map bodyOf).flatMap (fun b => ['O', 'r', 'i', 'g', 'i', 'n'] ++ b) := by
    unfold tripFile
    rw [List.flatMap_map]
    congr 1
  have hs : split ['O', 'r', 'i', 'g', 'i', 'n'] (tripFile header blocks) = header :: blocks.map bodyOf := by
    rw [hf]
    have := split_join (c0 := 'O') (q := ['r', 'i', 'g', 'i', 'n']) (by decide) (blocks.map bodyOf) header [] hh (fun t ht => by
      obtain ⟨b, hb, rfl⟩ := List.mem_map.mp ht
      obtain ⟨l, h1, h2, o, h3, h4⟩ := hm b hb
      refine not_infix (fun ho => ?_)
      unfold bodyOf at ho
      rcases List.mem_append.mp ho with ho | ho
      · exact h1.2.2.2 ho
      · obtain ⟨i, hi, hoi⟩ := List.mem_flatMap.mp ho
        obtain ⟨l, hl⟩ := forall₂_mem h4 i hi
        rcases List.mem_cons.mp hoi with e | e
        · rcases h2 i hi with e' | e' <;> rw [e'] at e <;> exact absurd e (by decide)
        · exact (item_plain hl).2.2 e)
    simpa [split] using this
  unfold readTrips
  rw [hs]
  simp only [List.drop_one, List.tail_cons]
  rw [mapPy_forall₂ (l' := ls.map List.flatten) (by
    rw [List.forall₂_map_left_iff, List.forall₂_map_right_iff]
    exact h.imp (fun _ _ h => readBlock_ok h)), ok_bind]
  rfl

end Verif.Importer
