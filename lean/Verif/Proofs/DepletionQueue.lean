import Verif.Spec.DepletionQueue
import Verif.Proofs.DepQ

namespace Verif
namespace DepQ
open Spec

def gd (P : Plan) : Nat → Option EVal := fun e => (P e).map (fun p => ev p.1)
def gc (P : Plan) : Nat → Option EVal := fun e => (P e).bind (fun p => p.2.map (fun c => ev c.1))

structure GRep (q : DepQ) (P : Plan) : Prop where
  dep : q.depletions.Rep (gd P)
  chg : q.changeTimes.Rep (gc P)
  out : ∀ e, q.newOutflow e = (P e).bind (fun p => p.2.map Prod.snd)

variable {q : DepQ} {P : Plan}

theorem grep_empty : GRep DepQ.empty (fun _ => none) := ⟨Heap.rep_empty, Heap.rep_empty, fun _ => rfl⟩

theorem gd_upd (P : Plan) (e : Nat) (x) (j : Nat) : gd (Function.update P e x) j = if j = e then x.map (fun p => ev p.1) else gd P j := by
  unfold gd Function.update; split <;> rename_i h
  · subst h; rfl
  · rfl
theorem gc_upd (P : Plan) (e : Nat) (x) (j : Nat) :
    gc (Function.update P e x) j = if j = e then x.bind (fun p => p.2.map (fun c => ev c.1)) else gc P j := by
  unfold gc Function.update; split <;> rename_i h
  · subst h; rfl
  · rfl
theorem gout_upd (h : GRep q P) (e : Nat) (x) (d : Nat → Option (Rates × ℚ))
    (hd : ∀ j, d j = if j = e then x.bind (fun p => p.2.map Prod.snd) else q.newOutflow j) :
    ∀ j, d j = (Function.update P e x j).bind (fun p => p.2.map Prod.snd) := by
  intro j
  rw [hd j]
  unfold Function.update
  split <;> rename_i hj
  · subst hj; rfl
  · exact h.out j

theorem gc_none (e : Nat) : gc P e = none ↔ (P e).bind (fun p => p.2.map Prod.snd) = none := by
  unfold gc
  cases P e with
  | none => simp
  | some p => simp

theorem gset (h : GRep q P) (e : Nat) (D : ℚ) (x : Option (ℚ × (Rates × ℚ))) :
    ∃ q', q.set e D x = .ok q' ∧ GRep q' (Function.update P e (some (D, x))) := by
  obtain ⟨h1, e1, r1⟩ := h.dep.set e (ev D)
  have r1' : h1.Rep (gd (Function.update P e (some (D, x)))) := r1.congr (fun j => by rw [gd_upd]; rfl)
  unfold DepQ.set
  rw [e1, ok_bind]
  cases x with
  | some v =>
    obtain ⟨h2, e2, r2⟩ := h.chg.set e (ev v.1)
    simp only
    rw [e2, ok_bind]
    refine ⟨_, rfl, r1', r2.congr (fun j => by rw [gc_upd]; rfl), gout_upd h e _ _ (fun j => ?_)⟩
    unfold setAt; rfl
  | none =>
    simp only
    rw [h.chg.has]
    cases hc : gc P e with
    | none =>
      refine ⟨_, rfl, r1', h.chg.congr (fun j => ?_), gout_upd h e _ _ (fun j => ?_)⟩
      · rw [gc_upd]; split
        · rename_i hj; subst hj; rw [hc]; rfl
        · rfl
      · split
        · rename_i hj; subst hj; rw [h.out, (gc_none j).mp hc]; rfl
        · rfl
    | some k =>
      obtain ⟨h2, e2, r2⟩ := h.chg.remove (x := e) (by rw [hc]; simp)
      simp only [Option.isSome_some, if_true]
      rw [e2, ok_bind]
      have hne : q.newOutflow e ≠ none := by
        rw [h.out]; intro hn; rw [(gc_none e).mpr hn] at hc; cases hc
      obtain ⟨v, hv⟩ := Option.ne_none_iff_exists'.mp hne
      unfold popOutflow
      rw [hv]
      simp only [ok_bind]
      refine ⟨_, rfl, r1', r2.congr (fun j => ?_), gout_upd h e _ _ (fun j => ?_)⟩
      · rw [gc_upd]; rfl
      · unfold setAt; rfl

theorem gremove (h : GRep q P) {e : Nat} (he : P e ≠ none) :
    ∃ q', q.remove e = .ok q' ∧ GRep q' (Function.update P e none) := by
  obtain ⟨p, hp⟩ := Option.ne_none_iff_exists'.mp he
  obtain ⟨h1, e1, r1⟩ := h.dep.remove (x := e) (by unfold gd; rw [hp]; simp)
  have r1' : h1.Rep (gd (Function.update P e none)) := r1.congr (fun j => by rw [gd_upd]; rfl)
  unfold DepQ.remove
  rw [e1, ok_bind, h.chg.has]
  cases hc : gc P e with
  | none =>
    refine ⟨_, rfl, r1', h.chg.congr (fun j => ?_), gout_upd h e _ _ (fun j => ?_)⟩
    · rw [gc_upd]; split
      · rename_i hj; subst hj; rw [hc]; rfl
      · rfl
    · split
      · rename_i hj; subst hj; rw [h.out, (gc_none j).mp hc]; rfl
      · rfl
  | some k =>
    obtain ⟨h2, e2, r2⟩ := h.chg.remove (x := e) (by rw [hc]; simp)
    simp only [Option.isSome_some, if_true]
    rw [e2, ok_bind]
    have hne : q.newOutflow e ≠ none := by
      rw [h.out]; intro hn; rw [(gc_none e).mpr hn] at hc; cases hc
    obtain ⟨v, hv⟩ := Option.ne_none_iff_exists'.mp hne
    unfold popOutflow
    rw [hv]
    simp only [ok_bind]
    refine ⟨_, rfl, r1', r2.congr (fun j => ?_), gout_upd h e _ _ (fun j => ?_)⟩
    · rw [gc_upd]; rfl
    · unfold setAt; rfl

theorem gremove_none (h : GRep q P) {e : Nat} (he : P e = none) : ∃ r, q.remove e = .error r := by
  have h1 : q.depletions.has e = false := by rw [h.dep.has]; unfold gd; rw [he]; rfl
  unfold DepQ.remove Heap.remove
  rw [h1]
  exact ⟨_, rfl⟩

theorem gpop (h : GRep q P) :
    (q.depletions.len = 0 ∧ (∀ e, P e = none) ∧ ∃ r, q.popByDepletion = .error r) ∨
    ∃ e D x q', P e = some (D, x) ∧ P.From D ∧ q.popByDepletion = .ok (e, D, x, q') ∧ GRep q' (Function.update P e none) ∧
      q'.depletions.len + 1 = q.depletions.len := by
  rcases h.dep.cases with ⟨hd, hn⟩ | ⟨h', e, k, hd, hk, hi, hpop, hM, hmin, hr, hlen⟩
  · left
    refine ⟨by unfold Heap.len; rw [hd]; rfl, fun e => ?_, ?_⟩
    · have := hn e
      unfold gd at this
      simpa using this
    · unfold popByDepletion Heap.minKey
      rw [hd]
      exact ⟨_, rfl⟩
  · right
    unfold gd at hM
    cases hp : P e with
    | none => rw [hp] at hM; cases hM
    | some p =>
      obtain ⟨D, x⟩ := p
      rw [hp] at hM
      simp only [Option.map_some, Option.some.injEq] at hM
      subst hM
      have hpos : q.depletions.data.length > 0 := List.length_pos_iff.mpr hd
      have hmk : q.depletions.minKey = .ok (ev D) := by
        unfold Heap.minKey
        rw [if_neg (by omega), rd_lt _ _ hpos, ok_bind]
        rw [List.getElem?_eq_getElem hpos] at hk
        simp at hk
        rw [hk]; rfl
      have hmin' : P.From D := by
        intro j D' x' hj
        have := hmin j (ev D') (by unfold gd; rw [hj]; rfl)
        exact ev_le.mp this
      have r1' : h'.Rep (gd (Function.update P e none)) := hr.congr (fun j => by rw [gd_upd]; rfl)
      have hcx : gc P e = x.map (fun c => ev c.1) := by unfold gc; rw [hp]; rfl
      have hox : q.newOutflow e = x.map Prod.snd := by rw [h.out, hp]; rfl
      cases x with
      | none =>
        refine ⟨e, D, none, ⟨h', q.changeTimes, q.newOutflow⟩, hp, hmin', ?_, ⟨r1', h.chg.congr (fun j => ?_), gout_upd h e _ _ (fun j => ?_)⟩, hlen⟩
        · unfold popByDepletion
          rw [hmk, ok_bind, ev_toRat, ok_bind, hpop, ok_bind]
          simp only
          rw [h.chg.has, hcx]; rfl
        · rw [gc_upd]; split
          · rename_i hj; subst hj; rw [hcx]; rfl
          · rfl
        · split
          · rename_i hj; subst hj; rw [hox]; rfl
          · rfl
      | some v =>
        obtain ⟨h2, e2, r2⟩ := h.chg.remove (x := e) (by rw [hcx]; simp)
        refine ⟨e, D, some v, ⟨h', h2, setAt q.newOutflow e none⟩, hp, hmin', ?_, ⟨r1', r2.congr (fun j => ?_), gout_upd h e _ _ (fun j => ?_)⟩, hlen⟩
        · unfold popByDepletion
          rw [hmk, ok_bind, ev_toRat, ok_bind, hpop, ok_bind]
          simp only
          rw [h.chg.has, hcx]
          simp only [Option.map_some, Option.isSome_some, if_true]
          rw [h.chg.keyOf, ok_bind, hcx]
          simp only [Option.map_some]
          rw [ev_toRat, ok_bind, e2, ok_bind]
          unfold popOutflow
          rw [hox]
          rfl
        · rw [gc_upd]; rfl
        · unfold setAt; rfl

theorem glen : ∀ (n : Nat) {q : DepQ} {P : Plan}, GRep q P → q.depletions.len = n →
    ∃ l : List Nat, l.Nodup ∧ (∀ e, e ∈ l ↔ P e ≠ none) ∧ l.length = n := by
  intro n
  induction n with
  | zero =>
    intro q P h hl
    rcases gpop h with ⟨_, hn, _⟩ | ⟨e, D, x, q', _, _, _, _, hc⟩
    · exact ⟨[], List.nodup_nil, fun e => by simp [hn e], rfl⟩
    · omega
  | succ n ih =>
    intro q P h hl
    rcases gpop h with ⟨h0, _, _⟩ | ⟨e, D, x, q', hP, _, _, hr, hc⟩
    · omega
    · obtain ⟨l, a, b, c⟩ := ih hr (by omega)
      refine ⟨e :: l, ?_, ?_, by simp [c]⟩
      · rw [List.nodup_cons]
        refine ⟨fun hm => ?_, a⟩
        have := (b e).mp hm
        simp at this
      · intro j
        rw [List.mem_cons]
        by_cases hj : j = e
        · subst hj; simp [hP]
        · rw [b j, Function.update_of_ne hj]
          simp [hj]

theorem gsmallest {h : Heap EVal Nat} {M : Nat → Option EVal} (hr : h.Rep M) {S : ℚ → Prop}
    (h1 : ∀ x, S x ↔ ∃ e, M e = some (ev x)) (h2 : ∀ e k, M e = some k → ∃ x, k = ev x) :
    ∃ k, h.minKey = .ok k ∧ Smallest S k := by
  obtain ⟨k, hk, hmin, hcase⟩ := hr.minKey
  refine ⟨k, hk, ?_⟩
  rcases hcase with ⟨e, he⟩ | ⟨h3, _, hn⟩
  · obtain ⟨x, rfl⟩ := h2 e k he
    refine Or.inl ⟨x, (h1 x).mpr ⟨e, he⟩, fun y hy => ?_, rfl⟩
    obtain ⟨j, hj⟩ := (h1 y).mp hy
    exact ev_le.mp (hmin j _ hj)
  · refine Or.inr ⟨fun x hx => ?_, h3⟩
    obtain ⟨j, hj⟩ := (h1 x).mp hx
    rw [hn] at hj; cases hj

theorem gcall (h : GRep q P) (c : Call) : ∃ P', DepCall P c (q.call c).1 P' ∧ GRep (q.call c).2 P' := by
  cases c with
  | set e D x =>
    obtain ⟨q', a, b⟩ := gset h e D x
    have hq : q.call (.set e D x) = (.nothing, q') := by simp only [call, a]
    rw [hq]
    exact ⟨_, ⟨rfl, rfl⟩, b⟩
  | remove e =>
    by_cases he : P e = none
    · obtain ⟨r, hr⟩ := gremove_none h he
      have hq : q.call (.remove e) = (.raised, q) := by simp only [call, hr]
      rw [hq]
      exact ⟨P, Or.inr ⟨he, rfl, rfl⟩, h⟩
    · obtain ⟨q', a, b⟩ := gremove h he
      have hq : q.call (.remove e) = (.nothing, q') := by simp only [call, a]
      rw [hq]
      exact ⟨_, Or.inl ⟨he, rfl, rfl⟩, b⟩
  | pop =>
    rcases gpop h with ⟨_, hn, r, hr⟩ | ⟨e, D, x, q', hP, hf, hpop, hr, _⟩
    · refine ⟨P, ?_, ?_⟩
      · unfold call; rw [hr]; exact Or.inr ⟨hn, rfl, rfl⟩
      · unfold call; rw [hr]; exact h
    · refine ⟨Function.update P e none, ?_, ?_⟩
      · unfold call; rw [hpop]; exact Or.inl ⟨e, D, x, hP, hf, rfl, rfl⟩
      · unfold call; rw [hpop]; exact hr
  | contains e =>
    refine ⟨P, ⟨?_, rfl⟩, h⟩
    show Answer.yes (q.depletions.has e) = _
    rw [h.dep.has]; unfold gd; cases P e <;> rfl
  | size =>
    obtain ⟨l, a, b, c⟩ := glen _ h rfl
    refine ⟨P, ⟨⟨l, a, b, ?_⟩, rfl⟩, h⟩
    show Answer.number q.depletions.len = _
    rw [c]
  | minDepletion =>
    obtain ⟨k, hk, hs⟩ := gsmallest (S := fun D => ∃ e c, P e = some (D, c)) h.dep (fun x => by
      constructor
      · rintro ⟨e, c, he⟩; exact ⟨e, by unfold gd; rw [he]; rfl⟩
      · rintro ⟨e, he⟩
        unfold gd at he
        cases hp : P e with
        | none => rw [hp] at he; cases he
        | some p =>
          rw [hp] at he
          simp only [Option.map_some, Option.some.injEq] at he
          exact ⟨e, p.2, by rw [hp, ← ev_inj he]⟩) (fun e k he => by
        unfold gd at he
        cases hp : P e with
        | none => rw [hp] at he; cases he
        | some p => rw [hp] at he; simp only [Option.map_some, Option.some.injEq] at he; exact ⟨p.1, he.symm⟩)
    have hq : q.call .minDepletion = (.key k, q) := by simp only [call, DepQ.minDepletion, hk]
    rw [hq]
    exact ⟨P, ⟨⟨k, hs, rfl⟩, rfl⟩, h⟩
  | minChangeTime =>
    obtain ⟨k, hk, hs⟩ := gsmallest (S := fun t => ∃ e D v, P e = some (D, some (t, v))) h.chg (fun x => by
      constructor
      · rintro ⟨e, D, v, he⟩; exact ⟨e, by unfold gc; rw [he]; rfl⟩
      · rintro ⟨e, he⟩
        unfold gc at he
        cases hp : P e with
        | none => rw [hp] at he; cases he
        | some p =>
          obtain ⟨D, c⟩ := p
          rw [hp] at he
          cases c with
          | none => cases he
          | some c =>
            simp only [Option.bind_some, Option.map_some, Option.some.injEq] at he
            exact ⟨e, D, c.2, by rw [hp, ← ev_inj he]⟩) (fun e k he => by
        unfold gc at he
        cases hp : P e with
        | none => rw [hp] at he; cases he
        | some p =>
          obtain ⟨D, c⟩ := p
          rw [hp] at he
          cases c with
          | none => cases he
          | some c => simp only [Option.bind_some, Option.map_some, Option.some.injEq] at he; exact ⟨c.1, he.symm⟩)
    have hq : q.call .minChangeTime = (.key k, q) := by simp only [call, DepQ.minChangeTime, hk]
    rw [hq]
    exact ⟨P, ⟨⟨k, hs, rfl⟩, rfl⟩, h⟩

theorem ghistory : ∀ (cs : List Call) {q : DepQ} {P : Plan}, GRep q P → DepHistory P cs (q.run cs)
  | [], _, _, _ => rfl
  | c :: cs, _, _, h => by
    obtain ⟨P', a, b⟩ := gcall h c
    exact ⟨_, _, P', rfl, a, ghistory cs b⟩

end DepQ
end Verif
