import Verif.Proofs.PLMin

/-! `outer_minimum`. -/

set_option linter.unusedSimpArgs false
set_option linter.unusedSectionVars false

namespace Verif
namespace PL

theorem not_startsLater_self : ∀ a : WithBot ℚ, startsLater a a = false
  | none => rfl
  | some a => decide_eq_false (by linarith [eps_pos])

theorem not_endsEarlier_self : ∀ a : WithTop ℚ, endsEarlier a a = false
  | none => rfl
  | some a => decide_eq_false (by linarith [eps_pos])

/-- The domain of a minimum. -/
theorem minimum_dom {f g m : PL} (h : f.minimum g = .ok m) : m.lo = max f.lo g.lo ∧ m.hi = min f.hi g.hi := by
  unfold minimum at h
  simp only at h
  obtain ⟨_, _, h⟩ := bind_eq_ok.mp h
  cases e : max f.lo g.lo with
  | bot => rw [e] at h; exact absurd h (by simp)
  | coe a =>
    rw [e] at h
    replace h : (do pyAssert (a ∈ f.times ∨ a ∈ g.times); _) = _ := h
    obtain ⟨_, _, h⟩ := bind_eq_ok.mp h
    obtain ⟨_, _, h⟩ := bind_eq_ok.mp h
    obtain ⟨_, _, h⟩ := bind_eq_ok.mp h
    obtain ⟨_, _, h⟩ := bind_eq_ok.mp h
    obtain ⟨_, _, h⟩ := bind_eq_ok.mp h
    obtain ⟨e, _⟩ := new_eq_ok.mp h
    rw [e]; exact ⟨rfl, rfl⟩

/-- With equal domains there is nothing to extend. -/
theorem outer_same {f g : PL} (hlo : f.lo = g.lo) (hhi : f.hi = g.hi) : f.outerMinimum g = f.minimum g := by
  unfold outerMinimum
  cases h : f.minimum g with
  | error e => rfl
  | ok m =>
    obtain ⟨e1, e2⟩ := minimum_dom h
    rw [← hlo, max_self] at e1
    rw [← hhi, min_self] at e2
    rw [ok_bind]
    have hl : outerLeft f g m = .ok m := by
      unfold outerLeft
      rw [← hlo, e1, not_startsLater_self]; rfl
    rw [hl, ok_bind]
    unfold outerRight
    rw [← hhi, e2, not_endsEarlier_self]; rfl

/-- A break point before the common domain makes `minimum` raise. -/
theorem minimum_early {f g : PL} (hf : f.WF) (hg : g.WF) {a t : ℚ} (hlo : max f.lo g.lo = (a : WithBot ℚ)) (ht : t ∈ f.times ∨ t ∈ g.times) (hta : t < a) :
    ∀ m, f.minimum g ≠ .ok m := by
  intro m h
  unfold minimum at h
  simp only at h
  rw [hlo] at h
  obtain ⟨_, h0, h⟩ := bind_eq_ok.mp h
  replace h : (do pyAssert (a ∈ f.times ∨ a ∈ g.times); _) = _ := h
  obtain ⟨_, _, h⟩ := bind_eq_ok.mp h
  obtain ⟨s, h1, h⟩ := bind_eq_ok.mp h
  obtain ⟨s', h2, _⟩ := bind_eq_ok.mp h
  have hah : (a : WithTop ℚ) < min f.hi g.hi := by
    by_contra hcon
    have h0' : endsLt (a : WithBot ℚ) (min f.hi g.hi) = true := by
      by_contra hc
      rw [pyAssert_false hc] at h0; cases h0
    cases e : min f.hi g.hi with
    | top => rw [e] at hcon; exact hcon (WithTop.coe_lt_top a)
    | coe b =>
      rw [e] at hcon h0'
      exact hcon (WithTop.coe_lt_coe.mpr (of_decide_eq_true h0'))
  clear h h0
  -- the sweep starts at the early break point
  have key : ∀ (c o : PL), c.WF → o.WF → max c.lo o.lo = (a : WithBot ℚ) → (t ∈ c.times ∨ t ∈ o.times) → ∀ n s', minLoop (min f.hi g.hi) (n + 1) ⟨c, o, 0, 0, []⟩ ≠ .ok s' := by
    intro c o hc ho hco ht n s' hl
    have hcp := hc.pos
    have hop := ho.pos
    unfold minLoop at hl
    rw [if_pos (Or.inl hcp)] at hl
    obtain ⟨st, hl, _⟩ := bind_eq_ok.mp hl
    have hhead : ∀ x : PL, x.WF → t ∈ x.times → ∀ h : 0 < x.times.length, x.times[0] < a := by
      intro x hx hm h
      obtain ⟨j, hj, e⟩ := List.getElem_of_mem hm
      exact lt_of_le_of_lt (le_trans (getElem_le_of hx.lt (Nat.zero_le j) hj) (le_of_eq e)) hta
    have hlow : ∀ x : PL, x.WF → x.lo = (a : WithBot ℚ) → ∀ h : 0 < x.times.length, a ≤ x.times[0] := by
      intro x hx e h
      have := (hx.dom _ (List.getElem_mem h)).1
      rw [e] at this
      exact WithBot.coe_le_coe.mp this
    have hbad : ∀ x : PL, x.lo = (a : WithBot ℚ) → ∀ y : ℚ, y < a → x.eval y = .error .assertion := by
      intro x e y hy
      refine eval_err fun hd => ?_
      have := hd.1
      rw [e] at this
      exact absurd (WithBot.coe_le_coe.mp this) (not_le.mpr hy)
    unfold minStep nextIsOther at hl
    simp only at hl
    rw [if_neg (not_le.mpr hop), if_neg (not_le.mpr hcp), rd_lt _ 0 hop, ok_bind, rd_lt _ 0 hcp, ok_bind, py_pure, ok_bind] at hl
    have hnot : ∀ y : ℚ, y < a → ¬ ((y : WithTop ℚ) > min f.hi g.hi) := by
      intro y hy hc
      exact absurd (lt_trans hah hc) (not_lt.mpr (WithTop.coe_le_coe.mpr hy.le))
    rcases max_choice c.lo o.lo with e | e
    · -- `c` starts late, so the break point belongs to `o`
      rw [e] at hco
      have hto : t ∈ o.times := by
        rcases ht with ht | ht
        · have := (hc.dom t ht).1
          rw [hco] at this
          exact absurd (WithBot.coe_le_coe.mp this) (not_le.mpr hta)
        · exact ht
      have h1 := hhead o ho hto hop
      have h2 := hlow c hc hco hcp
      rw [decide_eq_true (show o.times[0] ≤ c.times[0] by linarith)] at hl
      simp only [if_true] at hl
      rw [ok_bind, if_neg (hnot _ h1)] at hl
      unfold nextValues at hl
      rw [if_pos rfl, hbad c hco _ h1] at hl
      cases hl
    · rw [e] at hco
      have htc : t ∈ c.times := by
        rcases ht with ht | ht
        · exact ht
        · have := (ho.dom t ht).1
          rw [hco] at this
          exact absurd (WithBot.coe_le_coe.mp this) (not_le.mpr hta)
      have h1 := hhead c hc htc hcp
      have h2 := hlow o ho hco hop
      rw [decide_eq_false (show ¬ o.times[0] ≤ c.times[0] by linarith)] at hl
      simp only [if_false, Bool.false_eq_true] at hl
      rw [ok_bind, if_neg (hnot _ h1)] at hl
      unfold nextValues at hl
      rw [if_neg (by simp), hbad o hco _ h1] at hl
      cases hl
  obtain ⟨n, hn⟩ : ∃ n, f.times.length + g.times.length = n + 1 := ⟨_, (Nat.succ_pred_eq_of_pos (by have := hf.pos; omega)).symm⟩
  rw [hn] at h2
  unfold minStart at h1
  obtain ⟨x, _, h1⟩ := bind_eq_ok.mp h1
  obtain ⟨y, _, h1⟩ := bind_eq_ok.mp h1
  rw [py_pure] at h1
  injection h1 with h1
  split_ifs at h1
  · rw [← h1] at h2
    exact key f g hf hg hlo ht n s' h2
  · rw [← h1] at h2
    exact key g f hg hf (by rw [max_comm]; exact hlo) ht.symm n s' h2

/-- `left_extend` by a function without break points before raises. -/
theorem leftExtend_err {m g : PL} (hg : g.WF) {a : ℚ} (hlo : m.lo = (a : WithBot ℚ)) (h : ∀ t ∈ g.times, a ≤ t) : ∀ x, m.leftExtend g ≠ .ok x := by
  intro x hx
  unfold leftExtend at hx
  obtain ⟨_, _, hx⟩ := bind_eq_ok.mp hx
  rw [hlo] at hx
  replace hx : (do let rnk ← elemRank g.times a; _) = _ := hx
  have hc : g.times.countP (· < a) = 0 := by
    rw [List.countP_eq_zero]
    intro t ht
    simpa using h t ht
  rw [elemRank_eq hg.le hg.ne, hc, ok_bind] at hx
  obtain ⟨_, _, hx⟩ := bind_eq_ok.mp hx
  obtain ⟨_, hl, hx⟩ := bind_eq_ok.mp hx
  simp [lastTime] at hl

/-- Domains that start at different times make `outer_minimum` raise. -/
theorem outer_left_err {f g : PL} (hf : f.WF) (hg : g.WF) (h : startsLater g.lo f.lo = true ∨ startsLater f.lo g.lo = true) : ∀ m, f.outerMinimum g ≠ .ok m := by
  have hlt : ∀ x y : WithBot ℚ, startsLater x y = true → y < x := by
    intro x y h
    cases x with
    | bot => cases h
    | coe x =>
      cases y with
      | bot => exact WithBot.bot_lt_coe x
      | coe y =>
        have : x > y + eps := of_decide_eq_true h
        exact WithBot.coe_lt_coe.mpr (by linarith [eps_pos])
  intro r hr
  unfold outerMinimum at hr
  obtain ⟨m, hm, hr⟩ := bind_eq_ok.mp hr
  obtain ⟨m', hm', _⟩ := bind_eq_ok.mp hr
  obtain ⟨e1, _⟩ := minimum_dom hm
  rcases h with h | h
  · have hl := hlt _ _ h
    rw [max_eq_right hl.le] at e1
    cases e : g.lo with
    | bot => rw [e] at h; cases h
    | coe a =>
      rw [e] at e1
      unfold outerLeft at hm'
      rw [e1, ← e, if_pos h] at hm'
      refine leftExtend_err hf e1 (fun t ht => ?_) _ hm'
      by_contra hcon
      exact minimum_early hf hg (a := a) (t := t) (by rw [max_eq_right hl.le, e]) (Or.inl ht) (not_le.mp hcon) _ hm
  · have hl := hlt _ _ h
    rw [max_eq_left hl.le] at e1
    cases e : f.lo with
    | bot => rw [e] at h; cases h
    | coe a =>
      rw [e] at e1
      unfold outerLeft at hm'
      rw [e1, ← e, not_startsLater_self, if_neg (by simp), if_pos h] at hm'
      refine leftExtend_err hg e1 (fun t ht => ?_) _ hm'
      by_contra hcon
      exact minimum_early hf hg (a := a) (t := t) (by rw [max_eq_left hl.le, e]) (Or.inr ht) (not_le.mp hcon) _ hm

/-- The last break point up to `b`. -/
def LastUpTo (f g : PL) (b z : ℚ) : Prop := (z ∈ f.times ∨ z ∈ g.times) ∧ z ≤ b ∧ ∀ t, t ∈ f.times ∨ t ∈ g.times → t ≤ b → t ≤ z

/-- The long function `F` against the short one `S`, which ends at `b`: `F` is the smaller one behind the last break point. -/
structure Long (F S : PL) (a b : ℚ) : Prop where
  pair : Pair F S a (b : WithTop ℚ)
  lab : a < b
  start : a ∈ F.times ∨ a ∈ S.times
  early : ∃ t ∈ F.times, t ≤ b
  below : ∀ z, LastUpTo F S b z → (∀ x, z ≤ x → x ≤ b → F.fn x < S.fn x) ∧
    (z ∈ F.times ∨ ∀ m, F.gradient ((F.times.countP (· ≤ b) : Int) - 1) = .ok m → m ≤ S.last)
  flo : F.lo = (a : WithBot ℚ)
  slo : S.lo = (a : WithBot ℚ)
  shi : S.hi = (b : WithTop ℚ)
  fhi : endsEarlier (b : WithTop ℚ) F.hi = true
  next : ∀ t ∈ F.times, b < t → b + eps < t

/-- The minimum of a long and a short function. -/
theorem min_long {F S f g : PL} {a b : ℚ} (h : Long F S a b) (hfg : (f = F ∧ g = S) ∨ (f = S ∧ g = F)) :
    ∃ first ts q, f.minimum g = .ok ⟨ts, ts.map (mn F S), first, F.last, (a : WithBot ℚ), (b : WithTop ℚ)⟩ ∧ Done F S a (b : WithTop ℚ) first ts q ∧
      (∀ t ∈ F.times, t ≤ b → t ≤ q) ∧ (∀ x, q ≤ x → x ≤ b → F.fn x ≤ S.fn x) := by
  have hp : Pair f g a (b : WithTop ℚ) := by
    rcases hfg with ⟨rfl, rfl⟩ | ⟨rfl, rfl⟩
    · exact h.pair
    · exact h.pair.symm
  have hstart : a ∈ f.times ∨ a ∈ g.times := by
    rcases hfg with ⟨rfl, rfl⟩ | ⟨rfl, rfl⟩
    · exact h.start
    · exact h.start.symm
  have hah : (a : WithTop ℚ) < (b : WithTop ℚ) := WithTop.coe_lt_coe.mpr h.lab
  obtain ⟨s0, ⟨c, o, ic, io, ts⟩, p, q, h1, h2, h3, h4, h5, h6⟩ := sweep_ok hp hah.le hstart
  have hsame : (c = F ∧ o = S) ∨ (c = S ∧ o = F) := by
    rcases hfg with ⟨rfl, rfl⟩ | ⟨rfl, rfl⟩ <;> rcases h5 with ⟨e1, e2⟩ | ⟨e1, e2⟩ <;> simp only at e1 e2 <;> subst e1 <;> subst e2 <;> simp
  have hcp : ∀ t ∈ c.times, t ≤ b → t ≤ q := by
    intro t ht htb
    obtain ⟨j, hj, rfl⟩ := List.getElem_of_mem ht
    refine h3.cq j hj ?_
    by_contra hcon
    exact absurd (h6.1 j hj (not_lt.mp hcon)) (not_lt.mpr (WithTop.coe_le_coe.mpr htb))
  have hop : ∀ t ∈ o.times, t ≤ b → t ≤ p := by
    intro t ht htb
    obtain ⟨j, hj, rfl⟩ := List.getElem_of_mem ht
    refine h3.ob j hj ?_
    by_contra hcon
    exact absurd (h6.2 j hj (not_lt.mp hcon)) (not_lt.mpr (WithTop.coe_le_coe.mpr htb))
  have hpb : p ≤ b := WithTop.coe_le_coe.mp h3.ph
  have hlast : LastUpTo F S b p := by
    rcases hsame with ⟨rfl, rfl⟩ | ⟨rfl, rfl⟩
    · exact ⟨h4, hpb, fun t ht htb => ht.elim (fun ht => le_trans (hcp t ht htb) h3.qp) (fun ht => hop t ht htb)⟩
    · exact ⟨h4.symm, hpb, fun t ht htb => ht.elim (fun ht => hop t ht htb) (fun ht => le_trans (hcp t ht htb) h3.qp)⟩
  obtain ⟨hb1, hb2⟩ := h.below p hlast
  have hle := h3.le p h3.qp le_rfl
  simp only at hle
  rcases hsame with ⟨rfl, rfl⟩ | ⟨rfl, rfl⟩
  swap
  · exact absurd (hb1 p le_rfl hpb) (not_lt.mpr hle)
  have hic : c.times.countP (· ≤ b) = ic := by
    have key := fun i hi => lt_countP_le_iff h.pair.wf.le b i hi
    have hcl : c.times.countP (· ≤ b) ≤ c.times.length := List.countP_le_length
    rcases lt_trichotomy (c.times.countP (· ≤ b)) ic with hlt | e | hgt
    · have hl : c.times.countP (· ≤ b) < c.times.length := lt_of_lt_of_le hlt h3.icl
      have := le_trans (h3.cq _ hl hlt) (le_trans h3.qp hpb)
      have := (key _ hl).mpr this
      omega
    · exact e
    · have hl : ic < c.times.length := lt_of_lt_of_le hgt hcl
      have h7 := (key ic hl).mp hgt
      exact absurd (h6.1 ic hl le_rfl) (not_lt.mpr (WithTop.coe_le_coe.mpr h7))
  have hio : io = o.times.length := by
    by_contra hne
    have hl : io < o.times.length := lt_of_le_of_ne h3.iol hne
    have := (h.pair.wg.dom _ (List.getElem_mem hl)).2
    rw [h.shi] at this
    exact absurd this (not_le.mpr (h6.2 io hl le_rfl))
  have hd : Done c o a (b : WithTop ℚ) s0.c.first ts q := by
    rcases h3.wr with ⟨_, _, e, _⟩ | hd
    · obtain ⟨t, ht, htb⟩ := h.early
      obtain ⟨j, hj, rfl⟩ := List.getElem_of_mem ht
      simp only at e
      exact absurd (h6.1 j hj (by simp only; omega)) (not_lt.mpr (WithTop.coe_le_coe.mpr htb))
    · exact hd
  obtain ⟨gm, hgm⟩ := gradient_ok h.pair.wf (r := (ic : Int) - 1) (by omega) (by have := h3.icl; simp only at this; omega)
  have hgo := gradient_last' h.pair.wg hio
  have hcond : gm ≤ o.last ∨ (q = p ∧ c.fn p < o.fn p ∧ ∀ t : ℚ, p < t → (t : WithTop ℚ) ≤ (b : WithTop ℚ) → c.fn t = o.fn t → p + eps < t) := by
    rcases hb2 with e | e
    · right
      refine ⟨le_antisymm h3.qp (hcp p e hpb), hb1 p le_rfl hpb, fun t ht1 ht2 ht3 => ?_⟩
      exact absurd ht3 (hb1 t ht1.le (WithTop.coe_le_coe.mp ht2)).ne
    · left
      refine e gm ?_
      rw [hic]; exact hgm
  have hends : endsLt (a : WithBot ℚ) (b : WithTop ℚ) = true := decide_eq_true h.lab
  have hbF : (b : WithTop ℚ) ≤ c.hi := by
    cases e : c.hi with
    | top => exact le_top
    | coe d =>
      have := h.fhi
      rw [e] at this
      have : b < d - eps := of_decide_eq_true this
      exact WithTop.coe_le_coe.mpr (by linarith [eps_pos])
  have hdoms : max f.lo g.lo = (a : WithBot ℚ) ∧ min f.hi g.hi = (b : WithTop ℚ) := by
    rcases hfg with ⟨rfl, rfl⟩ | ⟨rfl, rfl⟩
    · rw [h.flo, h.slo, max_self, h.shi, min_eq_right hbF]; exact ⟨rfl, rfl⟩
    · rw [h.flo, h.slo, max_self, h.shi, min_eq_left hbF]; exact ⟨rfl, rfl⟩
  have hmn : mn f g = mn c o := by
    rcases hfg with ⟨rfl, rfl⟩ | ⟨rfl, rfl⟩
    · rfl
    · exact mn_symm _ _
  rcases tail_ok h3 hd h6 hgm hgo hcond with ⟨t1, t2⟩ | ⟨t, t1, t2, t3, t4, t5⟩
  · have hne : ts ≠ [] := by intro e; rw [e] at hd; have := hd.last; simp at this
    refine ⟨s0.c.first, ts, q, ?_, hd, hcp, fun x hx1 hx2 => t2 x hx1 (WithTop.coe_le_coe.mpr hx2)⟩
    unfold minimum
    simp only
    rw [hdoms.1, hdoms.2, pyAssert_true hends, ok_bind]
    show (do pyAssert (a ∈ f.times ∨ a ∈ g.times); _) = _
    rw [pyAssert_true hstart, ok_bind, h1, ok_bind, h2, ok_bind, t1, ok_bind]
    simp only
    rw [minValues_ok hp hd.dom, ok_bind, hmn]
    exact new_ok (path_wf _ hne hd.dom hd.links)
  · -- there is no crossing
    exfalso
    have htb := WithTop.coe_le_coe.mp t3
    have h7 := t4 t (by linarith [eps_pos]) le_rfl
    have h8 := t5 t le_rfl t3
    rcases le_or_gt p t with h9 | h9
    · exact absurd (hb1 t h9 htb) (not_lt.mpr h8)
    · exact absurd (t5 p h9.le h3.ph) (not_le.mpr (hb1 p le_rfl hpb))

/-- The outer minimum of a long and a short function. -/
theorem outer_long {F S f g : PL} {a b : ℚ} (h : Long F S a b) (hfg : (f = F ∧ g = S) ∨ (f = S ∧ g = F)) :
    ∃ m, f.outerMinimum g = .ok m ∧ m.WF ∧ m.lo = (a : WithBot ℚ) ∧ m.hi = F.hi ∧ (∀ x, a ≤ x → x ≤ b → m.fn x = min (F.fn x) (S.fn x)) ∧
      ∀ x, b < x → (x : WithTop ℚ) ≤ F.hi → m.fn x = F.fn x := by
  obtain ⟨first, ts, q, h1, hd, hFq, hle⟩ := min_long h hfg
  have hwF := h.pair.wf
  have hbF : (b : WithTop ℚ) ≤ F.hi := by
    cases e : F.hi with
    | top => exact le_top
    | coe d =>
      have := h.fhi
      rw [e] at this
      have : b < d - eps := of_decide_eq_true this
      exact WithTop.coe_le_coe.mpr (by linarith [eps_pos])
  have hqb : q ≤ b := WithTop.coe_le_coe.mp hd.bend.2.1
  -- the result
  obtain ⟨H, hH⟩ : ∃ H : ℚ → ℚ, H = fun x => if x ≤ b then mn F S x else F.fn x := ⟨_, rfl⟩
  have hH1 : ∀ x, x ≤ b → H x = mn F S x := fun x hx => by rw [hH]; exact if_pos hx
  have hH2 : ∀ x, q ≤ x → H x = F.fn x := by
    intro x hx
    rcases le_or_gt x b with c | c
    · rw [hH1 x c]; exact min_eq_left (hle x hx c)
    · rw [hH]; exact if_neg (not_le.mpr c)
  have hne : ts ≠ [] := by intro e; rw [e] at hd; have := hd.last; simp at this
  have hdomb : ∀ t ∈ ts, t ≤ b := fun t ht => WithTop.coe_le_coe.mp (hd.dom t ht).2
  have hmap : ts.map (mn F S) = ts.map H := List.map_congr_left fun t ht => (hH1 t (hdomb t ht)).symm
  have hdom : ∀ t ∈ ts, a ≤ t ∧ (t : WithTop ℚ) ≤ F.hi := fun t ht => ⟨(hd.dom t ht).1, le_trans (hd.dom t ht).2 hbF⟩
  have hlinks : ts.IsChain (fun s t => s + eps < t ∧ Aff H s t) := by
    rw [List.isChain_iff_getElem]
    intro i hi
    obtain ⟨l1, m, l2⟩ := List.isChain_iff_getElem.mp hd.links i hi
    have hb' := hdomb _ (List.getElem_mem hi)
    have hb0 := hdomb _ (List.getElem_mem (show i < ts.length by omega))
    refine ⟨l1, m, fun x hx1 hx2 => ?_⟩
    rw [hH1 x (le_trans hx2 hb'), hH1 _ hb0]
    exact l2 x hx1 hx2
  have hhead : ∀ t, ts.head? = some t → ∀ x, a ≤ x → x ≤ t → H x = H t + first * (x - t) := by
    intro t ht x hx1 hx2
    have htb := hdomb t (List.mem_of_mem_head? ht)
    rw [hH1 x (le_trans hx2 htb), hH1 t htb]
    exact hd.head t ht x hx1 hx2
  have hFH : ∀ k, q ≤ b → (∀ j (hj : j < F.times.length), k ≤ j → q ≤ F.times[j]) → F.values.drop k = (F.times.drop k).map H := by
    intro k _ hk
    refine List.ext_getElem (by simp [hwF.len]) fun i hi1 hi2 => ?_
    have hlen := hwF.len
    simp only [List.length_drop] at hi1
    rw [List.getElem_drop, List.getElem_map, List.getElem_drop, hH2 _ (hk _ (by omega) (by omega)), fn_time hwF]
  -- appending the rest of the break points of `F`
  have happ : ∀ k, (∀ j (hj : j < F.times.length), j < k → F.times[j] ≤ q) → (∀ j (hj : j < F.times.length), k ≤ j → b ≤ F.times[j] ∧ q + eps < F.times[j]) →
      ∃ m, new (ts ++ F.times.drop k) (ts.map (mn F S) ++ F.values.drop k) first F.last (a : WithBot ℚ) F.hi = .ok m ∧ m.WF ∧ m.lo = (a : WithBot ℚ) ∧ m.hi = F.hi ∧
        (∀ x, a ≤ x → x ≤ b → m.fn x = min (F.fn x) (S.fn x)) ∧ ∀ x, b < x → (x : WithTop ℚ) ≤ F.hi → m.fn x = F.fn x := by
    intro k hk1 hk2
    rw [hmap, hFH k hqb (fun j hj e => by linarith [(hk2 j hj e).2, eps_pos]), ← List.map_append]
    have hdom' : ∀ t ∈ ts ++ F.times.drop k, a ≤ t ∧ (t : WithTop ℚ) ≤ F.hi := by
      intro t ht
      rcases List.mem_append.mp ht with ht | ht
      · exact hdom t ht
      · have ht := List.mem_of_mem_drop ht
        exact ⟨h.pair.gef t ht, (hwF.dom t ht).2⟩
    have hstep : ∀ j (hj : j + 1 < F.times.length), k ≤ j → F.times[j] + eps < F.times[j + 1] ∧ Aff H F.times[j] F.times[j + 1] := by
      intro j hj hkj
      have hgap := List.pairwise_iff_getElem.mp hwF.gap j (j + 1) (by omega) hj (by omega)
      refine ⟨by linarith, (F.values[j + 1]'(by rw [hwF.len]; exact hj) - F.values[j]'(by rw [hwF.len]; omega)) / (F.times[j + 1] - F.times[j]), fun x hx1 hx2 => ?_⟩
      have hq : q ≤ F.times[j] := by linarith [(hk2 j (by omega) hkj).2, eps_pos]
      rw [hH2 x (le_trans hq hx1), hH2 _ hq, fn_mid hwF j hj hx1 hx2, fn_time hwF j (by omega)]
      ring
    have hlinks' : (ts ++ F.times.drop k).IsChain (fun s t => s + eps < t ∧ Aff H s t) := by
      rw [List.isChain_append]
      refine ⟨hlinks, ?_, ?_⟩
      · rw [List.isChain_iff_getElem]
        intro i hi
        simp only [List.length_drop] at hi
        have := hstep (k + i) (by omega) (by omega)
        rw [List.getElem_drop, List.getElem_drop]
        exact this
      · intro x hx y hy
        rw [hd.last] at hx
        simp only [Option.mem_def, Option.some.injEq] at hx hy
        subst hx
        have hkl : k < F.times.length := by
          by_contra hcon
          rw [List.drop_eq_nil_of_le (not_lt.mp hcon)] at hy
          simp at hy
        rw [List.drop_eq_getElem_cons hkl] at hy
        simp only [List.head?_cons, Option.some.injEq] at hy
        subst hy
        have hq := (hk2 k hkl le_rfl).2
        obtain ⟨m, _, hm⟩ := seg_affine hwF hkl.le (p := q) (s := F.times[k]) (fun j hj e => hk1 j hj e) (fun j hj e => getElem_le_of hwF.lt e hj)
        refine ⟨hq, m, fun x hx1 hx2 => ?_⟩
        rw [hH2 x hx1, hH2 q le_rfl]
        exact hm x hx1 hx2
    have hhead' : ∀ t, (ts ++ F.times.drop k).head? = some t → ∀ x, a ≤ x → x ≤ t → H x = H t + first * (x - t) := by
      intro t ht
      rw [List.head?_append_of_ne_nil _ hne] at ht
      exact hhead t ht
    have hfin : ∃ e, (ts ++ F.times.drop k).getLast? = some e ∧ q ≤ e ∧ ∀ t ∈ F.times, t ≤ e := by
      by_cases hkl : k < F.times.length
      · have hdne : F.times.drop k ≠ [] := by
          intro e; have := congrArg List.length e; simp at this; omega
        refine ⟨F.times.getLast hwF.ne, ?_, ?_, fun t ht => le_getLast hwF.lt hwF.ne ht⟩
        · rw [List.getLast?_append_of_ne_nil _ hdne, List.getLast?_eq_getLast_of_ne_nil hdne, List.getLast_drop]
        · have := (hk2 (F.times.length - 1) (by omega) (by omega)).2
          rw [List.getLast_eq_getElem]
          linarith [eps_pos]
      · refine ⟨q, ?_, le_rfl, ?_⟩
        · rw [List.drop_eq_nil_of_le (not_lt.mp hkl), List.append_nil]; exact hd.last
        · intro t ht
          obtain ⟨j, hj, rfl⟩ := List.getElem_of_mem ht
          exact hk1 j hj (by omega)
    obtain ⟨e, he1, he2, he3⟩ := hfin
    obtain ⟨hw, hfn⟩ := path_fn (a := a) (hi := F.hi) (first := first) (last := F.last) he1 hdom' hlinks' hhead' (by
      intro x hx1 _
      have hgl := he3 _ (List.getLast_mem hwF.ne)
      rw [hH2 x (le_trans he2 hx1), hH2 e he2, fn_right hwF hgl, fn_right hwF (le_trans hgl hx1)]
      ring)
    refine ⟨_, new_ok hw, hw, rfl, rfl, fun x hx1 hx2 => ?_, fun x hx1 hx2 => ?_⟩
    · rw [hfn x hx1 (le_trans (WithTop.coe_le_coe.mpr hx2) hbF)]
      exact hH1 x hx2
    · rw [hfn x (by linarith [h.lab]) hx2]
      exact hH2 x (by linarith)
  -- the call
  have hrk : elemRank F.times b = .ok ((F.times.countP (· < b) : Int) - 1) := elemRank_eq hwF.le hwF.ne b
  have key := fun i hi => lt_countP_lt_iff hwF.le b i hi
  have hgoal : ∃ m, rightExtend ⟨ts, ts.map (mn F S), first, F.last, (a : WithBot ℚ), (b : WithTop ℚ)⟩ F = .ok m ∧ m.WF ∧ m.lo = (a : WithBot ℚ) ∧ m.hi = F.hi ∧
        (∀ x, a ≤ x → x ≤ b → m.fn x = min (F.fn x) (S.fn x)) ∧ ∀ x, b < x → (x : WithTop ℚ) ≤ F.hi → m.fn x = F.fn x := by
    have hred : rightExtend ⟨ts, ts.map (mn F S), first, F.last, (a : WithBot ℚ), (b : WithTop ℚ)⟩ F =
        if F.times.countP (· < b) ≥ F.times.length then new ts (ts.map (mn F S)) first F.last (a : WithBot ℚ) F.hi
        else (do
          let l ← lastTime ts
          let t ← rd F.times (F.times.countP (· < b))
          if l ≥ t - eps then new (ts ++ F.times.drop (F.times.countP (· < b) + 1)) (ts.map (mn F S) ++ F.values.drop (F.times.countP (· < b) + 1)) first F.last (a : WithBot ℚ) F.hi
          else new (ts ++ F.times.drop (F.times.countP (· < b))) (ts.map (mn F S) ++ F.values.drop (F.times.countP (· < b))) first F.last (a : WithBot ℚ) F.hi) := by
      unfold rightExtend
      simp only
      rw [pyAssert_true h.fhi, ok_bind]
      show (do let rnk ← elemRank F.times b; _) = _
      rw [hrk, ok_bind]
      have : ((F.times.countP (· < b) : Int) - 1 + 1).toNat = F.times.countP (· < b) := by omega
      rw [this]
    rw [hred]
    generalize F.times.countP (· < b) = k at key
    have hk1 : ∀ j (hj : j < F.times.length), j < k → F.times[j] ≤ q := by
      intro j hj e
      exact hFq _ (List.getElem_mem hj) ((key j hj).mp e).le
    have hk2 : ∀ j (hj : j < F.times.length), k ≤ j → b ≤ F.times[j] := by
      intro j hj e
      by_contra hcon
      have := (key j hj).mpr (not_le.mp hcon)
      omega
    by_cases c1 : k ≥ F.times.length
    · rw [if_pos c1]
      have := happ k hk1 (fun j hj e => by omega)
      have e1 : F.values.drop k = [] := List.drop_eq_nil_of_le (by rw [hwF.len]; exact c1)
      rwa [List.drop_eq_nil_of_le c1, e1, List.append_nil, List.append_nil] at this
    rw [if_neg c1, show lastTime ts = .ok q by unfold lastTime; rw [hd.last], ok_bind, rd_lt _ _ (not_le.mp c1), ok_bind]
    have hkl := not_le.mp c1
    have hkb := hk2 k hkl le_rfl
    by_cases c2 : q ≥ F.times[k] - eps
    · rw [if_pos c2]
      have hbk : F.times[k] = b := by
        by_contra hne
        have hlt := lt_of_le_of_ne hkb (Ne.symm hne)
        have := h.next _ (List.getElem_mem hkl) hlt
        linarith
      have hqk : F.times[k] ≤ q := hFq _ (List.getElem_mem hkl) hbk.le
      refine happ (k + 1) ?_ ?_
      · intro j hj e
        exact le_trans (getElem_le_of hwF.lt (Nat.lt_succ_iff.mp e) hkl) hqk
      · intro j hj e
        have h5 := List.pairwise_iff_getElem.mp hwF.gap k j hkl hj (by omega)
        exact ⟨by linarith [eps_pos], by linarith⟩
    · rw [if_neg c2]
      refine happ k hk1 ?_
      intro j hj e
      have h5 := getElem_le_of hwF.lt e hj
      exact ⟨hk2 j hj e, by linarith [not_le.mp c2]⟩
  obtain ⟨m, g1, g2⟩ := hgoal
  refine ⟨m, ?_, g2⟩
  unfold outerMinimum
  rw [h1, ok_bind]
  have hl : outerLeft f g ⟨ts, ts.map (mn F S), first, F.last, (a : WithBot ℚ), (b : WithTop ℚ)⟩ = .ok ⟨ts, ts.map (mn F S), first, F.last, (a : WithBot ℚ), (b : WithTop ℚ)⟩ := by
    unfold outerLeft
    simp only
    have e1 : startsLater (a : WithBot ℚ) f.lo = false := by
      rcases hfg with ⟨rfl, rfl⟩ | ⟨rfl, rfl⟩
      · rw [h.flo, not_startsLater_self]
      · rw [h.slo, not_startsLater_self]
    have e2 : startsLater (a : WithBot ℚ) g.lo = false := by
      rcases hfg with ⟨rfl, rfl⟩ | ⟨rfl, rfl⟩
      · rw [h.slo, not_startsLater_self]
      · rw [h.flo, not_startsLater_self]
    rw [e1, e2]; rfl
  rw [hl, ok_bind]
  unfold outerRight
  simp only
  rcases hfg with ⟨rfl, rfl⟩ | ⟨rfl, rfl⟩
  · rw [if_pos h.fhi]; exact g1
  · rw [h.shi, not_endsEarlier_self, if_neg (by simp), if_pos h.fhi]; exact g1

end PL
end Verif
