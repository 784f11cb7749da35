import Verif.Proofs.FlowRatesRun

/-! Property theorems C25–C27 (src/core/flow_rates_collection.py), about the pointer-level model. -/

namespace Verif.Props
open Verif Verif.Spec

/-- Calls on a collection in turn; a refused query (`ValueError`) is answered `none` and leaves the
collection as it is, any other exception ends the run. -/
def runRates : FRP → List RateOp → Py (List (Option Rates) × FRP)
  | c, [] => .ok ([], c)
  | c, .extend t v s :: ops =>
    match c.extend t v s with
    | .ok c' => runRates c' ops
    | .error e => .error e
  | c, .query t :: ops =>
    match c.getValuesAtTime t with
    | .ok (v, c') => (runRates c' ops).map (fun r => (some v :: r.1, r.2))
    | .error .value => (runRates c ops).map (fun r => (none :: r.1, r.2))
    | .error e => .error e

theorem runRates_ok : ∀ (ops : List RateOp) (c : FRP) (d : FRC) (hist : List (ℚ × List (Nat × ℚ))) (cons L : ℚ),
    c.Rep d → d.Tame L → FRC.Suffix hist cons d.queue → (∀ p ∈ hist, p.1 ≤ L) → RateOpsOk L ops →
    ∃ c' d' hist' cons' L', runRates c ops = .ok (rateAnswers hist cons ops, c') ∧ c'.Rep d' ∧ d'.Tame L' ∧
      FRC.Suffix hist' cons' d'.queue ∧ (∀ p ∈ hist', p.1 ≤ L') ∧
      ∀ ops2, rateAnswers hist cons (ops ++ ops2) = rateAnswers hist cons ops ++ rateAnswers hist' cons' ops2 ∧
        (RateOpsOk L (ops ++ ops2) → RateOpsOk L' ops2) := by
  intro ops
  induction ops with
  | nil => 
    intro c d hist cons L h1 h2 h3 h4 _
    exact ⟨c, d, hist, cons, L, rfl, h1, h2, h3, h4, fun ops2 => ⟨rfl, fun h => h⟩⟩
  | cons op ops ih =>
    intro c d hist cons L h1 h2 h3 h4 h5
    cases op with
    | extend t v s =>
      obtain ⟨a1, a2, a3⟩ := h5
      obtain ⟨d', e1, hd', hq⟩ := h2.extend (s := s) a1 a2
      rcases FRP.extend_rep h1 t v s with ⟨e, b1, b2⟩ | ⟨c', d'', b1, b2, b3⟩
      · rw [e1] at b2; cases b2
      · rw [e1] at b2; injection b2 with b2; subst b2
        have hsuf : FRC.Suffix (hist ++ [(t, v)]) cons d'.queue := by
          obtain ⟨pre, h, r, x1, x2, x3, x4⟩ := h3
          refine ⟨pre, h, r ++ [⟨t, v⟩], ?_, ?_, x3, ?_⟩
          · rw [hq, x1, List.map_append, List.append_assoc]; rfl
          · rw [hq, x2]; rfl
          · rw [hq, List.map_append, List.pairwise_append]
            refine ⟨x4, by simp, ?_⟩
            intro y hy z hz
            simp at hz; subst hz
            obtain ⟨w, hw, rfl⟩ := List.mem_map.mp hy
            have := h4 (FRC.pr w) (by rw [x1]; exact List.mem_append_right _ (List.mem_map.mpr ⟨w, hw, rfl⟩))
            exact le_trans this a1
        obtain ⟨c2, d2, hi2, co2, L2, r1, r2, r3, r4, r5, r6⟩ := ih c' d' _ cons t b3 hd' hsuf (by
          intro p hp
          rcases List.mem_append.mp hp with hp | hp
          · exact le_trans (h4 p hp) a1
          · simp at hp; subst hp; exact le_rfl) a3
        refine ⟨c2, d2, hi2, co2, L2, ?_, r2, r3, r4, r5, fun ops2 => ⟨(r6 ops2).1, fun h => (r6 ops2).2 h.2.2⟩⟩
        simp only [runRates, b1, rateAnswers]
        exact r1
    | query t =>
      rcases FRC.query_spec h3 t with ⟨q1, q2⟩ | ⟨q1, p, q, q2, q3, q4, pre, q5⟩
      · obtain ⟨c2, d2, hi2, co2, L2, r1, r2, r3, r4, r5, r6⟩ := ih c d hist cons L h1 h2 h3 h4 h5
        refine ⟨c2, d2, hi2, co2, L2, ?_, r2, r3, r4, r5, fun ops2 => ⟨?_, fun h => (r6 ops2).2 h⟩⟩
        rotate_left
        · simp only [List.cons_append, rateAnswers, if_pos q1, (r6 ops2).1]
        rcases FRP.query_rep h1 t with ⟨e, b1, b2⟩ | ⟨v, c', d'', b1, b2, b3⟩
        · rw [q2] at b2; injection b2 with b2; subst b2
          simp only [runRates, b1, rateAnswers, if_pos q1, r1]; rfl
        · rw [q2] at b2; cases b2
      · rcases FRP.query_rep h1 t with ⟨e, b1, b2⟩ | ⟨v, c', d'', b1, b2, b3⟩
        · rw [q3] at b2; cases b2
        · rw [q3] at b2; injection b2 with b2; injection b2 with b4 b5; subst b4; subst b5
          have hne : q ≠ [] := by obtain ⟨_, _, _, _, e, _⟩ := q4; rw [e]; simp
          obtain ⟨c2, d2, hi2, co2, L2, r1, r2, r3, r4, r5, r6⟩ := ih c' _ hist p.1 L b3 ⟨h2.start, h2.acc, h2.funs, (by
            obtain ⟨it, t1, t2⟩ := h2.tail
            refine ⟨it, ?_, t2⟩
            rw [q5, List.getLast?_append_of_ne_nil _ hne] at t1
            exact t1), (by
            intro it hit; exact h2.pos it (by rw [q5]; exact List.mem_append_right _ hit))⟩ q4 h4 h5
          refine ⟨c2, d2, hi2, co2, L2, ?_, r2, r3, r4, r5, fun ops2 => ⟨?_, fun h => (r6 ops2).2 h⟩⟩
          rotate_left
          · simp only [List.cons_append, rateAnswers, if_neg q1, q2, (r6 ops2).1]
          simp only [runRates, b1, rateAnswers, if_neg q1, q2, r1]; rfl

/-- C25: on a new collection, for every interleaving of extensions at non-decreasing times with
positive rates and of queries at any times, no call raises anything but the refusal of a query, and
the answers are those of the plain record of all extensions: the rates of the last extension not
later than the query, refused exactly when the query lies before the extension last answered. -/
theorem C25_answers (ops : List RateOp) (h : RateOpsOk 0 ops) :
    ∃ c c', FRP.empty = .ok c ∧ runRates c ops = .ok (rateAnswers [(0, [])] 0 ops, c') := by
  obtain ⟨c, d, e1, e2, hr⟩ := FRP.empty_rep
  obtain ⟨d', f1, f2, f3⟩ := FRC.empty_tame
  rw [e2] at f1; injection f1 with f1; subst f1
  obtain ⟨c', d', _, _, _, r, _⟩ := runRates_ok ops c d [(0, [])] 0 0 hr f2 ⟨[], ⟨0, []⟩, [], by rw [f3]; rfl, f3, rfl, by rw [f3]; simp⟩
    (by simp) h
  exact ⟨c, c', e1, r⟩

theorem inForce_mem {hist : List (ℚ × List (Nat × ℚ))} {t : ℚ} {p : ℚ × List (Nat × ℚ)} (h : inForce hist t = some p) :
    p ∈ hist ∧ p.1 ≤ t := by
  have := List.mem_of_getLast? h
  obtain ⟨a, b⟩ := List.mem_filter.mp this
  exact ⟨a, of_decide_eq_true b⟩

theorem answers_plain : ∀ (ops : List RateOp) (hist : List (ℚ × List (Nat × ℚ))) (cons T : ℚ),
    (0, []) ∈ hist → 0 ≤ T → cons ≤ T → QueriesMono T ops → rateAnswers hist cons ops = plainAnswers hist ops := by
  intro ops
  induction ops with
  | nil => intros; rfl
  | cons op ops ih =>
    intro hist cons T h0 hT hc hm
    cases op with
    | extend t v s => exact ih _ cons T (List.mem_append_left _ h0) hT hc hm
    | query t =>
      obtain ⟨m1, m2⟩ := hm
      cases hf : inForce hist t with
      | none =>
        exfalso
        unfold inForce at hf
        rw [List.getLast?_eq_none_iff, List.filter_eq_nil_iff] at hf
        exact hf _ h0 (decide_eq_true (le_trans hT m1))
      | some p =>
        simp only [rateAnswers, plainAnswers, hf, if_neg (not_lt.mpr (le_trans hc m1)), Option.map_some]
        rw [ih hist p.1 t h0 (le_trans hT m1) (inForce_mem hf).2 m2]

/-- C25 for non-decreasing queries: never refused, always the extension in force. -/
theorem C25_monotone (ops : List RateOp) (h : RateOpsOk 0 ops) (hq : QueriesMono 0 ops) :
    ∃ c c', FRP.empty = .ok c ∧ runRates c ops = .ok (plainAnswers [(0, [])] ops, c') := by
  obtain ⟨c, c', e, r⟩ := C25_answers ops h
  exact ⟨c, c', e, by rw [r, answers_plain ops _ 0 0 (by simp) le_rfl le_rfl hq]⟩

/-- A run with an extension behind the reading position and a refused query. -/
def sampleOps : List RateOp :=
  [.extend 1 [(0, 3)] 3, .query (1/2), .extend 4 [(1, 2), (0, 1)] 3, .query 6, .extend 5 [] 0, .query 6, .query 4]
theorem sampleOps_ok : RateOpsOk 0 sampleOps := by
  simp only [sampleOps, RateOpsOk]; decide +kernel
example : rateAnswers [(0, [])] 0 sampleOps = [some [], some [(1, 2), (0, 1)], some [], none] := by decide +kernel

/-- Extending a new collection. -/
def extendAll : FRP → List Ext → Py FRP
  | c, [] => .ok c
  | c, x :: l =>
    match c.extend x.time x.values x.sum with
    | .ok c' => extendAll c' l
    | .error e => .error e

theorem filter_last_append {l : List Ext} {x : Ext} {t : ℚ} :
    ((l ++ [x]).filter (fun x => decide (x.time ≤ t))).getLast? =
      if x.time ≤ t then some x else (l.filter (fun x => decide (x.time ≤ t))).getLast? := by
  rw [List.filter_append]
  by_cases h : x.time ≤ t
  · rw [if_pos h, List.filter_cons_of_pos (p := fun x : Ext => decide (x.time ≤ t)) (decide_eq_true h)]; simp
  · rw [if_neg h, List.filter_cons_of_neg (p := fun x : Ext => decide (x.time ≤ t)) (by simpa using h)]; simp

theorem extendAll_ok : ∀ (l pre : List Ext) (c : FRP) (d : FRC) (L R : ℚ) (V : Rates),
    c.Rep d → d.Good L V R → (∀ x ∈ pre, x.time ≤ L) →
    (∀ i x, 0 ≤ x → FRC.rate d.funs i x = rateIn pre i x) →
    (∀ x y, 0 ≤ x → x ≤ y → (∀ z ∈ pre, ¬ (x < z.time ∧ z.time < y)) → d.acc.fn y - d.acc.fn x = sumIn pre x * (y - x)) →
    ExtsOk eps L V R l →
    ∃ c' d' L' V' R', extendAll c l = .ok c' ∧ c'.Rep d' ∧ d'.Good L' V' R' ∧
      (∀ i x, 0 ≤ x → FRC.rate d'.funs i x = rateIn (pre ++ l) i x) ∧
      (∀ x y, 0 ≤ x → x ≤ y → (∀ z ∈ pre ++ l, ¬ (x < z.time ∧ z.time < y)) →
        d'.acc.fn y - d'.acc.fn x = sumIn (pre ++ l) x * (y - x)) := by
  intro l
  induction l with
  | nil =>
    intro pre c d L R V h1 h2 _ h3 h4 _
    exact ⟨c, d, L, V, R, rfl, h1, h2, by simpa using h3, by simpa using h4⟩
  | cons e l ih =>
    intro pre c d L R V h1 h2 hpre h3 h4 h5
    obtain ⟨k1, k2, k3, k4, k5, k6⟩ := h5
    obtain ⟨d', e1, hd', hacc, hrate, _, _⟩ := h2.extend k1 ⟨k2, k3⟩ k4 k5
    rcases FRP.extend_rep h1 e.time e.values e.sum with ⟨er, b1, b2⟩ | ⟨c', d'', b1, b2, b3⟩
    · rw [e1] at b2; cases b2
    · rw [e1] at b2; injection b2 with b2; subst b2
      obtain ⟨c2, d2, L2, V2, R2, r1, r2, r3, r4, r5⟩ := ih (pre ++ [e]) c' d' e.time e.sum e.values b3 hd' (by
          intro x hx
          rcases List.mem_append.mp hx with hx | hx
          · exact le_trans (hpre x hx) k1.le
          · simp at hx; subst hx; exact le_rfl) (by
          intro i x hx
          rw [hrate i x hx, h3 i x hx]
          unfold rateIn
          rw [filter_last_append]
          by_cases hc : x < e.time
          · rw [if_pos hc, if_neg (not_le.mpr hc)]
          · rw [if_neg hc, if_pos (not_lt.mp hc)]; rfl) (by
          intro x y hx hxy hz
          have hze := hz e (by simp)
          have hzp : ∀ z ∈ pre, ¬ (x < z.time ∧ z.time < y) := fun z hz' => hz z (by simp [hz'])
          rw [hacc, hacc]
          unfold sumIn PL.ext
          rw [filter_last_append]
          by_cases hc : x < e.time
          · have hy : y ≤ e.time := by
              by_contra hcon; exact hze ⟨hc, not_le.mp hcon⟩
            rw [if_pos hy, if_pos (le_of_lt hc), if_neg (not_le.mpr hc)]
            exact h4 x y hx hxy hzp
          · have hc' := not_lt.mp hc
            rw [if_pos hc']
            simp only
            by_cases h1 : y ≤ e.time
            · have : y = x := le_antisymm (le_trans h1 hc') hxy
              subst this; simp
            · rw [if_neg h1]
              by_cases h2 : x ≤ e.time
              · rw [if_pos h2]
                have : x = e.time := le_antisymm h2 hc'
                subst this; ring
              · rw [if_neg h2]; ring) k6
      refine ⟨c2, d2, L2, V2, R2, ?_, r2, r3, ?_, ?_⟩
      · simp only [extendAll, b1]; exact r1
      · intro i x hx; rw [r4 i x hx, List.append_assoc]; rfl
      · intro x y hx hxy hz
        rw [List.append_assoc] at r5
        exact r5 x y hx hxy hz

/-- C26: after any separated sequence of extensions of a new collection, none of which raises, the step
function of every commodity takes at every time `x ≥ 0` the rate of the extension in force (a
commodity without a function never had one), and the cumulative function starts at 0 and grows,
between consecutive extensions, with the given sum as slope. -/
theorem C26_rates (l : List Ext) (h : ExtsOk eps 0 [] 0 l) :
    ∃ c c', FRP.empty = .ok c ∧ extendAll c l = .ok c' ∧
      (∀ i x, 0 ≤ x → (∀ f, c'.funs i = some f → f.eval x = .ok (rateIn l i x)) ∧ (c'.funs i = none → rateIn l i x = 0)) ∧
      ∃ A : ℚ → ℚ, (∀ x, 0 ≤ x → c'.acc.eval x = .ok (A x)) ∧ A 0 = 0 ∧
        ∀ x y, 0 ≤ x → x ≤ y → (∀ z ∈ l, ¬ (x < z.time ∧ z.time < y)) → A y - A x = sumIn l x * (y - x) := by
  obtain ⟨c, d, e1, e2, hr⟩ := FRP.empty_rep
  obtain ⟨d', f1, f2, f3, f4, f5, f6⟩ := FRC.empty_good
  rw [e2] at f1; injection f1 with f1; subst f1
  obtain ⟨c', d', L, V, R, r1, r2, r3, r4, r5⟩ := extendAll_ok l [] c d 0 0 [] hr f2 (by simp)
    (fun i x _ => by rw [f4]; rfl) (fun x y _ _ _ => by rw [f3, f3]; simp [sumIn]) h
  rw [List.nil_append] at r4 r5
  refine ⟨c, c', e1, r1, ?_, d'.acc.fn, ?_, r3.accZero, r5⟩
  · intro i x hx
    have hri := r4 i x hx
    unfold FRC.rate at hri
    rw [r2.funs]
    constructor
    · intro f hf
      rw [hf] at hri
      have hg := (r3.funs i).1 f hf
      simp only at hri
      rw [RC.eval_eq hg.wf (hg.inDom hx), hri]
    · intro hn; rw [hn] at hri; exact hri.symm
  · intro x hx
    rw [r2.acc]
    apply PL.eval_eq r3.acc.wf
    unfold PL.inDom
    rw [r3.accLo, r3.acc.hi]
    exact ⟨WithBot.coe_le_coe.mpr hx, le_top⟩

/-- Three extensions, the last two at the same time. -/
def sampleExts : List Ext := [⟨0, [(0, 2)], 2⟩, ⟨3, [(0, 1), (5, 4)], 5⟩, ⟨3, [(5, 1)], 1⟩]
theorem sampleExts_ok : ExtsOk eps 0 [] 0 sampleExts := by
  have key : ∀ (V W : List (Nat × ℚ)), (∀ i ∈ V.map Prod.fst ++ W.map Prod.fst, Far eps ((V.lookup i).getD 0) ((W.lookup i).getD 0)) →
      ∀ i, Far eps ((V.lookup i).getD 0) ((W.lookup i).getD 0) := by
    intro V W h i
    by_cases hi : i ∈ V.map Prod.fst ++ W.map Prod.fst
    · exact h i hi
    · have h1 : V.lookup i = none := List.lookup_eq_none_iff.mpr (by
        intro p hp; simp; rintro rfl; exact hi (List.mem_append_left _ (List.mem_map.mpr ⟨p, hp, rfl⟩)))
      have h2 : W.lookup i = none := List.lookup_eq_none_iff.mpr (by
        intro p hp; simp; rintro rfl; exact hi (List.mem_append_right _ (List.mem_map.mpr ⟨p, hp, rfl⟩)))
      rw [h1, h2]; exact Or.inl rfl
  refine ⟨?_, ?_, ?_, ?_, key _ _ ?_, ?_, ?_, ?_, ?_, key _ _ ?_, ?_, ?_, ?_, ?_, key _ _ ?_, trivial⟩ <;>
    (simp only [Later, Far, eps]; decide +kernel)
example : rateIn sampleExts 0 2 = 2 ∧ rateIn sampleExts 5 3 = 1 ∧ rateIn sampleExts 0 4 = 0 := by
  unfold sampleExts; decide +kernel

/-- C27: after any run of calls on a new collection (extensions at non-decreasing times, queries at any
time), pickling and unpickling succeed, keep the step functions and the cumulative function, and the
copy gives the same answers as the original – those of the plain record – to every further run. -/
theorem C27_pickle (before after : List RateOp) (h : RateOpsOk 0 (before ++ after)) :
    ∃ c c1 s c2 a1 a2 cb cc, FRP.empty = .ok c ∧ runRates c before = .ok (a1, c1) ∧
      c1.getstate = .ok s ∧ FRP.setstate s = .ok c2 ∧ c2.funs = c1.funs ∧ c2.acc = c1.acc ∧
      runRates c1 after = .ok (a2, cb) ∧ runRates c2 after = .ok (a2, cc) ∧
      a1 ++ a2 = rateAnswers [(0, [])] 0 (before ++ after) := by
  obtain ⟨c, d, e1, e2, hr⟩ := FRP.empty_rep
  obtain ⟨d', f1, f2, f3⟩ := FRC.empty_tame
  rw [e2] at f1; injection f1 with f1; subst f1
  have hb : ∀ (l : List RateOp) (L : ℚ), RateOpsOk L (l ++ after) → RateOpsOk L l := by
    intro l
    induction l with
    | nil => intros; trivial
    | cons op l ih =>
      intro L h
      cases op with
      | extend t v s => exact ⟨h.1, h.2.1, ih _ h.2.2⟩
      | query t => exact ih _ h
  obtain ⟨c1, d1, hist, cons, L, r1, r2, r3, r4, r5, r6⟩ := runRates_ok before c d [(0, [])] 0 0 hr f2
    ⟨[], ⟨0, []⟩, [], by rw [f3]; rfl, f3, rfl, by rw [f3]; simp⟩ (by simp) (hb _ _ h)
  obtain ⟨g1, g2⟩ := r6 after
  obtain ⟨s, c2, p1, p2, p3⟩ := FRP.pickle_rep r2 r3.pos
  obtain ⟨cb, _, _, _, _, k1, _⟩ := runRates_ok after c1 d1 hist cons L r2 r3 r4 r5 (g2 h)
  obtain ⟨cc, _, _, _, _, k2, _⟩ := runRates_ok after c2 d1 hist cons L p3 r3 r4 r5 (g2 h)
  exact ⟨c, c1, s, c2, _, _, cb, cc, e1, r1, p1, p2, by rw [p3.funs, r2.funs], by rw [p3.acc, r2.acc], k1, k2, g1.symm⟩

/-- The hypothesis is met by a run that pickles in the middle. -/
example : RateOpsOk 0 (sampleOps.take 4 ++ sampleOps.drop 4) := by
  rw [List.take_append_drop]; exact sampleOps_ok

end Verif.Props
