import Verif.Spec.ManyBuilders
import Verif.Proofs.ManyBuilders
import Verif.Props.FlowBuilder
import Verif.Model.Regression

/-! Property theorem C111 (src/core/flow_builder.py): builders in one process do not disturb each other. -/

namespace Verif.Props
open Verif Spec Builder

variable {P : Type} [DecidableEq P] {n : Network P} {d : ℚ}

theorem look_acc {s s' : DFlow} {e : Nat} {v : Rates} (h : s.lookOutflow e = .ok (v, s')) : (∀ j, (s'.inflow j).acc = (s.inflow j).acc) ∧ ∀ j, (s'.outflow j).acc = (s.outflow j).acc := by
  unfold DFlow.lookOutflow at h
  obtain ⟨⟨w, c⟩, h1, h⟩ := bind_eq_ok.mp h
  injection h with h; injection h with _ h2; subst h2
  refine ⟨fun _ => rfl, fun j => ?_⟩
  have hc : c.acc = (s.outflow e).acc := by
    unfold FRC.getValuesAtTime at h1
    split at h1
    · injection h1 with h1; injection h1 with _ h1; rw [h1]
    · split at h1
      · cases h1
      · split at h1
        · injection h1 with h1; injection h1 with _ h1; rw [h1]
        · injection h1 with h1; injection h1 with _ h1; rw [← h1]
  simp only
  unfold setAt
  split
  · rename_i hj; rw [hj]; exact hc
  · rfl

/-- **C111**: several builders in one process. The generator with number `i` was made by a fresh builder of a valid input, with predictors that only use the past; the
others are in any state and may do anything. However the calls of `next` alternate, generator `i` yields the same flows as when the others are not used at all: the
flows after its rounds. It is left as without the others, except that costs may be missing from its cache. -/
theorem C111_alternate (J : Nat → Job P) (i : Nat) (w : List Nat) (hg : (J i).gen = .fresh) (hm : Builder.init n (some d) = .ok (J i).builder)
    (h : Building n (J i).ord (J i).preds d { (J i).builder with built := true } (w.count i - 1))
    (hp : ∀ p, PastOnly n.graph.edges.length ((J i).preds p) (FlowOf (J i).ord (J i).preds { (J i).builder with built := true } (w.count i - 1))) :
    let r := Job.run w J
    let alone := Job.run (w.filter (· = i)) J
    ((w.zip r.1).filter (fun p => p.1 = i)).map Prod.snd = alone.1 ∧
    (∀ m < w.count i, ∃ b, rounds (J i).ord (J i).preds m { (J i).builder with built := true } = .ok b ∧ alone.1[m]? = some (.ok b.flow)) ∧
    (r.2 i).gen = (alone.2 i).gen ∧ ∃ C : P → Option (List PL), (r.2 i).builder = { (alone.2 i).builder with cache := C } ∧ ∀ p x, C p = some x → (alone.2 i).builder.cache p = some x := by
  intro r alone
  obtain ⟨f0, W, hf, hi⟩ := building_inv h
  obtain ⟨b1, f1, g1, g2, _, _, g5, g6, g7, g8, g9, g10, _, _, _, _, g15, _⟩ := init_spec h.input (some d)
  have hb := hm
  unfold Builder.init at hb
  obtain ⟨f, k1, hb⟩ := bind_eq_ok.mp hb
  obtain ⟨imp, _, hb⟩ := bind_eq_ok.mp hb
  obtain ⟨_, _, hb⟩ := bind_eq_ok.mp hb
  obtain ⟨_, _, hb⟩ := bind_eq_ok.mp hb
  obtain ⟨_, _, hb⟩ := bind_eq_ok.mp hb
  obtain ⟨_, _, hb⟩ := bind_eq_ok.mp hb
  injection hb with hb
  rw [hf] at k1; injection k1 with k1; subst k1
  have hfl : (J i).builder.flow = f0 := by rw [← hb]
  have hro : (J i).builder.route = f0.phi := by rw [← hb]
  have hca : (J i).builder.cache = fun _ => none := by rw [← hb]
  have hne : (J i).builder.net = n := by rw [← hb]
  have hbu : (J i).builder.built = false := by rw [← hb]
  let k := w.count i - 1
  let A : DFlow → Prop := fun s => ∀ p, QueuesOnly n.graph.edges.length ((J i).preds p) ∨ (QueuesAndLoadsOnly n.graph.edges.length ((J i).preds p) ∧ LoadsApart n.graph.edges.length s)
  have hA : ∀ m ≤ k, ∀ b, rounds (J i).ord (J i).preds m { (J i).builder with built := true } = .ok b → A b.flow := by
    intro m hm b hb p
    rcases hp p with hq | ⟨hq, hs⟩
    · exact .inl hq
    · exact .inr ⟨hq, hs _ ⟨m, hm, b, hb, rfl⟩⟩
  have hl : Lasting n (J i).preds A := by
    refine ⟨fun s e v s' hs ha p => ?_, fun p s s' t h1 h2 h3 h4 h5 => ?_⟩
    · rcases ha p with hq | ⟨hq, hla⟩
      · exact .inl hq
      · refine .inr ⟨hq, fun j hj => ?_⟩
        obtain ⟨a1, a2⟩ := look_acc hs
        rw [a1, a2]; exact hla j hj
    · refine C59_later h1 h2 h3 n.graph.edges.length _ ?_
      rcases h4 p with hq | ⟨hq, hla⟩
      · exact .inl hq
      · rcases h5 p with hq' | ⟨_, hla'⟩
        · exact .inl hq'
        · exact .inr ⟨hq, hla, hla'⟩
  have hco : Coherent n (J i).preds A { (J i).builder with built := true } := by
    refine ⟨hne, ?_, ?_, ?_, ?_⟩
    · exact ⟨Builder.netOk h.input, f0, [], hf, trivial, by simp only [hfl]; rfl⟩
    · simp only [hro, hfl]; exact le_refl _
    · exact hA 0 (Nat.zero_le _) _ rfl
    · intro p x hx; simp only [hca] at hx; cases hx
  obtain ⟨⟨a1, a2⟩, a3⟩ := Job.fresh_agrees (i := i) h.input h.order h.predictors h.interval hf hl h.clear hA hi hco hbu w J J hg rfl rfl rfl
    (by show w.count i ≤ w.count i - 1 + 1; omega) (Job.Behind.refl _)
  obtain ⟨C, c1, c2⟩ := a2.builder
  refine ⟨a1, ?_, a2.gen, C, c1, c2⟩
  intro m hm
  have hlen : alone.1.length = w.count i := by
    show (Job.run (w.filter (· = i)) J).1.length = _
    rw [Job.run_length, ← List.countP_eq_length_filter]
    unfold List.count
    congr 1
  obtain ⟨b, y1, y2⟩ := a3 m (by rw [show (Job.run (w.filter (· = i)) J).1.length = w.count i from hlen]; exact hm)
  rw [Nat.zero_add] at y1
  exact ⟨b, y1, y2⟩

/-! The hypotheses are met, and the cache is in fact lost. -/

/-- Two fresh builders of the example of C43. -/
def twoJobs (b : Builder (Fin 3)) : Nat → Job (Fin 3) := fun _ => ⟨.fresh, b, buildPreds, List.dedup⟩

theorem buildPreds_past (ok : DFlow → Prop) (p : Fin 3) : PastOnly 4 (buildPreds p) ok := by
  obtain ⟨a, b, _⟩ := C59_queues_only 4
  match p with
  | 0 => exact .inl a
  | 1 => exact .inl b
  | 2 => exact .inl b

/-- The hypotheses of `C111_alternate` are met by two builders of the example of C43; after three calls of generator 0 its costs for the first predictor are cached, and
a round of generator 1 clears them. -/
example : ∃ b, Builder.init buildNet (some 2) = .ok b ∧ (twoJobs b 0).gen = .fresh ∧
    Building buildNet List.dedup buildPreds 2 { b with built := true } ([0, 0, 0, 1, 1, 0, 0].count 0 - 1) ∧
    (∀ p, PastOnly buildNet.graph.edges.length (buildPreds p) (FlowOf List.dedup buildPreds { b with built := true } ([0, 0, 0, 1, 1, 0, 0].count 0 - 1))) ∧
    (((Job.run [0, 0, 0] (twoJobs b)).2 0).builder.cache 0).isSome = true ∧ ((Job.run [0, 0, 0, 1, 1] (twoJobs b)).2 0).builder.cache 0 = none := by
  obtain ⟨b, h1, h2, _⟩ := buildB_sound (show buildB List.dedup buildPreds buildNet 2 4 (fun _ => true) = true by decide +kernel)
  refine ⟨b, h1, rfl, ⟨buildNet_ok, dedup_order, buildPreds_ok, by norm_num, ⟨b, h1, rfl⟩, h2⟩, fun p => buildPreds_past _ p, ?_, ?_⟩
  · have : (match Builder.init buildNet (some 2) with
      | .ok b => (((Job.run [0, 0, 0] (twoJobs b)).2 0).builder.cache 0).isSome
      | .error _ => false) = true := by decide +kernel
    rw [h1] at this; exact this
  · have : (match Builder.init buildNet (some 2) with
      | .ok b => (((Job.run [0, 0, 0, 1, 1] (twoJobs b)).2 0).builder.cache 0).isNone
      | .error _ => false) = true := by decide +kernel
    rw [h1] at this
    exact Option.isNone_iff_eq_none.mp this

/-! `FullNetLinearRegressionPredictor` does not only use the past. -/

/-- Two edges in a row. -/
def rowNet : Network Unit :=
  { ((Network.empty : Network Unit).addEdge 0 1 1 1).addEdge 1 2 1 1 with commodities := [⟨[(0, ⟨[0], [1], ((0 : ℚ) : WithBot ℚ), ⊤⟩)], 2, ()⟩] }

/-- A trained model of the example. -/
def rowPreds : Unit → Predictor := fun _ => Predictors.fullNetReg ⟨2, fun _ => 1, fun _ => true, fun _ => false, 1, 1, 1⟩ (fun rows => .ok (rows.map (fun _ => [])))

/-- What the calls of `next` of two generators, of fresh builders of the same network, come to. -/
def rowRun (w : List Nat) : Option (List (Option (Option Err))) :=
  match Builder.init rowNet (some 2) with
  | .error _ => none
  | .ok b => some ((Job.run w (fun _ => ⟨.fresh, b, rowPreds, List.dedup⟩)).1.map (fun o => match o with
    | .ok _ => none
    | .error e => some e))

/-- **C111** is false for `FullNetLinearRegressionPredictor`: a generator that yields three flows alone raises `ValueError` if another one routes in between. -/
theorem C111_regression_fails : rowRun [0, 0, 0] = some [none, none, none] ∧ rowRun [0, 0, 1, 1, 0] = some [none, none, none, none, some (some .value)] := by
  constructor <;> decide +kernel

end Verif.Props
