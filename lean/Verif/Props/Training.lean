import Verif.Spec.Training
import Verif.Props.Resume
import Verif.Props.Dataset

/-! Property theorems C103 and C104: training of models. -/

namespace Verif.Props
open Verif.Spec Verif.Resume Verif.Training

section
variable {M : Type} {c : Setting} {learners : Learner M → Prop} {ss : List Dataset.Samples} {L : Learner M} {lib : Library} {slot : Option Nat}

theorem dataOf_eq {D D' : Dataset.Data} (h : DataOf c ss D) (h' : DataOf c ss D') : D = D' := by
  unfold DataOf at h h'
  rw [h] at h'
  injection h'

/-- What is always true of a folder with the samples `ss`. -/
structure FolderOk (c : Setting) (learners : Learner M → Prop) (ss : List Dataset.Samples) (d : Folder M) : Prop where
  samples : d.samples = ss
  files : FilesOf c learners ss d

theorem setModel_torn {d : Folder M} (h : FolderOk c learners ss d) : FolderOk c learners ss (setModel d lib slot .torn) := by
  refine ⟨h.samples, ⟨h.files.1, h.files.2.1, fun l s m hm => ?_⟩⟩
  unfold setModel at hm
  dsimp only at hm
  split at hm
  · cases hm
  · exact h.files.2.2 l s m hm

theorem setModel_whole {d : Folder M} (h : FolderOk c learners ss d) {D : Dataset.Data} (hD : DataOf c ss D) (hL : learners L) {m : M} (hm : learn L lib (forSlot c slot D) = .ok m) :
    FolderOk c learners ss (setModel d lib slot (.whole m)) := by
  refine ⟨h.samples, ⟨h.files.1, h.files.2.1, fun l s m' hm' => ?_⟩⟩
  unfold setModel at hm'
  dsimp only at hm'
  split at hm'
  · rename_i he
    injection hm' with hm'
    rw [he.1, he.2, ← hm']
    exact ⟨D, L, hD, hL, hm⟩
  · exact h.files.2.2 l s m' hm'

theorem prepare_ok {d : Folder M} (h : FolderOk c learners ss d) : FolderOk c learners ss (prepare lib slot d) := by
  unfold prepare
  split
  · exact h
  · split
    · exact h
    · exact setModel_torn h

theorem saveMasks_ok {d : Folder M} (h : FolderOk c learners ss d) {D : Dataset.Data} (hD : DataOf c ss D) : ∀ x ∈ saveMasks D d, FolderOk c learners ss x := by
  intro x hx
  have hin : ∀ a, (File.whole D.inputMask) = .whole a → ∃ D, DataOf c ss D ∧ D.inputMask = a := fun a ha => ⟨D, hD, by injection ha⟩
  have hout : ∀ a, (File.whole D.outputMask) = .whole a → ∃ D, DataOf c ss D ∧ D.outputMask = a := fun a ha => ⟨D, hD, by injection ha⟩
  unfold saveMasks at hx
  simp only [List.mem_cons, List.not_mem_nil, or_false] at hx
  rcases hx with rfl | rfl | rfl | rfl
  · exact ⟨h.samples, fun a ha => (by cases ha), h.files.2.1, h.files.2.2⟩
  · exact ⟨h.samples, hin, h.files.2.1, h.files.2.2⟩
  · exact ⟨h.samples, hin, fun a ha => (by cases ha), h.files.2.2⟩
  · exact ⟨h.samples, hin, hout, h.files.2.2⟩

theorem withMasks_ok {d : Folder M} (h : FolderOk c learners ss d) {D : Dataset.Data} (hD : DataOf c ss D) : FolderOk c learners ss (withMasks D d) :=
  saveMasks_ok h hD _ (by simp [saveMasks])

theorem fitting_ok {d : Folder M} (h : FolderOk c learners ss d) {D : Dataset.Data} (hD : DataOf c ss D) (hL : learners L) : ∀ x ∈ (fitting c L lib slot D d).1, FolderOk c learners ss x := by
  intro x hx
  unfold fitting at hx
  split at hx
  · simp at hx
  · rename_i m hm
    simp only [List.mem_cons, List.not_mem_nil, or_false] at hx
    rcases hx with rfl | rfl
    · exact setModel_torn h
    · exact setModel_whole h hD hL hm

theorem learnHandle_ok {d : Folder M} (h : FolderOk c learners ss d) {has : Option Dataset.Data} (hhas : ∀ D, has = some D → DataOf c ss D) (hL : learners L) :
    ∀ x ∈ (Training.trainHandle c L lib slot has d).1, FolderOk c learners ss x := by
  intro x hx
  have hp := prepare_ok (lib := lib) (slot := slot) h
  unfold Training.trainHandle at hx
  simp only [andThen, List.cons_append, List.nil_append, List.mem_cons] at hx
  rcases hx with rfl | hx
  · exact hp
  split at hx
  · rename_i D
    exact fitting_ok hp (hhas D rfl) hL x hx
  · split at hx
    · simp at hx
    · rename_i D hD
      have hD : DataOf c ss D := by unfold dataset at hD; rw [h.samples] at hD; exact hD
      rcases List.mem_append.mp hx with hx | hx
      · exact saveMasks_ok hp hD x hx
      · exact fitting_ok (withMasks_ok hp hD) hD hL x hx

theorem folder_ok {w0 w : Place (Folder M)} (h0 : FolderOk c learners ss w0.files) (hw : History (learnTasks c learners ss) w0 w) : FolderOk c learners ss w.files := by
  refine history_inv (I := FolderOk c learners ss) ?_ h0 hw
  intro t ht w h hs x hx
  rcases List.mem_cons.mp hx with rfl | hx
  · exact h
  rcases ht with rfl | ⟨L, lib, slot, has, hL, hhas, rfl⟩
  · change x ∈ (match dataset c w.files with | .error _ => (([], .raised) : Trace (Folder M)) | .ok D => (saveMasks D w.files, .returned)).1 at hx
    split at hx
    · simp at hx
    · rename_i D hD
      exact saveMasks_ok h (by unfold dataset at hD; rw [h.samples] at hD; exact hD) x hx
  · exact learnHandle_ok h hhas hL x hx

theorem samplesOnly_ok : FolderOk c learners ss (samplesOnly (M := M) ss).files :=
  ⟨rfl, fun a ha => (by cases ha), fun a ha => (by cases ha), fun l s m hm => (by cases hm)⟩

/-- **C103.** As long as the samples stay the same: whatever was attempted in the folder — any number of trainings of any models in any processes, stopped anywhere by exceptions or killed — complete mask files hold the masks of
the dataset, and every complete model was learned from it. -/
theorem C103_agree {w : Place (Folder M)} (hw : History (learnTasks c learners ss) (samplesOnly ss) w) : FilesOf c learners ss w.files := (folder_ok samplesOnly_ok hw).files

theorem prepare_masks (d : Folder M) : (prepare lib slot d).inMask = d.inMask ∧ (prepare lib slot d).outMask = d.outMask ∧ (prepare lib slot d).samples = d.samples := by
  unfold prepare
  split
  · exact ⟨rfl, rfl, rfl⟩
  · split <;> exact ⟨rfl, rfl, rfl⟩

theorem call_history {D : Type} {tasks : LockedTask D → Prop} {w0 w : Place D} (h : History tasks w0 w) {t : LockedTask D} (ht : tasks t) : History tasks w0 (call t w).1 := .attempt h ht .ends

theorem trainFull_place (part : Option (List Bool)) (w : Place (Folder M)) : (trainFull part c L lib w).1 = (call (fitTask c L lib none none) w).1 := by
  unfold trainFull
  split <;> rename_i h <;> rw [h]

theorem loadMask_of {part : Option (List Bool)} {f : File (List Bool)} (hf : f ≠ .torn) {a : List Bool} (h : loadMask part f = some a) : f = .whole a := by
  cases f with
  | absent => cases h
  | torn => exact absurd rfl hf
  | whole m =>
    change (if m.length = 1 then none else some m) = some a at h
    split at h
    · cases h
    · injection h with h; rw [h]

theorem loadMasks_of {part : Option (List Bool)} {d : Folder M} (hd : MasksNotTorn d) {masks : List Bool × List Bool} (h : loadMasks part d = some masks) :
    d.inMask = .whole masks.1 ∧ d.outMask = .whole masks.2 := by
  unfold loadMasks at h
  split at h
  · rename_i a b ha hb
    injection h with h
    rw [← h]
    exact ⟨loadMask_of hd.1 ha, loadMask_of hd.2 hb⟩
  · cases h

theorem loadMasks_data {part : Option (List Bool)} {d : Folder M} (hd : MasksNotTorn d) (hok : FilesOf c learners ss d) {masks : List Bool × List Bool} (h : loadMasks part d = some masks) :
    ∃ D, DataOf c ss D ∧ masks = (D.inputMask, D.outputMask) := by
  obtain ⟨h1, h2⟩ := loadMasks_of hd h
  obtain ⟨D, hD, ha⟩ := hok.1 _ h1
  obtain ⟨D', hD', hb⟩ := hok.2.1 _ h2
  rw [dataOf_eq hD' hD] at hb
  exact ⟨D, hD, Prod.ext ha.symm hb.symm⟩

theorem trainFull_masks {part : Option (List Bool)} {w : Place (Folder M)} (hok : FolderOk c learners ss w.files) (hd : MasksNotTorn w.files) {masks : List Bool × List Bool}
    (h : (trainFull part c L lib w).2 = some masks) : ∃ D, DataOf c ss D ∧ masks = (D.inputMask, D.outputMask) := by
  unfold trainFull at h
  split at h
  · cases h
  · dsimp only at h
    unfold freshMasks at h
    split at h
    · rename_i D hD
      injection h with h
      exact ⟨D, by unfold dataset at hD; rw [hok.samples] at hD; exact hD, h.symm⟩
    · cases h
  · rename_i w' hc
    have : w' = w := by
      unfold call at hc
      split at hc
      · injection hc with hc; exact hc.symm
      · injection hc with _ hc
        revert hc
        cases ((fitTask c L lib none none).handle w.files).2 <;> (intro hc; cases hc)
    subst this
    exact loadMasks_data hd hok.files h

/-- **C103.** The predictor of a full-network model, in whatever process and after whatever happened before, if the samples stay the same and no mask file was left incomplete: the model that is asked was learned from the
dataset whose masks select its inputs and outputs. (The model file is read when the predictor is built, in a state `w'` later than the training call.) -/
theorem C103_full_partial {part : Option (List Bool)} {w w' : Place (Folder M)} (hL : learners L) (hw : History (learnTasks c learners ss) (samplesOnly ss) w) (hd : MasksNotTorn w.files) {masks : List Bool × List Bool}
    (h : (trainFull part c L lib w).2 = some masks) (hw' : History (learnTasks c learners ss) (trainFull part c L lib w).1 w') {apply : M → Matrix → Py Matrix} {capacity : Nat → ℚ} {p : Predictor}
    (hp : loadFull apply c capacity lib masks w'.files = some p) :
    ∃ D m L', DataOf c ss D ∧ learners L' ∧ learn L' lib D = .ok m ∧ p = Predictors.fullNet (setup c capacity (D.inputMask, D.outputMask)) (apply m) := by
  have hok := folder_ok samplesOnly_ok hw
  obtain ⟨D, hD, rfl⟩ := trainFull_masks hok hd h
  have hw1 : History (learnTasks c learners ss) (samplesOnly ss) (trainFull part c L lib w).1 := by
    rw [trainFull_place]
    exact call_history hw (.inr ⟨L, lib, none, none, hL, fun D h => (by cases h), rfl⟩)
  have hok' := C103_agree (History.trans hw1 hw')
  unfold loadFull at hp
  split at hp
  · rename_i m hm
    injection hp with hp
    obtain ⟨D', L', hD', hL', hm'⟩ := hok'.2.2 lib none m hm
    rw [dataOf_eq hD' hD] at hm'
    exact ⟨D, m, L', hD, hL', hm', hp.symm⟩
  · cases hp

theorem trainLoop_inv {w0 : Place (Folder M)} (h0 : FolderOk c learners ss w0.files) (hL : learners L) {D : Dataset.Data} (hD : DataOf c ss D) : ∀ (es : List Nat) (has : Option Dataset.Data) (masks : List Bool × List Bool)
    (w : Place (Folder M)), History (learnTasks c learners ss) w0 w → (∀ D', has = some D' → DataOf c ss D') → masks = (D.inputMask, D.outputMask) →
    History (learnTasks c learners ss) w0 (trainLoop c L lib es has masks w).1 ∧ ∀ masks', (trainLoop c L lib es has masks w).2 = some masks' → masks' = (D.inputMask, D.outputMask) := by
  intro es
  induction es with
  | nil =>
    intro has masks w hw _ hm
    exact ⟨hw, fun masks' h => by (injection h with h; rw [← h]; exact hm)⟩
  | cons e es ih =>
    intro has masks w hw hhas hm
    unfold trainLoop
    split
    · exact ⟨hw, fun masks' h => by cases h⟩
    · exact ih has masks w hw hhas hm
    · have hw1 : History (learnTasks c learners ss) w0 (call (fitTask c L lib (some e) has) w).1 := call_history hw (.inr ⟨L, lib, some e, has, hL, hhas, rfl⟩)
      split
      · rename_i w' hc
        rw [hc] at hw1
        exact ⟨hw1, fun masks' h => by cases h⟩
      · rename_i w' hc
        rw [hc] at hw1
        exact ih has masks w' hw1 hhas hm
      · rename_i w' hc
        rw [hc] at hw1
        split
        · exact ⟨hw1, fun masks' h => by cases h⟩
        · rename_i D' hD'
          have hD'' : DataOf c ss D' := by
            cases has with
            | some D1 => injection hD' with hD'; rw [← hD']; exact hhas D1 rfl
            | none =>
              have hd : (dataset c w.files).toOption = some D' := hD'
              have hok := folder_ok h0 hw
              cases hx : dataset c w.files with
              | error x => rw [hx] at hd; cases hd
              | ok D2 =>
                rw [hx] at hd
                have : D2 = D' := by injection hd
                rw [this] at hx
                unfold dataset at hx
                rw [hok.samples] at hx
                exact hx
          rw [dataOf_eq hD'' hD]
          exact ih (some D) (D.inputMask, D.outputMask) w' hw1 (fun D3 h => by (injection h with h; rw [← h]; exact hD)) rfl

theorem saveMasks_last (D : Dataset.Data) (d : Folder M) : (saveMasks D d).getLast?.getD d = withMasks D d := rfl

theorem trainEdges_inv {part : Option (List Bool)} {w : Place (Folder M)} (hL : learners L) (hw : History (learnTasks c learners ss) (samplesOnly ss) w) (hd : MasksNotTorn w.files) :
    History (learnTasks c learners ss) (samplesOnly ss) (trainEdges part c L lib w).1 ∧
      ∀ masks, (trainEdges part c L lib w).2 = some masks → ∃ D, DataOf c ss D ∧ masks = (D.inputMask, D.outputMask) := by
  have hok := folder_ok samplesOnly_ok hw
  unfold trainEdges
  split
  · split
    · exact ⟨hw, fun masks h => by cases h⟩
    · rename_i masks hm
      obtain ⟨D, hD, hDm⟩ := loadMasks_data hd hok.files hm
      obtain ⟨h1, h2⟩ := trainLoop_inv (lib := lib) samplesOnly_ok hL hD (List.range c.edges) none masks w hw (fun D' h => by cases h) hDm
      exact ⟨h1, fun masks' h => ⟨D, hD, h2 masks' h⟩⟩
  · split
    · exact ⟨hw, fun masks h => by cases h⟩
    · rename_i D hDd
      have hD : DataOf c ss D := by unfold dataset at hDd; rw [hok.samples] at hDd; exact hDd
      have hw1 : History (learnTasks c learners ss) (samplesOnly ss) ⟨w.locked, withMasks D w.files⟩ := by
        have hfree := History.unlock 0 hw
        have hs : skips (maskTask c) (⟨Function.update w.locked 0 false, w.files⟩ : Place (Folder M)) = false := by
          show (Function.update w.locked 0 false 0 || false) = false
          rw [Function.update_self]; rfl
        have hh : (maskTask c).handle w.files = (saveMasks D w.files, .returned) := by
          show (match dataset c w.files with | .error _ => (([], .raised) : Trace (Folder M)) | .ok D => (saveMasks D w.files, .returned)) = _
          rw [hDd]
        have hmem : withMasks D w.files ∈ w.files :: ((maskTask c).handle w.files).1 := by
          rw [hh]; simp [saveMasks]
        cases hl : w.locked 0 with
        | false =>
          have := History.attempt hfree (t := maskTask c) (.inl rfl) (.interrupted _ hs hmem)
          have he : Function.update (Function.update w.locked 0 false) 0 false = w.locked := by
            rw [Function.update_idem, ← hl, Function.update_eq_self]
          rw [← he]; exact this
        | true =>
          have := History.attempt hfree (t := maskTask c) (.inl rfl) (.killed _ hs hmem)
          have he : Function.update (Function.update w.locked 0 false) 0 true = w.locked := by
            rw [Function.update_idem, ← hl, Function.update_eq_self]
          rw [← he]; exact this
      obtain ⟨h1, h2⟩ := trainLoop_inv (lib := lib) samplesOnly_ok hL hD (List.range c.edges) (some D) (D.inputMask, D.outputMask) _ hw1 (fun D' h => by (injection h with h; rw [← h]; exact hD)) rfl
      exact ⟨h1, fun masks' h => ⟨D, hD, h2 masks' h⟩⟩

/-- **C103.** The predictor of neighbourhood models, in the same generality: the model of each edge in the output mask was learned from the dataset whose masks are used, with the additional masks of this edge. -/
theorem C103_edges_partial {part : Option (List Bool)} {w w' : Place (Folder M)} (hL : learners L) (hw : History (learnTasks c learners ss) (samplesOnly ss) w) (hd : MasksNotTorn w.files) {masks : List Bool × List Bool}
    (h : (trainEdges part c L lib w).2 = some masks) (hw' : History (learnTasks c learners ss) (trainEdges part c L lib w).1 w') {apply : M → Matrix → Py Matrix} {capacity : Nat → ℚ} {p : Predictor}
    (hp : loadEdges apply c capacity lib masks w'.files = some p) :
    ∃ D models, DataOf c ss D ∧ p = Predictors.neighborhood (setup c capacity (D.inputMask, D.outputMask)) c.near models ∧
      ∀ e < c.edges, D.outputMask.getD e false = true → ∃ m L', learners L' ∧ learn L' lib (forSlot c (some e) D) = .ok m ∧ models e = apply m := by
  obtain ⟨hw1, hm⟩ := trainEdges_inv (part := part) (lib := lib) hL hw hd
  obtain ⟨D, hD, rfl⟩ := hm masks h
  have hok := C103_agree (History.trans hw1 hw')
  unfold loadEdges at hp
  split at hp
  · rename_i hall
    injection hp with hp
    refine ⟨D, _, hD, hp.symm, fun e he ho => ?_⟩
    have := List.all_eq_true.mp hall e (List.mem_range.mpr he)
    dsimp only at this
    rw [ho] at this
    simp only [Bool.not_true, Bool.false_or, Bool.and_eq_true] at this
    obtain ⟨_, hsome⟩ := this
    cases hmod : w'.files.model lib (some e) with
    | absent => rw [hmod] at hsome; cases hsome
    | torn => rw [hmod] at hsome; cases hsome
    | whole m =>
      obtain ⟨D', L', hD', hL', hm'⟩ := hok.2.2 lib (some e) m hmod
      rw [dataOf_eq hD' hD] at hm'
      exact ⟨m, L', hL', hm', rfl⟩
  · cases hp

/-! What the models are trained with -/

theorem itemsFrom_eq (D : Dataset.Data) (f : Nat → List ℚ × List ℚ) (n : Nat) (hend : D.get (n : Int) = .error .index) : ∀ (fuel i : Nat), i ≤ n → n < fuel + i → (∀ q, i ≤ q → q < n → D.get (q : Int) = .ok (f q)) →
    itemsFrom D fuel i = .ok ((List.range (n - i)).map (fun q => f (i + q))) := by
  intro fuel
  induction fuel with
  | zero => intro i h1 h2; omega
  | succ fuel ih =>
    intro i h1 h2 h
    unfold itemsFrom
    rcases Nat.eq_or_lt_of_le h1 with he | hlt
    · subst he
      rw [hend]
      simp
    · rw [h i le_rfl hlt]
      show (do let r ← itemsFrom D fuel (i + 1); pure (f i :: r) : Py _) = _
      rw [ih (i + 1) hlt (by omega) (fun q h1 h2 => h q (by omega) h2), ok_bind, py_pure]
      obtain ⟨m, hm⟩ : ∃ m, n - i = m + 1 := ⟨n - i - 1, by omega⟩
      rw [hm, List.range_succ_eq_map, List.map_cons, List.map_map, show n - (i + 1) = m by omega]
      simp only [Nat.add_zero, Function.comp_def, Nat.succ_eq_add_one]
      congr 2
      refine List.map_congr_left (fun q _ => ?_)
      congr 1; omega

theorem new_facts {edges past future : Nat} {r d h : ℚ} {files : List Dataset.Samples} {D : Dataset.Data} (hn : Dataset.new edges past future r d h files = .ok D) : D.data = files := by
  unfold Dataset.new at hn
  obtain ⟨st, _, hn⟩ := bind_eq_ok.mp hn
  obtain ⟨ti, _, hn⟩ := bind_eq_ok.mp hn
  split at hn
  · cases hn
  · obtain ⟨⟨a, b⟩, _, hn⟩ := bind_eq_ok.mp hn
    injection hn with hn
    rw [← hn]

end

section rows
variable {edges past future : Nat} {r d h : ℚ} {k : Nat} {flows : List DFlow} {D : Dataset.Data}

/-- The sample of a flow, as it should be. -/
def sampleOf (edges past future : Nat) (r : ℚ) (k : Nat) (D : Dataset.Data) (am ao : Option (List Bool)) (s : DFlow) (i : Nat) : List ℚ × List ℚ :=
  ((i * r : ℚ) :: (table (queueAt s) (chosen edges D.inputMask am) (before (i * r) (k * r) past) ++ table (loadAt s) (chosen edges D.inputMask am) (before (i * r) (k * r) past)),
    table (queueAt s) (chosen edges D.outputMask ao) (after (i * r) (k * r) future))

theorem items_data (hg : Grid past r d h k) (hf : FlowsOk edges flows) (hne : flows ≠ []) (hD : DatasetOf edges past future r d h flows D) (hN : 0 < sampleCount future r h k) {am ao : Option (List Bool)}
    (hm : ∀ m, am = some m → m.length = edges) (ho : ∀ m, ao = some m → m.length = edges) :
    ∃ xs, items ({ D with addInput := am, addOutput := ao } : Dataset.Data) = .ok xs ∧ xs.length = flows.length * sampleCount future r h k ∧
      ∀ (j : Nat) (s : DFlow), flows[j]? = some s → ∀ i < sampleCount future r h k, xs[j * sampleCount future r h k + i]? = some (sampleOf edges past future r k D am ao s i) := by
  set N := sampleCount future r h k with hNdef
  obtain ⟨files, f1, f2⟩ := hD
  obtain ⟨files', D', g1, g2, g3, ⟨g4, g5, g6⟩, g7, g8⟩ := C61_samples future hg hf hne
  rw [f1] at g1; injection g1 with g1; subst g1
  rw [f2] at g2; injection g2 with g2; subst g2
  have hget := g7 am ao hm ho
  have hdata := new_facts f2
  have hlen := (Builder.mapPy_inv f1).1
  have hpos : 0 < flows.length := List.length_pos_of_ne_nil hne
  have hspf : D.samplesPerFlow = N := by
    have h1 : D.len = (flows.length : Int) * D.samplesPerFlow := by unfold Dataset.Data.len; rw [hdata, hlen]
    rw [h1] at g3
    have h2 := mul_left_cancel₀ (show (flows.length : Int) ≠ 0 by omega) g3
    rw [h2, hNdef]
    unfold sampleCount at hNdef ⊢
    omega
  set E : Dataset.Data := { D with addInput := am, addOutput := ao } with hE
  have hElen : E.len = ((flows.length * N : Nat) : Int) := by
    unfold Dataset.Data.len
    show (D.data.length : Int) * D.samplesPerFlow = _
    rw [hdata, hlen, hspf]; push_cast; rfl
  have hend : E.get ((flows.length * N : Nat) : Int) = .error .index := by
    unfold Dataset.Data.get
    have h0 : E.samplesPerFlow = (N : Int) := hspf
    rw [h0, if_neg (by omega)]
    have h1 : ((flows.length * N : Nat) : Int).fdiv (N : Int) = (flows.length : Int) := by
      rw [Int.fdiv_eq_ediv_of_nonneg _ (by omega)]
      push_cast
      exact Int.mul_ediv_cancel _ (by omega)
    have h2 : Dataset.rdInt E.data (flows.length : Int) = .error .index := by
      unfold Dataset.rdInt
      rw [if_pos (by omega), show E.data = files from hdata]
      unfold rd
      rw [show ((flows.length : Int)).toNat = flows.length by omega, List.getElem?_eq_none (by omega)]
    simp only [h1, h2]
    rfl
  have hall : ∀ q, q < flows.length * N → ∃ s, flows[q / N]? = some s ∧ E.get (q : Int) = .ok (sampleOf edges past future r k D am ao s (q % N)) := by
    intro q hq
    have h1 : q / N < flows.length := Nat.div_lt_of_lt_mul (by rw [Nat.mul_comm]; exact hq)
    refine ⟨flows[q / N], List.getElem?_eq_getElem h1, ?_⟩
    have := hget (q / N) flows[q / N] (List.getElem?_eq_getElem h1) (q % N) (Nat.mod_lt _ hN)
    have hq' : ((q / N : Nat) : Int) * (N : Int) + ((q % N : Nat) : Int) = (q : Int) := by
      have := Nat.div_add_mod q N
      rw [Nat.mul_comm] at this
      exact_mod_cast this
    rw [hq'] at this
    exact this
  have hit := itemsFrom_eq E (fun q => sampleOf edges past future r k D am ao (flows.getD (q / N) (flows.head hne)) (q % N)) (flows.length * N) hend (E.len.natAbs + 2) 0 (Nat.zero_le _)
    (by rw [hElen]; omega) (by
      intro q _ hq
      obtain ⟨s, h1, h2⟩ := hall q hq
      rw [h2, List.getD_eq_getElem?_getD, h1]; rfl)
  refine ⟨_, hit, by simp, fun j s hj i hi => ?_⟩
  have hjl : j < flows.length := (List.getElem?_eq_some_iff.mp hj).1
  have hlt : j * N + i < flows.length * N := by
    calc j * N + i < j * N + N := by omega
      _ = (j + 1) * N := by ring
      _ ≤ flows.length * N := Nat.mul_le_mul_right _ hjl
  rw [List.getElem?_map, Nat.sub_zero, List.getElem?_range hlt]
  simp only [Option.map_some, Nat.zero_add]
  have h1 : (j * N + i) / N = j := by
    rw [Nat.mul_comm, Nat.mul_add_div hN, Nat.div_eq_of_lt hi, Nat.add_zero]
  have h2 : (j * N + i) % N = i := by
    rw [Nat.mul_comm, Nat.mul_add_mod, Nat.mod_eq_of_lt hi]
  rw [h1, h2, List.getD_eq_getElem?_getD, hj]; rfl

theorem sampleOf_length (am ao : Option (List Bool)) (s s' : DFlow) (i i' : Nat) :
    (sampleOf edges past future r k D am ao s i).1.length = (sampleOf edges past future r k D am ao s' i').1.length ∧
      (sampleOf edges past future r k D am ao s i).2.length = (sampleOf edges past future r k D am ao s' i').2.length := by
  unfold sampleOf
  simp only [List.length_cons, List.length_append, table_length, before, after, List.length_map, List.length_range, and_self]

theorem asArray_ok {rows : Matrix} (h : ∀ x ∈ rows, ∀ y ∈ rows, x.length = y.length) : asArray rows = .ok rows := by
  unfold asArray
  rw [if_pos]
  refine List.all_eq_true.mpr (fun x hx => decide_eq_true ?_)
  cases rows with
  | nil => cases hx
  | cons a l => exact h x hx a (List.mem_cons_self ..)

theorem learn_data {M : Type} (hg : Grid past r d h k) (hf : FlowsOk edges flows) (hne : flows ≠ []) (hD : DatasetOf edges past future r d h flows D) (hN : 0 < sampleCount future r h k) {am ao : Option (List Bool)}
    (hm : ∀ m, am = some m → m.length = edges) (ho : ∀ m, ao = some m → m.length = edges) :
    ∃ X Y : Matrix, X.length = flows.length * sampleCount future r h k ∧ Y.length = flows.length * sampleCount future r h k ∧
      (∀ (j : Nat) (s : DFlow), flows[j]? = some s → ∀ i < sampleCount future r h k,
        X[j * sampleCount future r h k + i]? = some (sampleOf edges past future r k D am ao s i).1 ∧ Y[j * sampleCount future r h k + i]? = some (sampleOf edges past future r k D am ao s i).2) ∧
      ∀ (L : Learner M) (lib : Library), learn L lib ({ D with addInput := am, addOutput := ao } : Dataset.Data) =
        (do let n ← trainCount X.length; L lib (X.take n) (X.drop n) (Y.take n) (Y.drop n)) := by
  obtain ⟨xs, h1, h2, h3⟩ := items_data hg hf hne hD hN hm ho
  have hmem : ∀ x ∈ xs, ∃ s i, x = sampleOf edges past future r k D am ao s i := by
    intro x hx
    obtain ⟨q, hq, rfl⟩ := List.mem_iff_getElem.mp hx
    rw [h2] at hq
    have h4 : q / sampleCount future r h k < flows.length := Nat.div_lt_of_lt_mul (by rw [Nat.mul_comm]; exact hq)
    have h5 := h3 _ _ (List.getElem?_eq_getElem h4) (q % sampleCount future r h k) (Nat.mod_lt _ hN)
    rw [show q / sampleCount future r h k * sampleCount future r h k + q % sampleCount future r h k = q by rw [Nat.mul_comm]; exact Nat.div_add_mod q _] at h5
    exact ⟨_, _, (List.getElem?_eq_some_iff.mp h5).2⟩
  have hnil : xs.isEmpty = false := by
    rw [List.isEmpty_eq_false_iff]
    intro hx
    rw [hx] at h2
    have : 0 < flows.length * sampleCount future r h k := Nat.mul_pos (List.length_pos_of_ne_nil hne) hN
    rw [← h2] at this
    exact absurd this (by simp)
  refine ⟨xs.map Prod.fst, xs.map Prod.snd, by rw [List.length_map, h2], by rw [List.length_map, h2], fun j s hj i hi => ?_, fun L lib => ?_⟩
  · rw [List.getElem?_map, List.getElem?_map, h3 j s hj i hi]
    exact ⟨rfl, rfl⟩
  · unfold learn
    rw [h1, ok_bind, hnil]
    simp only [Bool.false_eq_true, if_false]
    rw [asArray_ok, ok_bind, asArray_ok, ok_bind, List.length_map]
    · intro x hx y hy
      obtain ⟨a, ha, rfl⟩ := List.mem_map.mp hx
      obtain ⟨b, hb, rfl⟩ := List.mem_map.mp hy
      obtain ⟨s, i, rfl⟩ := hmem a ha
      obtain ⟨s', i', rfl⟩ := hmem b hb
      exact (sampleOf_length am ao s s' i i').2
    · intro x hx y hy
      obtain ⟨a, ha, rfl⟩ := List.mem_map.mp hx
      obtain ⟨b, hb, rfl⟩ := List.mem_map.mp hy
      obtain ⟨s, i, rfl⟩ := hmem a ha
      obtain ⟨s', i', rfl⟩ := hmem b hb
      exact (sampleOf_length am ao s s' i i').1

end rows

section asked
variable {M : Type} {c : Setting} {k : Nat} {flows : List DFlow} {ss : List Dataset.Samples} {D : Dataset.Data} {j : Nat} {s : DFlow} {net : EdgeData} {i : Nat} {capacity : Nat → ℚ}

theorem new_masks {edges past future : Nat} {r d h : ℚ} {files : List Dataset.Samples} {D : Dataset.Data} (hn : Dataset.new edges past future r d h files = .ok D) : D.addInput = none ∧ D.addOutput = none := by
  unfold Dataset.new at hn
  obtain ⟨st, _, hn⟩ := bind_eq_ok.mp hn
  obtain ⟨ti, _, hn⟩ := bind_eq_ok.mp hn
  split at hn
  · cases hn
  · obtain ⟨⟨a, b⟩, _, hn⟩ := bind_eq_ok.mp hn
    injection hn with hn
    rw [← hn]
    exact ⟨rfl, rfl⟩

/-- **C103.** What a full-network model is asked: if the samples were made from the flows `flows`, every model is learned from the first nine tenths of the rows of matrices `X` and `Y` with one row for each sample of each flow,
and at the time of the `i`-th sample of the `j`-th flow the predictor with the masks of the dataset depends only on the answer to this row of `X`. If the answer is the row of `Y`, the predicted queues are the true ones. -/
theorem C103_asked (hd : c.interval = k * c.reroute) (hg : Grid c.past c.reroute c.interval c.horizon k) (hf : FlowsOk c.edges flows)
    (hss : Builder.mapPy (Dataset.samplesOf c.edges c.past c.horizon c.reroute c.interval) flows = .ok ss) (hD : DataOf c ss D) (hN : 0 < sampleCount c.future c.reroute c.horizon k) (hne : flows ≠ []) :
    ∃ X Y : Matrix, X.length = flows.length * sampleCount c.future c.reroute c.horizon k ∧ Y.length = X.length ∧
      (∀ (L : Learner M) lib, learn L lib D = (do let n ← trainCount X.length; L lib (X.take n) (X.drop n) (Y.take n) (Y.drop n))) ∧
      ∀ j s net i, flows[j]? = some s → Reached net s → i < sampleCount c.future c.reroute c.horizon k → ∃ row target, X[j * sampleCount c.future c.reroute c.horizon k + i]? = some row ∧
        Y[j * sampleCount c.future c.reroute c.horizon k + i]? = some target ∧
        (∀ m m' : Matrix → Py Matrix, m [row] = m' [row] → (Predictors.fullNet (setup c capacity (D.inputMask, D.outputMask)) m).predict (i * c.reroute) s =
          (Predictors.fullNet (setup c capacity (D.inputMask, D.outputMask)) m').predict (i * c.reroute) s) ∧
        (eps < c.interval → c.horizon ≤ s.phi → (∀ e < c.edges, capacity e = net.capacity e) → ∀ m : Matrix → Py Matrix, m [row] = .ok [target] →
          ∃ ps, (Predictors.fullNet (setup c capacity (D.inputMask, D.outputMask)) m).predict (i * c.reroute) s = .ok ps ∧ ps.length = c.edges ∧ ∀ e < c.edges, ∃ p F, ps[e]? = some p ∧ Evals p F ∧
            ∀ a ≤ c.future, F (i * c.reroute + a * c.interval) = queueAt s e (i * c.reroute + a * c.interval)) := by
  have hDO : DatasetOf c.edges c.past c.future c.reroute c.interval c.horizon flows D := ⟨ss, hss, hD⟩
  obtain ⟨X, Y, x1, x2, x3, x4⟩ := learn_data (M := M) hg hf hne hDO hN (am := none) (ao := none) (by simp) (by simp)
  have hD0 : ({ D with addInput := none, addOutput := none } : Dataset.Data) = D := by
    obtain ⟨h1, h2⟩ := new_masks hD
    cases D
    simp only at h1 h2
    rw [h1, h2]
  rw [hD0] at x4
  refine ⟨X, Y, x1, x2.trans x1.symm, x4, fun j s net i hj hr hi => ?_⟩
  obtain ⟨row, target, h1, h2, h3⟩ := C74_full_net (c := setup c capacity (D.inputMask, D.outputMask)) hd hg hf hDO (fun e _ => rfl) (fun e _ => rfl) hj hr hi
  obtain ⟨files', D', g1, g2, g3, _, g7, g8⟩ := C61_samples c.future hg hf hne
  rw [hss] at g1; injection g1 with g1; subst g1
  have hDD : D' = D := by unfold DataOf at hD; rw [g2] at hD; injection hD
  subst hDD
  have hget := g7 none none (by simp) (by simp) j s hj i hi
  rw [hD0] at hget
  have h1' : D'.get (j * sampleCount c.future c.reroute c.horizon k + i) = .ok (row, target) := h1
  rw [hget] at h1'
  injection h1' with h1'
  obtain ⟨y1, y2⟩ := x3 j s hj i hi
  have hso : sampleOf c.edges c.past c.future c.reroute k D' none none s i = (row, target) := h1'
  rw [hso] at y1 y2
  exact ⟨row, target, y1, y2, h2, h3⟩

/-- **C103.** What the models of single edges are asked, in the same setting: the model of edge `e` is learned from matrices with the additional masks of the edge, and asked about rows of this matrix. -/
theorem C103_asked_edges (hd : c.interval = k * c.reroute) (hg : Grid c.past c.reroute c.interval c.horizon k) (hf : FlowsOk c.edges flows)
    (hss : Builder.mapPy (Dataset.samplesOf c.edges c.past c.horizon c.reroute c.interval) flows = .ok ss) (hD : DataOf c ss D) (hN : 0 < sampleCount c.future c.reroute c.horizon k) (hne : flows ≠ []) :
    ∃ X Y : Nat → Matrix, (∀ e < c.edges, (X e).length = flows.length * sampleCount c.future c.reroute c.horizon k ∧ (Y e).length = (X e).length) ∧
      (∀ e < c.edges, ∀ (L : Learner M) lib, learn L lib (forSlot c (some e) D) =
        (do let n ← trainCount (X e).length; L lib ((X e).take n) ((X e).drop n) ((Y e).take n) ((Y e).drop n))) ∧
      ∀ j s net i, flows[j]? = some s → Reached net s → i < sampleCount c.future c.reroute c.horizon k → ∃ row : Nat → List ℚ,
        (∀ e < c.edges, D.outputMask.getD e false = true → (X e)[j * sampleCount c.future c.reroute c.horizon k + i]? = some (row e)) ∧
        ∀ m m' : Nat → Matrix → Py Matrix, (∀ e < c.edges, D.outputMask.getD e false = true → m e [row e] = m' e [row e]) →
          (Predictors.neighborhood (setup c capacity (D.inputMask, D.outputMask)) c.near m).predict (i * c.reroute) s =
          (Predictors.neighborhood (setup c capacity (D.inputMask, D.outputMask)) c.near m').predict (i * c.reroute) s := by
  have hDO : DatasetOf c.edges c.past c.future c.reroute c.interval c.horizon flows D := ⟨ss, hss, hD⟩
  obtain ⟨files', D', g1, g2, g3, ⟨g4, g5, _⟩, g7, g8⟩ := C61_samples c.future hg hf hne
  rw [hss] at g1; injection g1 with g1; subst g1
  have hDD : D' = D := by unfold DataOf at hD; rw [g2] at hD; injection hD
  subst hDD
  have hmask : ∀ e, List.zipWith (· && ·) D'.inputMask ((List.range c.edges).map (c.near e)) = inputMaskFor (setup c capacity (D'.inputMask, D'.outputMask)) c.near e := by
    intro e
    unfold inputMaskFor
    refine List.ext_getElem (by simp [g4, setup]) (fun a h1 h2 => ?_)
    simp only [List.getElem_zipWith, List.getElem_map, List.getElem_range, setup]
    have ha : a < D'.inputMask.length := by rw [g4]; simp [setup] at h2; exact h2
    rw [List.getD_eq_getElem?_getD, List.getElem?_eq_getElem ha]; rfl
  have hslot : ∀ e, forSlot c (some e) D' = { D' with addInput := some (inputMaskFor (setup c capacity (D'.inputMask, D'.outputMask)) c.near e), addOutput := some (outputMaskFor (setup c capacity (D'.inputMask, D'.outputMask)) e) } := by
    intro e
    show (D'.useInput _).useOutput _ = _
    rw [hmask]; rfl
  have hl1 : ∀ e m, some (inputMaskFor (setup c capacity (D'.inputMask, D'.outputMask)) c.near e) = some m → m.length = c.edges := by
    intro e m hm; injection hm with hm; rw [← hm]; simp [inputMaskFor, setup]
  have hl2 : ∀ e m, some (outputMaskFor (setup c capacity (D'.inputMask, D'.outputMask)) e) = some m → m.length = c.edges := by
    intro e m hm; injection hm with hm; rw [← hm]; simp [outputMaskFor, setup]
  have hex := fun e => learn_data (M := M) hg hf hne hDO hN (hl1 e) (hl2 e)
  choose X Y x1 x2 x3 x4 using hex
  refine ⟨X, Y, fun e _ => ⟨x1 e, (x2 e).trans (x1 e).symm⟩, fun e _ L lib => by rw [hslot, x4], fun j s net i hj hr hi => ?_⟩
  obtain ⟨past, target, h1, h2, _⟩ := C75_neighborhood (c := setup c capacity (D'.inputMask, D'.outputMask)) hd hg hf hDO (fun e _ => rfl) (fun e _ => rfl) c.near hj hr hi
  refine ⟨past, fun e he hm => ?_, h2⟩
  have h3 := h1 e he hm
  have h4 := g7 _ _ (hl1 e) (hl2 e) j s hj i hi
  have h3' : ({ D' with addInput := some (inputMaskFor (setup c capacity (D'.inputMask, D'.outputMask)) c.near e), addOutput := some (outputMaskFor (setup c capacity (D'.inputMask, D'.outputMask)) e) } : Dataset.Data).get
      (j * sampleCount c.future c.reroute c.horizon k + i) = .ok (past e, target e) := h3
  rw [h4] at h3'
  injection h3' with h3'
  have := (x3 e j s hj i hi).1
  have hso : sampleOf c.edges c.past c.future c.reroute k D' (some (inputMaskFor (setup c capacity (D'.inputMask, D'.outputMask)) c.near e)) (some (outputMaskFor (setup c capacity (D'.inputMask, D'.outputMask)) e)) s i =
      (past e, target e) := h3'
  rw [hso] at this
  exact this

end asked
/-! ### Iteration over the dataset ends -/

theorem mapPy_error {α β : Type} {f : α → Py β} {x : Err} : ∀ {l : List α}, Builder.mapPy f l = .error x → ∃ a ∈ l, f a = .error x
  | [], h => by cases h
  | a :: l, h => by
    unfold Builder.mapPy at h
    cases ha : f a with
    | error y =>
      rw [ha] at h
      exact ⟨a, List.mem_cons_self .., by rw [ha]; injection h with h; rw [h]⟩
    | ok b =>
      rw [ha, ok_bind] at h
      cases hl : Builder.mapPy f l with
      | error y =>
        rw [hl] at h
        obtain ⟨a', h1, h2⟩ := mapPy_error hl
        exact ⟨a', List.mem_cons_of_mem _ h1, by rw [h2]; injection h with h; rw [h]⟩
      | ok bs => rw [hl] at h; cases h

theorem block_fuel (mask : List Bool) (rows : List (List ℚ)) (a b step : Int) : Dataset.block mask rows a b step ≠ .error .fuel := by
  intro h
  unfold Dataset.block at h
  split at h
  · cases h
  · cases h1 : Dataset.maskRows mask rows with
    | error x =>
      rw [h1] at h
      injection h with h
      unfold Dataset.maskRows at h1
      split at h1
      · cases h1
      · injection h1 with h1; rw [← h1] at h; cases h
    | ok rs =>
      rw [h1, ok_bind] at h
      cases h2 : Builder.mapPy (fun r => Dataset.pySlice r a b step) rs with
      | error x =>
        rw [h2] at h
        injection h with h
        obtain ⟨r, _, hr⟩ := mapPy_error h2
        unfold Dataset.pySlice at hr
        split at hr
        · injection hr with hr; rw [← hr] at h; cases h
        · cases hr
      | ok cut => rw [h2] at h; cases h

theorem rdInt_fuel {α : Type} (l : List α) (i : Int) : Dataset.rdInt l i ≠ .error .fuel := by
  intro h
  unfold Dataset.rdInt rd at h
  split at h
  · split at h <;> cases h
  · split at h
    · split at h <;> cases h
    · cases h

theorem bothMasks_fuel (m : List Bool) (a : Option (List Bool)) : Dataset.bothMasks m a ≠ .error .fuel := by
  intro h
  cases a with
  | none => cases h
  | some a =>
    change (if m.length = a.length then (.ok (List.zipWith (· && ·) m a) : Py (List Bool)) else .error .value) = .error .fuel at h
    split at h <;> cases h

theorem bind_fuel {α β : Type} {m : Py α} {f : α → Py β} (hm : m ≠ .error .fuel) (hf : ∀ a, f a ≠ .error .fuel) : (m >>= f) ≠ .error .fuel := by
  cases m with
  | error x => intro h; exact hm (by injection h with h; rw [h])
  | ok a => exact hf a

theorem get_fuel (D : Dataset.Data) (i : Int) : D.get i ≠ .error .fuel := by
  unfold Dataset.Data.get
  split
  · intro h; cases h
  · refine bind_fuel (rdInt_fuel _ _) (fun data => ?_)
    refine bind_fuel (bothMasks_fuel _ _) (fun a => ?_)
    refine bind_fuel (bothMasks_fuel _ _) (fun b => ?_)
    refine bind_fuel (fun h => block_fuel _ _ _ _ _ h) (fun q => ?_)
    refine bind_fuel (fun h => block_fuel _ _ _ _ _ h) (fun l => ?_)
    refine bind_fuel (fun h => block_fuel _ _ _ _ _ h) (fun t => ?_)
    intro h; cases h

theorem fmod_nonpos (a : Int) {t : Nat} (h : 0 < t) : a.fmod (-(t : Int)) ≤ 0 := by
  rw [Int.fmod_eq_emod]
  split
  · rename_i hc
    rcases hc with hc | hc
    · omega
    · rw [Int.emod_eq_zero_of_dvd hc]; simp
  · have := Int.emod_lt_of_pos a (show (0 : Int) < t by omega)
    rw [Int.emod_neg]; omega

theorem get_ends (D : Dataset.Data) : ∃ x, D.get ((D.len.natAbs + 1 : Nat) : Int) = .error x := by
  unfold Dataset.Data.get
  split
  · exact ⟨_, rfl⟩
  · rename_i h0
    have hidx : Dataset.rdInt D.data (((D.len.natAbs + 1 : Nat) : Int).fdiv D.samplesPerFlow) = .error .index := by
      have hlen : D.len = (D.data.length : Int) * D.samplesPerFlow := rfl
      generalize hn : D.len.natAbs = n at *
      rcases lt_or_gt_of_ne h0 with hneg | hpos
      · obtain ⟨t, ht⟩ : ∃ t : Nat, D.samplesPerFlow = -(t : Int) := ⟨D.samplesPerFlow.natAbs, by omega⟩
        have ht0 : 0 < t := by omega
        have hnt : n = D.data.length * t := by
          rw [← hn, hlen, ht, Int.natAbs_mul]; simp
        have hq : ((n + 1 : Nat) : Int).fdiv D.samplesPerFlow < -(D.data.length : Int) := by
          rw [ht]
          have h1 := Int.mul_fdiv_add_fmod ((n + 1 : Nat) : Int) (-(t : Int))
          have h2 : ((n + 1 : Nat) : Int).fmod (-(t : Int)) ≤ 0 := fmod_nonpos _ ht0
          by_contra hc
          have h3 : -(D.data.length : Int) ≤ ((n + 1 : Nat) : Int).fdiv (-(t : Int)) := not_lt.mp hc
          have h4 : (-(t : Int)) * ((n + 1 : Nat) : Int).fdiv (-(t : Int)) ≤ (t : Int) * D.data.length := by
            have := mul_le_mul_of_nonneg_left h3 (show (0 : Int) ≤ t by omega)
            linarith
          rw [hnt] at h1 h2 h4
          push_cast at h1 h2 h4
          linarith
        unfold Dataset.rdInt
        rw [if_neg (by omega), if_neg (by omega)]
      · have hnt : (n : Int) = D.data.length * D.samplesPerFlow := by
          have h1 : 0 ≤ D.len := by rw [hlen]; exact mul_nonneg (by omega) (by omega)
          omega
        have hq : (D.data.length : Int) ≤ ((n + 1 : Nat) : Int).fdiv D.samplesPerFlow := by
          rw [Int.fdiv_eq_ediv_of_nonneg _ (by omega)]
          refine Int.le_ediv_of_mul_le hpos ?_
          push_cast; omega
        unfold Dataset.rdInt
        rw [if_pos (by omega)]
        unfold rd
        rw [List.getElem?_eq_none (by omega)]
    simp only [hidx]
    exact ⟨_, rfl⟩

theorem itemsFrom_fuel (D : Dataset.Data) (n : Nat) (hend : ∃ x, D.get (n : Int) = .error x) : ∀ (fuel i : Nat), i ≤ n → n < fuel + i → itemsFrom D fuel i ≠ .error .fuel := by
  intro fuel
  induction fuel with
  | zero => intro i h1 h2; omega
  | succ fuel ih =>
    intro i h1 h2
    unfold itemsFrom
    split
    · intro h; cases h
    · rename_i x hx hxx
      intro h
      injection h with h
      rw [h] at hxx
      exact get_fuel D i hxx
    · rename_i x hx
      rcases Nat.eq_or_lt_of_le h1 with he | hlt
      · subst he
        obtain ⟨y, hy⟩ := hend
        rw [hy] at hx; cases hx
      · exact bind_fuel (ih (i + 1) hlt (by omega)) (fun a h => by cases h)

/-- The bound on the number of items in the model is never the reason for an error: iteration over a dataset ends by itself, whatever the dataset. -/
theorem C103_items_end (D : Dataset.Data) : items D ≠ .error .fuel := itemsFrom_fuel D _ (get_ends D) _ 0 (Nat.zero_le _) (by omega)

/-- Of the rows, at least a tenth (and less than one row more) is kept for testing; it is an error if nothing is left for training. -/
theorem C103_split (n k : Nat) : (trainCount n = .ok k ↔ 0 < k ∧ k ≤ n ∧ (n : ℚ) / 10 ≤ (n : ℚ) - k ∧ (n : ℚ) - k < (n : ℚ) / 10 + 1) ∧ (trainCount n = .error .value ↔ n ≤ 1) := by
  have h1 : (n : ℚ) / 10 ≤ (n : ℚ) - k ↔ n + 10 * k ≤ 10 * n := by
    rw [div_le_iff₀ (by norm_num)]
    constructor
    · intro h
      have : (n : ℚ) + 10 * k ≤ 10 * n := by linarith
      exact_mod_cast this
    · intro h
      have : (n : ℚ) + 10 * k ≤ 10 * n := by exact_mod_cast h
      linarith
  have h2 : (n : ℚ) - k < (n : ℚ) / 10 + 1 ↔ 10 * n < n + 10 * k + 10 := by
    constructor
    · intro h
      have : 10 * (n : ℚ) < n + 10 * k + 10 := by linarith
      exact_mod_cast this
    · intro h
      have : 10 * (n : ℚ) < n + 10 * k + 10 := by exact_mod_cast h
      linarith
  rw [h1, h2]
  unfold trainCount
  constructor
  · split
    · constructor
      · intro h; cases h
      · intro h; omega
    · constructor
      · intro h; injection h with h; omega
      · intro h; congr 1; omega
  · split
    · exact ⟨fun _ => by omega, fun _ => rfl⟩
    · exact ⟨fun h => by (cases h), fun h => by omega⟩

/-- Nothing is learned from flows that are shorter than past and future together: if there is no room for a sample, training raises. -/
theorem C103_too_short {M : Type} (L : Learner M) (lib : Library) {D : Dataset.Data} (h : D.samplesPerFlow = 0) : learn L lib D = .error .zeroDiv := by
  have hg : D.get ((0 : Nat) : Int) = .error .zeroDiv := by
    unfold Dataset.Data.get
    rw [if_pos h]
  unfold learn items
  rw [show D.len.natAbs + 2 = (D.len.natAbs + 1) + 1 from rfl]
  unfold itemsFrom
  rw [hg]
  rfl

/-! ### C104 -/

section resume
variable {M : Type} {c : Setting} {L : Learner M} {lib : Library} {slot : Option Nat} {has : Option Dataset.Data}

theorem setModel_get (d : Folder M) (lib : Library) (slot : Option Nat) (f : File M) : (setModel d lib slot f).model lib slot = f := by
  unfold setModel
  simp

theorem setModel_other (d : Folder M) {lib lib' : Library} {slot slot' : Option Nat} (h : ¬ (lib' = lib ∧ slot' = slot)) (f : File M) : (setModel d lib slot f).model lib' slot' = d.model lib' slot' := by
  unfold setModel
  simp only
  rw [if_neg h]

theorem prepare_other (d : Folder M) {lib lib' : Library} {slot slot' : Option Nat} (h : ¬ (lib' = lib ∧ slot' = slot)) : (prepare lib slot d).model lib' slot' = d.model lib' slot' := by
  unfold prepare
  split
  · rfl
  · split
    · rfl
    · exact setModel_other d h _

theorem fitting_other {d : Folder M} {lib' : Library} {slot' : Option Nat} (h : ¬ (lib' = lib ∧ slot' = slot)) {D : Dataset.Data} : ∀ x ∈ (fitting c L lib slot D d).1, x.model lib' slot' = d.model lib' slot' := by
  intro x hx
  unfold fitting at hx
  split at hx
  · simp at hx
  · simp only [List.mem_cons, List.not_mem_nil, or_false] at hx
    rcases hx with rfl | rfl <;> exact setModel_other d h _

theorem saveMasks_model {d : Folder M} {D : Dataset.Data} : ∀ x ∈ saveMasks D d, x.model = d.model := by
  intro x hx
  unfold saveMasks at hx
  simp only [List.mem_cons, List.not_mem_nil, or_false] at hx
  rcases hx with rfl | rfl | rfl | rfl <;> rfl

theorem trainHandle_other {d : Folder M} {lib' : Library} {slot' : Option Nat} (h : ¬ (lib' = lib ∧ slot' = slot)) :
    ∀ x ∈ (Training.trainHandle c L lib slot has d).1, x.model lib' slot' = d.model lib' slot' := by
  intro x hx
  unfold Training.trainHandle at hx
  simp only [andThen, List.cons_append, List.nil_append, List.mem_cons] at hx
  rcases hx with rfl | hx
  · exact prepare_other d h
  split at hx
  · rw [fitting_other h x hx, prepare_other d h]
  · split at hx
    · simp at hx
    · rcases List.mem_append.mp hx with hx | hx
      · rw [saveMasks_model x hx, prepare_other d h]
      · rw [fitting_other h x hx]
        exact prepare_other d h

/-- How the handler ends, and what it leaves. -/
theorem trainHandle_returned {d : Folder M} (h : (Training.trainHandle c L lib slot has d).2 = .returned) : ∃ m, ((Training.trainHandle c L lib slot has d).1.getLast?.getD d).model lib slot = .whole m := by
  unfold Training.trainHandle at h ⊢
  rw [getLast_andThen]
  cases has with
  | some D =>
    dsimp only [andThen] at h ⊢
    unfold fitting at h ⊢
    split at h
    · cases h
    · rename_i m hm
      exact ⟨m, setModel_get _ _ _ _⟩
  | none =>
    dsimp only [andThen] at h
    dsimp only
    split at h
    · cases h
    · rename_i D hD
      rw [getLast_andThen]
      change (fitting c L lib slot D (withMasks D (prepare lib slot d))).2 = .returned at h
      unfold fitting at h ⊢
      split at h
      · cases h
      · rename_i m hm
        exact ⟨m, setModel_get _ _ _ _⟩

/-- **C104.** However often the training of a model was stopped: if there is no lock file and the model was not left incomplete, the next attempt that does not raise leaves a complete model and no lock. -/
theorem C104_resumed_partial {w : Place (Folder M)} (hlock : w.locked (lockOf lib slot) = false) (hm : w.files.model lib slot ≠ .torn) (hres : (call (fitTask c L lib slot has) w).2 ≠ .raised) :
    (∃ m, (call (fitTask c L lib slot has) w).1.files.model lib slot = .whole m) ∧ (call (fitTask c L lib slot has) w).1.locked (lockOf lib slot) = false := by
  constructor
  · rcases call_cases _ _ hres with ⟨a, b⟩ | ⟨a, b, e⟩
    · rw [b]
      have hd : (fitTask c L lib slot has).done w.files = true := by
        unfold skips at a
        have hl : w.locked (fitTask c L lib slot has).lock = false := hlock
        simpa [hl] using a
      change (w.files.model lib slot).present = true at hd
      rw [present_iff] at hd
      cases hf : w.files.model lib slot with
      | absent => exact absurd hf hd
      | torn => exact absurd hf hm
      | whole m => exact ⟨m, rfl⟩
    · rw [e]
      exact trainHandle_returned b
  · unfold call
    split
    · exact hlock
    · exact Function.update_self ..

/-- **C104.** And it does not raise if the dataset can be read and the model can be learned from it. -/
theorem C104_not_raised {w : Place (Folder M)} {D : Dataset.Data} (hD : DataOf c w.files.samples D) {m : M} (hm : learn L lib (forSlot c slot D) = .ok m) : (call (fitTask c L lib slot none) w).2 ≠ .raised := by
  unfold call
  split
  · intro h; cases h
  · have hh : (Training.trainHandle c L lib slot none w.files).2 = .returned := by
      unfold Training.trainHandle dataset
      unfold DataOf at hD
      rw [hD]
      show (fitting c L lib slot D _).2 = .returned
      unfold fitting
      rw [hm]
    show outcomeOf (Training.trainHandle c L lib slot none w.files).2 ≠ .raised
    rw [hh]
    intro h; cases h

/-- **C104** fails for incomplete models: whatever is attempted afterwards, also with other samples, an incomplete model stays incomplete, so that no predictor can be built from it. -/
theorem C104_torn_stays {w w' : Place (Folder M)} (h : w.files.model lib slot = .torn) (hw : History anyTasks w w') : w'.files.model lib slot = .torn := by
  refine history_inv (I := fun d => d.model lib slot = .torn) ?_ h hw
  intro t ht v hv hs x hx
  rcases List.mem_cons.mp hx with rfl | hx
  · exact hv
  rcases ht with ⟨c, rfl⟩ | ⟨c, L, lib', slot', has, rfl⟩ | ⟨ss, rfl⟩
  · change x ∈ (match dataset c v.files with | .error _ => (([], .raised) : Trace (Folder M)) | .ok D => (saveMasks D v.files, .returned)).1 at hx
    split at hx
    · simp at hx
    · show x.model lib slot = .torn
      rw [saveMasks_model x hx]; exact hv
  · by_cases he : lib = lib' ∧ slot = slot'
    · obtain ⟨rfl, rfl⟩ := he
      have hd := (skips_false hs).2
      change (v.files.model lib slot).present = false at hd
      rw [hv] at hd
      cases hd
    · show x.model lib slot = .torn
      rw [trainHandle_other he x hx]; exact hv
  · have : x = { v.files with samples := ss } := by
      change x ∈ [({ v.files with samples := ss } : Folder M)] at hx
      simpa using hx
    rw [this]; exact hv

theorem call_raised {D : Type} {t : LockedTask D} {w : Place D} (h : (call t w).2 = .raised) : skips t w = false ∧ (t.handle w.files).2 = .raised ∧ (call t w).1.files = (t.handle w.files).1.getLast?.getD w.files := by
  unfold call at h ⊢
  split at h
  · cases h
  · rename_i hs
    rw [if_neg hs]
    refine ⟨by simpa using hs, ?_, rfl⟩
    cases he : (t.handle w.files).2 with
    | returned => simp only [he] at h; cases h
    | raised => rfl

/-- What the handler leaves if it raises. -/
theorem trainHandle_raised {d : Folder M} (h : (Training.trainHandle c L lib slot has d).2 = .raised) : ((Training.trainHandle c L lib slot has d).1.getLast?.getD d).model lib slot = (prepare lib slot d).model lib slot := by
  unfold Training.trainHandle at h ⊢
  rw [getLast_andThen]
  cases has with
  | some D =>
    dsimp only [andThen] at h ⊢
    unfold fitting at h ⊢
    split at h
    · rfl
    · cases h
  | none =>
    dsimp only [andThen] at h
    dsimp only
    split at h
    · rfl
    · rename_i D hD
      rw [getLast_andThen]
      change (fitting c L lib slot D (withMasks D (prepare lib slot d))).2 = .raised at h
      unfold fitting at h ⊢
      split at h
      · rfl
      · cases h

/-- **C104.** A training with scikit-learn that raises leaves no model, so that it can be tried again. -/
theorem C104_sk_raised {w : Place (Folder M)} (h : (call (fitTask c L .sk slot has) w).2 = .raised) : (call (fitTask c L .sk slot has) w).1.files.model .sk slot = .absent := by
  obtain ⟨h1, h2, h3⟩ := call_raised h
  rw [h3]
  refine (trainHandle_raised h2).trans ?_
  have hd := (skips_false h1).2
  change (w.files.model .sk slot).present = false at hd
  cases hf : w.files.model .sk slot with
  | absent => exact hf
  | torn => rw [hf] at hd; cases hd
  | whole m => rw [hf] at hd; cases hd

/-- **C104** fails for tensorflow: the directory of the model is made first, so a training that raises leaves an incomplete model. -/
theorem C104_tf_raised {w : Place (Folder M)} (h : (call (fitTask c L .tf slot has) w).2 = .raised) : (call (fitTask c L .tf slot has) w).1.files.model .tf slot = .torn := by
  obtain ⟨h1, h2, h3⟩ := call_raised h
  rw [h3]
  refine (trainHandle_raised h2).trans ?_
  have hd := (skips_false h1).2
  change (w.files.model .tf slot).present = false at hd
  show (if (w.files.model .tf slot).present then w.files else setModel w.files .tf slot .torn).model .tf slot = .torn
  rw [hd]
  exact setModel_get _ _ _ _

theorem no_samples : ∀ D, ¬ DataOf c [] D := by
  intro D h
  unfold DataOf Dataset.new at h
  obtain ⟨_, _, h⟩ := bind_eq_ok.mp h
  obtain ⟨_, _, h⟩ := bind_eq_ok.mp h
  cases h

/-- **C104** fails for tensorflow: once the training was started in a folder without samples, there will never be a predictor, whatever is attempted later and whatever samples are made. (With scikit-learn the same attempt
does no harm.) -/
theorem C104_tf_too_early (part : Option (List Bool)) (c : Setting) (L : Learner M) {w w' : Place (Folder M)} (hfree : w.locked (lockOf .tf none) = false) (hm : w.files.model .tf none = .absent) (hs : w.files.samples = [])
    (hw' : History anyTasks (trainFull part c L .tf w).1 w') (apply : M → Matrix → Py Matrix) (c' : Setting) (capacity : Nat → ℚ) (masks : List Bool × List Bool) :
    (trainFull part c L .tf w).2 = none ∧ loadFull apply c' capacity .tf masks w'.files = none := by
  have hr : (call (fitTask c L .tf none none) w).2 = .raised := by
    unfold call
    have hsk : skips (fitTask c L .tf none none) w = false := by
      show (w.locked (lockOf .tf none) || (w.files.model .tf none).present) = false
      rw [hfree, hm]; rfl
    rw [hsk]
    show outcomeOf (Training.trainHandle c L .tf none none w.files).2 = .raised
    unfold Training.trainHandle dataset
    cases hd : Dataset.new c.edges c.past c.future c.reroute c.interval c.horizon w.files.samples with
    | error x => rfl
    | ok D => rw [hs] at hd; exact absurd hd (no_samples D)
  rw [trainFull_place] at hw'
  have ht := C104_torn_stays (C104_tf_raised hr) hw'
  constructor
  · unfold trainFull
    split
    · rfl
    · rename_i h; rw [h] at hr; cases hr
    · rename_i h; rw [h] at hr; cases hr
  · unfold loadFull
    rw [ht]

end resume

section single
variable {M : Type} {c : Setting} {learners : Learner M → Prop} {ss : List Dataset.Samples} {L : Learner M} {lib : Library}

theorem readFiles_length {edges len : Nat} : ∀ (ds : List Dataset.Samples) {a b : List ℚ} {x : List ℚ × List ℚ}, a.length = edges → b.length = edges → Dataset.readFiles edges len ds a b = .ok x → x.1.length = edges ∧ x.2.length = edges
  | [], a, b, x, ha, hb, h => by
    injection h with h
    rw [← h]; exact ⟨ha, hb⟩
  | d :: ds, a, b, x, ha, hb, h => by
    unfold Dataset.readFiles at h
    split at h
    · cases h
    · rename_i hs
      split at h
      · cases h
      · have hs : Dataset.shapeOk edges len d = true := by simpa using hs
        unfold Dataset.shapeOk at hs
        simp only [Bool.and_eq_true, decide_eq_true_eq] at hs
        obtain ⟨⟨⟨h1, h2⟩, _⟩, _⟩ := hs
        refine readFiles_length ds ?_ ?_ h
        · simp [Dataset.maxRows, ha, h1, h2]
        · simp [Dataset.maxRows, hb, h1]

theorem dataOf_length {D : Dataset.Data} (h : DataOf c ss D) : D.inputMask.length = c.edges ∧ D.outputMask.length = c.edges := by
  unfold DataOf Dataset.new at h
  obtain ⟨_, _, h⟩ := bind_eq_ok.mp h
  obtain ⟨_, _, h⟩ := bind_eq_ok.mp h
  split at h
  · cases h
  · obtain ⟨⟨a, b⟩, hab, h⟩ := bind_eq_ok.mp h
    injection h with h
    obtain ⟨h1, h2⟩ := readFiles_length ss (by simp) (by simp) hab
    rw [← h]
    simpa using ⟨h1, h2⟩

/-- **C103** fails for networks with one edge: once the model exists, training raises in every process, because a mask file with one number cannot be read. -/
theorem C103_one_edge (part : Option (List Bool)) {w : Place (Folder M)} (hw : History (learnTasks c learners ss) (samplesOnly ss) w) (hd : MasksNotTorn w.files) (he : c.edges = 1)
    (hm : w.files.model lib none ≠ .absent) : (trainFull part c L lib w).2 = none := by
  have hok := C103_agree hw
  have hsk : skips (fitTask c L lib none none) w = true := by
    show (w.locked (lockOf lib none) || (w.files.model lib none).present) = true
    rw [(present_iff _).mpr hm, Bool.or_true]
  have hc : call (fitTask c L lib none none) w = (w, .skipped) := by
    unfold call
    rw [if_pos hsk]
  unfold trainFull
  rw [hc]
  show loadMasks part w.files = none
  cases hl : loadMasks part w.files with
  | none => rfl
  | some masks =>
    exfalso
    have h1 : loadMask part w.files.inMask = some masks.1 := by
      unfold loadMasks at hl
      split at hl
      · rename_i a b ha hb
        injection hl with hl
        rw [← hl]; exact ha
      · cases hl
    have h2 := loadMask_of hd.1 h1
    obtain ⟨D, hD, ha⟩ := hok.1 _ h2
    rw [h2] at h1
    change (if masks.1.length = 1 then none else some masks.1) = some masks.1 at h1
    rw [if_pos (by rw [← ha, (dataOf_length hD).1, he])] at h1
    cases h1

/-- **C103** fails for networks with one edge also for the training of neighbourhood models: it raises as soon as the mask files exist. -/
theorem C103_one_edge_neighborhood (part : Option (List Bool)) {w : Place (Folder M)} (hw : History (learnTasks c learners ss) (samplesOnly ss) w) (he : c.edges = 1) {a b : List Bool}
    (hin : w.files.inMask = .whole a) (hout : w.files.outMask = .whole b) : (trainEdges part c L lib w).2 = none := by
  have hok := C103_agree hw
  obtain ⟨D, hD, ha⟩ := hok.1 _ hin
  unfold trainEdges
  rw [hin, hout]
  simp only [File.present, Bool.and_self, if_true]
  have : loadMasks part w.files = none := by
    unfold loadMasks
    have h1 : loadMask part w.files.inMask = none := by
      rw [hin]
      show (if a.length = 1 then none else some a) = none
      rw [if_pos (by rw [← ha, (dataOf_length hD).1, he])]
    rw [h1]
  rw [this]

end single

/-! ### Examples -/

/-- Two edges, samples at times 0, 1, 2, 3; of the four rows of each flow two are used. -/
def learnSetting : Setting := ⟨2, 1, 1, 1, 1, 3, fun _ _ => true⟩

/-- Samples of a flow with a queue on the first edge only. -/
def firstSample : Dataset.Samples := ([[1, 1, 1, 1], [0, 0, 0, 0]], [[1, 1, 1, 1], [0, 0, 0, 0]])

/-- Samples of a flow with queues on both edges. -/
def secondSample : Dataset.Samples := ([[1, 1, 1, 1], [1, 1, 1, 1]], [[1, 1, 1, 1], [1, 1, 1, 1]])

/-- A model that remembers what it was trained with. -/
def rememberer : Learner Matrix := fun _ X _ _ _ => .ok X

/-- **C103** fails if samples are added between the training of two models: here the scikit-learn model was learned from rows with three numbers (time, queue and load of one edge). Then a second flow was added and the tensorflow
model trained, which replaced the masks. The scikit-learn predictor now uses masks with both edges. -/
theorem C103_new_samples : ∃ w : Place (Folder Matrix), History anyTasks (samplesOnly [firstSample]) w ∧ (trainFull none learnSetting rememberer .sk w).2 = some ([true, true], [true, true]) ∧
    contents (w.files.model .sk none) = some [[0, 1, 1]] ∧ ∃ D, DataOf learnSetting [firstSample] D ∧ D.inputMask = [true, false] ∧ learn rememberer .sk D = .ok [[0, 1, 1]] := by
  refine ⟨(call (fitTask learnSetting rememberer .tf none none) (call (newSamples [firstSample, secondSample]) (call (fitTask learnSetting rememberer .sk none none) (samplesOnly [firstSample])).1).1).1,
    .attempt (.attempt (.attempt .start (.inr (.inl ⟨_, _, _, _, _, rfl⟩)) .ends) (.inr (.inr ⟨_, rfl⟩)) .ends) (.inr (.inl ⟨_, _, _, _, _, rfl⟩)) .ends, by decide +kernel, by decide +kernel, ?_⟩
  cases h : Dataset.new learnSetting.edges learnSetting.past learnSetting.future learnSetting.reroute learnSetting.interval learnSetting.horizon [firstSample] with
  | error x =>
    have : (Dataset.new learnSetting.edges learnSetting.past learnSetting.future learnSetting.reroute learnSetting.interval learnSetting.horizon [firstSample]).toOption.isSome = true := by decide +kernel
    rw [h] at this; cases this
  | ok D =>
    have h1 : ((Dataset.new learnSetting.edges learnSetting.past learnSetting.future learnSetting.reroute learnSetting.interval learnSetting.horizon [firstSample]).toOption.map (fun D => D.inputMask)) = some [true, false] := by
      decide +kernel
    have h2 : ((Dataset.new learnSetting.edges learnSetting.past learnSetting.future learnSetting.reroute learnSetting.interval learnSetting.horizon [firstSample]).toOption.bind (fun D => (learn rememberer .sk D).toOption)) =
        some [[0, 1, 1]] := by decide +kernel
    rw [h] at h1 h2
    refine ⟨D, h, by injection h1, ?_⟩
    change (learn rememberer .sk D).toOption = some [[0, 1, 1]] at h2
    cases hl : learn rememberer .sk D with
    | error x => rw [hl] at h2; cases h2
    | ok m => rw [hl] at h2; injection h2 with h2; rw [← h2]

/-- **C103** fails if a process was killed while it wrote a mask, although the samples stay the same: the other model is complete, and is used with what is left of the mask. -/
theorem C103_torn_mask : ∃ w : Place (Folder Matrix), History (learnTasks learnSetting (fun L => L = rememberer) [firstSample]) (samplesOnly [firstSample]) w ∧
    (trainFull (some []) learnSetting rememberer .sk w).2 = some ([], [true, false]) ∧ contents (w.files.model .sk none) = some [[0, 1, 1]] ∧ w.locked (lockOf .sk none) = false := by
  refine ⟨⟨Function.update (call (fitTask learnSetting rememberer .sk none none) (samplesOnly [firstSample])).1.locked (lockOf .tf none) true,
      ((Training.trainHandle learnSetting rememberer .tf none none (call (fitTask learnSetting rememberer .sk none none) (samplesOnly [firstSample])).1.files).1[1]?).getD
        (call (fitTask learnSetting rememberer .sk none none) (samplesOnly [firstSample])).1.files⟩,
    .attempt (.attempt .start (.inr ⟨rememberer, .sk, none, none, rfl, fun D h => (by cases h), rfl⟩) .ends) (t := fitTask learnSetting rememberer .tf none none) (.inr ⟨rememberer, .tf, none, none, rfl, fun D h => (by cases h), rfl⟩)
      (.killed _ (by decide +kernel) ?_), by decide +kernel, by decide +kernel, by decide +kernel⟩
  have h : ∀ (l : List (Folder Matrix)) (d : Folder Matrix), (l[1]?).getD d ∈ d :: l := by
    intro l d
    cases hl : l[1]? with
    | none => simp
    | some x => exact List.mem_cons_of_mem _ (List.mem_of_getElem? hl)
  exact h _ _

/-- **C103_full_partial**, hypotheses met, by the process that trains the model and by one that comes later. -/
example : (trainFull none learnSetting rememberer .sk (samplesOnly [firstSample])).2 = some ([true, false], [true, false]) ∧
    (loadFull (fun m _ => .ok m) learnSetting (fun _ => 1) .sk ([true, false], [true, false]) (trainFull none learnSetting rememberer .sk (samplesOnly [firstSample])).1.files).isSome = true ∧
    (trainFull none learnSetting rememberer .sk (trainFull none learnSetting rememberer .sk (samplesOnly [firstSample])).1).2 = some ([true, false], [true, false]) ∧
    MasksNotTorn (samplesOnly (M := Matrix) [firstSample]).files :=
  ⟨by decide +kernel, by decide +kernel, by decide +kernel, fun h => (by cases h), fun h => (by cases h)⟩

/-- **C103_edges_partial**, hypotheses met; the model of the first edge is learned from rows with the time and queues and loads of the first edge, the second edge has no model. -/
example : (trainEdges none learnSetting rememberer .tf (samplesOnly [firstSample])).2 = some ([true, false], [true, false]) ∧
    (loadEdges (fun m _ => .ok m) learnSetting (fun _ => 1) .tf ([true, false], [true, false]) (trainEdges none learnSetting rememberer .tf (samplesOnly [firstSample])).1.files).isSome = true ∧
    contents ((trainEdges none learnSetting rememberer .tf (samplesOnly [firstSample])).1.files.model .tf (some 0)) = some [[0, 1, 1]] ∧
    ((trainEdges none learnSetting rememberer .tf (samplesOnly [firstSample])).1.files.model .tf (some 1)).present = false :=
  ⟨by decide +kernel, by decide +kernel, by decide +kernel, by decide +kernel⟩

/-- **C103_asked** and **C103_asked_edges**, hypotheses met: nine samples of a flow with a queue. -/
example : ∃ (c : Setting) (s : DFlow) (ss : List Dataset.Samples) (D : Dataset.Data), c.interval = (1 : Nat) * c.reroute ∧ Grid c.past c.reroute c.interval c.horizon 1 ∧ FlowsOk c.edges [s] ∧
    Builder.mapPy (Dataset.samplesOf c.edges c.past c.horizon c.reroute c.interval) [s] = .ok ss ∧ DataOf c ss D ∧ 0 < sampleCount c.future c.reroute c.horizon 1 ∧ Reached sampleNet s ∧ c.horizon ≤ s.phi ∧ eps < c.interval ∧
    queueAt s 0 3 = 2 := by
  obtain ⟨s, D, h1, h2, h3, ⟨ss, h4, h4'⟩, h5, _, _, h8, h9, _⟩ := dataset_example 1 (.inl rfl)
  simp only [Nat.cast_one] at h3 h4 h4'
  exact ⟨⟨2, 2, 2, 1, 1, 11, fun _ _ => true⟩, s, ss, D, by norm_num, h3, h2, h4, h4', by decide +kernel, h1, h5, by unfold eps; norm_num, h9⟩

/-- **C104_sk_raised**, **C104_tf_raised** and **C104_tf_too_early**, hypotheses met: trainings in a folder without samples. The scikit-learn model can be trained later (**C104_resumed_partial**, **C104_not_raised**). -/
example : (call (fitTask learnSetting rememberer .sk none none) (samplesOnly [])).2 = .raised ∧ (call (fitTask learnSetting rememberer .tf none none) (samplesOnly [])).2 = .raised ∧
    contents ((call (fitTask learnSetting rememberer .sk none none) (call (newSamples [firstSample]) (call (fitTask learnSetting rememberer .sk none none) (samplesOnly [])).1).1).1.files.model .sk none) = some [[0, 1, 1]] ∧
    contents ((call (fitTask learnSetting rememberer .tf none none) (call (newSamples [firstSample]) (call (fitTask learnSetting rememberer .tf none none) (samplesOnly [])).1).1).1.files.model .tf none) = none :=
  ⟨by decide +kernel, by decide +kernel, by decide +kernel, by decide +kernel⟩

/-- **C104_torn_stays**, hypothesis met: the process was killed while it wrote the model. -/
example : ∃ w : Place (Folder Matrix), History anyTasks (samplesOnly [firstSample]) w ∧ w.files.model .sk none = .torn :=
  ⟨⟨Function.update (fun _ => false) (lockOf .sk none) true, setModel (samplesOnly [firstSample]).files .sk none .torn⟩,
    .attempt .start (t := fitTask learnSetting rememberer .sk none (some ⟨1, 1, 1, 1, 2, [firstSample], [true, false], [true, false], none, none⟩)) (.inr (.inl ⟨_, _, _, _, _, rfl⟩))
      (.killed _ (by decide +kernel) (by
        show _ ∈ _ :: (andThen _ (fitting learnSetting rememberer .sk none _ _)).1
        unfold fitting
        split
        · rename_i x hx
          have : (learn rememberer .sk (forSlot learnSetting none (⟨1, 1, 1, 1, 2, [firstSample], [true, false], [true, false], none, none⟩ : Dataset.Data))).toOption.isSome = true := by decide +kernel
          rw [hx] at this; cases this
        · simp [andThen, samplesOnly, prepare])),
    setModel_get _ _ _ _⟩

/-- **C103_one_edge** and **C103_one_edge_neighborhood**, hypotheses met: the model of a network with one edge is trained, and no later process can use it. -/
example : (trainFull none { learnSetting with edges := 1 } rememberer .sk (samplesOnly [([[1, 1, 1, 1]], [[1, 1, 1, 1]])])).2 = some ([true], [true]) ∧
    (trainFull none { learnSetting with edges := 1 } rememberer .sk (trainFull none { learnSetting with edges := 1 } rememberer .sk (samplesOnly [([[1, 1, 1, 1]], [[1, 1, 1, 1]])])).1).2 = none ∧
    (trainEdges none { learnSetting with edges := 1 } rememberer .sk (trainFull none { learnSetting with edges := 1 } rememberer .sk (samplesOnly [([[1, 1, 1, 1]], [[1, 1, 1, 1]])])).1).2 = none :=
  ⟨by decide +kernel, by decide +kernel, by decide +kernel⟩

/-- **C103_too_short**, hypothesis met: horizon 1, with one past and one future step. -/
example : ((Dataset.new 2 1 1 1 1 1 [([[1, 1], [0, 0]], [[1, 1], [0, 0]])]).toOption.map (fun D => D.samplesPerFlow)) = some 0 := by decide +kernel

end Verif.Props
