import Verif.Spec.Resume
import Verif.Props.Evaluation
import Verif.Props.Merge

/-! Property theorems C100 and C101: interrupted evaluations and training flows. -/

namespace Verif.Props
open Verif.Spec Verif.Resume

/-! ### Histories -/

section history
variable {D : Type} {tasks : LockedTask D → Prop} {w0 w w' : Place D} {I : D → Prop}

theorem call_mem (t : LockedTask D) (w : Place D) (h : skips t w = false) : ((t.handle w.files).1).getLast?.getD w.files ∈ w.files :: (t.handle w.files).1 := by
  cases he : (t.handle w.files).1.getLast? with
  | none => simp
  | some x => simp only [Option.getD_some]; exact List.mem_cons_of_mem _ (List.mem_of_getLast? he)

/-- What holds at the beginning and is kept by every step of every handler holds always. -/
theorem history_inv (h : ∀ t, tasks t → ∀ w : Place D, I w.files → skips t w = false → ∀ x ∈ w.files :: (t.handle w.files).1, I x) (h0 : I w0.files) (hw : History tasks w0 w) : I w.files := by
  induction hw with
  | start => exact h0
  | @attempt w w' t _ ht ha ih =>
    cases ha with
    | ends =>
      unfold call
      split
      · exact ih
      · rename_i hs
        exact h t ht w ih (by simpa using hs) _ (call_mem t w (by simpa using hs))
    | interrupted x hs hx => exact h t ht w ih hs x hx
    | killed x hs hx => exact h t ht w ih hs x hx
    | killedEarly => exact ih
  | unlock l _ ih => exact ih

theorem History.trans (h : History tasks w0 w) (h' : History tasks w w') : History tasks w0 w' := by
  induction h' with
  | start => exact h
  | attempt _ ht ha ih => exact .attempt ih ht ha
  | unlock l _ ih => exact .unlock l ih

/-- Files in which no task does anything stay as they are. -/
theorem history_stuck (h : ∀ t, tasks t → ∀ v : Place D, v.files = w.files → skips t v = false → (t.handle w.files).1 = []) (hw : History tasks w w') : w'.files = w.files := by
  refine history_inv (I := fun d => d = w.files) ?_ rfl hw
  intro t ht v hv hs x hx
  rw [hv, h t ht v hv hs] at hx
  simpa using hx

end history

/-! ### C100 -/

section evaluation
variable {F J M V : Type} {jobs : Job F J M V → Prop} {p : Bool}

/-- The evaluations by the given jobs. -/
def evalTasks (jobs : Job F J M V → Prop) (t : LockedTask (Outputs F J V)) : Prop := ∃ job, jobs job ∧ t = evalTask job

/-- What is always true of the files of an evaluation. -/
structure OutputsOk (jobs : Job F J M V → Prop) (d : Outputs F J V) : Prop where
  agree : Agree jobs d
  json : d.json ≠ .absent → ∃ f, d.flow = .whole f
  vis : d.vis ≠ .absent → ∃ j, d.json = .whole j

theorem present_iff {α : Type} (f : File α) : f.present = true ↔ f ≠ .absent := by cases f <;> simp [File.present]

theorem drawPicture_ok {job : Job F J M V} (hj : jobs job) {f : F} {d : Outputs F J V} (h : OutputsOk jobs d) (hf : d.flow = .whole f) {j : J} (hjs : d.json = .whole j) : ∀ x ∈ (drawPicture job f d).1, OutputsOk jobs x := by
  intro x hx
  unfold drawPicture at hx
  split at hx
  · split at hx
    · simp at hx
    · rename_i m hm
      have torn : OutputsOk jobs { d with vis := .torn } :=
        ⟨⟨h.agree.1, h.agree.2.1, fun v hv => by cases hv⟩, h.json, fun _ => ⟨j, hjs⟩⟩
      unfold writePicture at hx
      split at hx
      · simp only [List.mem_cons, List.not_mem_nil, or_false] at hx
        rw [hx]; exact torn
      · rename_i v hv
        simp only [List.mem_cons, List.not_mem_nil, or_false] at hx
        rcases hx with hx | hx
        · rw [hx]; exact torn
        · rw [hx]
          exact ⟨⟨h.agree.1, h.agree.2.1, fun v' hv' => ⟨f, m, job, hf, hj, hm, by injection hv' with hv'; rw [← hv']; exact hv⟩⟩, h.json, fun _ => ⟨j, hjs⟩⟩
  · simp at hx

theorem writeReport_ok {job : Job F J M V} (hj : jobs job) {f : F} {d : Outputs F J V} (h : OutputsOk jobs d) (hf : d.flow = .whole f) (hv : d.vis = .absent) : ∀ x ∈ (writeReport job f d).1, OutputsOk jobs x := by
  intro x hx
  unfold writeReport at hx
  split at hx
  · simp at hx
  · rename_i j hjs
    have hw : OutputsOk jobs { d with json := .whole j } :=
      ⟨⟨h.agree.1, fun j' hj' => ⟨f, job, hf, hj, by injection hj' with hj'; rw [← hj']; exact hjs⟩, fun v hv' => by rw [hv] at hv'; cases hv'⟩, fun _ => ⟨f, hf⟩, fun _ => ⟨j, rfl⟩⟩
    simp only [andThen, List.cons_append, List.nil_append, List.mem_cons] at hx
    rcases hx with hx | hx | hx
    · rw [hx]
      exact ⟨⟨h.agree.1, fun j' hj' => by (cases hj'), fun v hv' => by rw [hv] at hv'; cases hv'⟩, fun _ => ⟨f, hf⟩, fun hv' => absurd hv hv'⟩
    · rw [hx]; exact hw
    · exact drawPicture_ok hj hw hf rfl x hx

theorem evalHandle_ok {job : Job F J M V} (hj : jobs job) {d : Outputs F J V} (h : OutputsOk jobs d) (hd : (evalTask job).done d = false) : ∀ x ∈ d :: (evalHandle job d).1, OutputsOk jobs x := by
  have hvis : d.vis = .absent := by
    by_contra hc
    obtain ⟨j, hjs⟩ := h.vis hc
    obtain ⟨f, hf⟩ := h.json (by rw [hjs]; simp)
    have : (evalTask job).done d = true := by
      show (d.flow.present && d.json.present && (!job.pictures || d.vis.present)) = true
      rw [hf, hjs, (present_iff _).mpr hc]
      simp [File.present]
    rw [hd] at this
    cases this
  intro x hx
  rcases List.mem_cons.mp hx with hx | hx
  · rw [hx]; exact h
  unfold evalHandle at hx
  split at hx
  · simp at hx
  · rename_i f hf
    exact writeReport_ok hj h hf hvis x hx
  · rename_i hf
    have hjs : d.json = .absent := by
      by_contra hc
      obtain ⟨f, hf'⟩ := h.json hc
      rw [hf] at hf'; cases hf'
    split at hx
    · simp at hx
    · rename_i f hb
      have hw : OutputsOk jobs { d with flow := .whole f } :=
        ⟨⟨fun f' hf' => ⟨job, hj, by injection hf' with hf'; rw [← hf']; exact hb⟩, fun j hj' => by (rw [hjs] at hj'; cases hj'), fun v hv' => by (rw [hvis] at hv'; cases hv')⟩,
          fun hc => absurd hjs hc, fun hc => absurd hvis hc⟩
      simp only [andThen, List.cons_append, List.nil_append, List.mem_cons] at hx
      rcases hx with hx | hx | hx
      · rw [hx]
        exact ⟨⟨fun f' hf' => by (cases hf'), fun j hj' => by (rw [hjs] at hj'; cases hj'), fun v hv' => by (rw [hvis] at hv'; cases hv')⟩, fun hc => absurd hjs hc, fun hc => absurd hvis hc⟩
      · rw [hx]; exact hw
      · exact writeReport_ok hj hw rfl hvis x hx

theorem skips_false {D : Type} {t : LockedTask D} {w : Place D} (h : skips t w = false) : w.locked t.lock = false ∧ t.done w.files = false := by
  unfold skips at h
  simpa using h

theorem outputs_ok {w : Place (Outputs F J V)} (hw : History (evalTasks jobs) emptyOutputs w) : OutputsOk jobs w.files := by
  refine history_inv (I := OutputsOk jobs) ?_ ?_ hw
  · rintro t ⟨job, hj, rfl⟩ w h hs x hx
    exact evalHandle_ok hj h (skips_false hs).2 x hx
  · refine ⟨⟨fun f hf => ?_, fun f hf => ?_, fun f hf => ?_⟩, fun h => absurd rfl h, fun h => absurd rfl h⟩ <;> cases hf

/-- **C100.** Whatever happens — any number of attempts, stopped anywhere by exceptions or killed — the complete files in the directory belong together: the flow was built by one of the attempts, and the report and the visualisation
are those of this very flow. -/
theorem C100_agree {w : Place (Outputs F J V)} (hw : History (evalTasks jobs) emptyOutputs w) : Agree jobs w.files := (outputs_ok hw).agree

theorem drawPicture_last {job : Job F J M V} {f : F} {d : Outputs F J V} (h : (drawPicture job f d).2 = .returned) :
    ((drawPicture job f d).1.getLast?.getD d).flow = d.flow ∧ ((drawPicture job f d).1.getLast?.getD d).json = d.json ∧ (job.pictures = true → ∃ v, ((drawPicture job f d).1.getLast?.getD d).vis = .whole v) := by
  unfold drawPicture at h ⊢
  split at h
  · rename_i hp
    rw [if_pos hp]
    split at h
    · cases h
    · rename_i m hm
      unfold writePicture at h ⊢
      split at h
      · cases h
      · rename_i v hv
        simp [hv]
  · rename_i hp
    rw [if_neg hp]
    exact ⟨rfl, rfl, fun hc => absurd hc hp⟩

theorem getLast_andThen {D : Type} (ds : List D) (t : Trace D) (d : D) : (andThen ds t).1.getLast?.getD d = t.1.getLast?.getD (ds.getLast?.getD d) := by
  unfold andThen
  rw [List.getLast?_append]
  cases t.1.getLast? <;> rfl

theorem writeReport_last {job : Job F J M V} {f : F} {d : Outputs F J V} (hf : d.flow = .whole f) (h : (writeReport job f d).2 = .returned) : AllWhole job.pictures ((writeReport job f d).1.getLast?.getD d) := by
  unfold writeReport at h ⊢
  split at h
  · cases h
  · rename_i j hj
    rw [getLast_andThen]
    obtain ⟨h1, h2, h3⟩ := drawPicture_last (job := job) (f := f) (d := { d with json := .whole j }) h
    exact ⟨⟨f, h1.trans hf⟩, ⟨j, h2⟩, h3⟩

/-- **C100.** However often an evaluation was stopped: if there is no lock file, and it was stopped neither while writing the flow nor while writing the file that is written last, the next attempt that does not raise leaves
all files complete. Files that exist completely are not computed again (`C100_agree`: they are of the same flow). -/
theorem C100_resumed_partial {w : Place (Outputs F J V)} (hw : History (evalTasks jobs) emptyOutputs w) (hlock : w.locked 0 = false) (hflow : w.files.flow ≠ .torn) {job : Job F J M V}
    (hlast : LastNotTorn job.pictures w.files) (hres : (call (evalTask job) w).2 ≠ .raised) : AllWhole job.pictures (call (evalTask job) w).1.files ∧ (call (evalTask job) w).1.locked 0 = false := by
  have hok := outputs_ok hw
  unfold call at hres ⊢
  split at hres
  · rename_i hs
    rw [if_pos hs]
    refine ⟨?_, hlock⟩
    have hdone : (evalTask job).done w.files = true := by
      unfold skips at hs
      have hl : w.locked (evalTask job).lock = false := hlock
      simpa [hl] using hs
    change (w.files.flow.present && w.files.json.present && (!job.pictures || w.files.vis.present)) = true at hdone
    rw [Bool.and_eq_true, Bool.and_eq_true, present_iff, present_iff] at hdone
    obtain ⟨⟨h1, h2⟩, h3⟩ := hdone
    obtain ⟨f, hf⟩ := hok.json h2
    unfold LastNotTorn at hlast
    cases hp : job.pictures with
    | true =>
      rw [hp] at h3 hlast
      have hv : w.files.vis ≠ .absent := (present_iff _).mp (by simpa using h3)
      refine ⟨⟨f, hf⟩, hok.vis hv, fun _ => ?_⟩
      cases hvis : w.files.vis with
      | absent => exact absurd hvis hv
      | torn => exact absurd hvis (by simpa using hlast)
      | whole v => exact ⟨v, rfl⟩
    | false =>
      rw [hp] at hlast
      refine ⟨⟨f, hf⟩, ?_, fun h => by cases h⟩
      cases hjs : w.files.json with
      | absent => exact absurd hjs h2
      | torn => exact absurd hjs (by simpa using hlast)
      | whole v => exact ⟨v, rfl⟩
  · rename_i hs
    rw [if_neg hs]
    refine ⟨?_, ?_⟩
    · have hret : (evalHandle job w.files).2 = .returned := by
        change outcomeOf (evalHandle job w.files).2 ≠ .raised at hres
        cases he : (evalHandle job w.files).2 with
        | returned => rfl
        | raised => rw [he] at hres; exact absurd rfl hres
      show AllWhole job.pictures ((evalHandle job w.files).1.getLast?.getD w.files)
      unfold evalHandle at hret ⊢
      split at hret
      · cases hret
      · rename_i f hf
        exact writeReport_last hf hret
      · rename_i hf
        split at hret
        · cases hret
        · rename_i f hb
          rw [getLast_andThen]
          exact writeReport_last (d := { w.files with flow := .whole f }) rfl hret
    · show Function.update w.locked 0 false 0 = false
      simp

/-- An attempt does not raise if nothing that it computes raises. -/
theorem C100_not_raised {w : Place (Outputs F J V)} (hw : History (evalTasks jobs) emptyOutputs w) (hflow : w.files.flow ≠ .torn) {job : Job F J M V} {f0 : F} (hj : jobs job) (hb : job.build = .ok f0)
    (hass : ∀ f job', jobs job' → job'.build = .ok f → (∃ j, job.assess f = .ok j) ∧ ∃ m v, job.merge f = .ok m ∧ job.encode m = .ok v) : (call (evalTask job) w).2 ≠ .raised := by
  have hok := outputs_ok hw
  unfold call
  split
  · simp
  · have rep : ∀ f d, (∃ job', jobs job' ∧ job'.build = .ok f) → (writeReport job f d).2 = .returned := by
      rintro f d ⟨job', h1, h2⟩
      obtain ⟨⟨j, h3⟩, m, v, h4, h5⟩ := hass f job' h1 h2
      unfold writeReport
      simp only [h3, andThen]
      unfold drawPicture
      split
      · simp only [h4, writePicture, h5]
      · rfl
    show outcomeOf (evalHandle job w.files).2 ≠ .raised
    have : (evalHandle job w.files).2 = .returned := by
      unfold evalHandle
      split
      · rename_i h; exact absurd h hflow
      · rename_i f hf
        exact rep f _ (hok.agree.1 f hf)
      · simp only [hb, andThen]
        exact rep f0 _ ⟨job, hj, hb⟩
    rw [this]
    simp [outcomeOf]

/-- **C100 is false** for an attempt that is stopped while it writes the flow: from then on, whatever happens, no report is ever written, and each attempt that finds no lock raises. -/
theorem C100_torn_flow {w w' : Place (Outputs F J V)} (hw : History (evalTasks jobs) emptyOutputs w) (ht : w.files.flow = .torn) (hw' : History (evalTasks jobs) w w') :
    w'.files.flow = .torn ∧ w'.files.json = .absent ∧ ∀ job : Job F J M V, w'.locked 0 = false → (call (evalTask job) w').2 = .raised := by
  have hok := outputs_ok hw
  have hj : w.files.json = .absent := by
    by_contra hc
    obtain ⟨f, hf⟩ := hok.json hc
    rw [ht] at hf; cases hf
  have heq : w'.files = w.files := by
    refine history_stuck ?_ hw'
    rintro t ⟨job, _, rfl⟩ v hv hs
    show (evalHandle job w.files).1 = []
    unfold evalHandle
    simp only [ht]
  rw [heq]
  refine ⟨ht, hj, fun job hl => ?_⟩
  have hs : skips (evalTask job) w' = false := by
    show (w'.locked 0 || (w'.files.flow.present && w'.files.json.present && _)) = false
    rw [hl, heq, hj]
    simp [File.present]
  unfold call
  rw [if_neg (by rw [hs]; simp)]
  show outcomeOf (evalHandle job w'.files).2 = .raised
  rw [heq]
  unfold evalHandle
  simp only [ht]
  rfl

/-- **C100 is false** for an attempt that is stopped while it writes the last file: from then on, whatever happens, this file stays incomplete, and each attempt returns without doing anything. -/
theorem C100_torn_last (hp : ∀ job, jobs job → job.pictures = p) {w w' : Place (Outputs F J V)} (hw : History (evalTasks jobs) emptyOutputs w) (ht : ¬ LastNotTorn p w.files)
    (hw' : History (evalTasks jobs) w w') : w'.files = w.files ∧ ∀ job : Job F J M V, jobs job → call (evalTask job) w' = (w', .skipped) := by
  have hok := outputs_ok hw
  have hall : w.files.flow.present = true ∧ w.files.json.present = true ∧ (p = true → w.files.vis.present = true) := by
    unfold LastNotTorn at ht
    cases hpe : p with
    | true =>
      rw [hpe] at ht
      have hv : w.files.vis = .torn := by simpa using ht
      obtain ⟨j, hj⟩ := hok.vis (by rw [hv]; simp)
      obtain ⟨f, hf⟩ := hok.json (by rw [hj]; simp)
      rw [hf, hj, hv]
      simp [File.present]
    | false =>
      rw [hpe] at ht
      have hj : w.files.json = .torn := by simpa using ht
      obtain ⟨f, hf⟩ := hok.json (by rw [hj]; simp)
      rw [hf, hj]
      simp [File.present]
  have hdone : ∀ job : Job F J M V, jobs job → (evalTask job).done w.files = true := by
    intro job hj
    show (w.files.flow.present && w.files.json.present && (!job.pictures || w.files.vis.present)) = true
    rw [hall.1, hall.2.1, hp job hj]
    cases hpe : p with
    | true => rw [hall.2.2 hpe]; rfl
    | false => rfl
  have heq : w'.files = w.files := by
    refine history_stuck ?_ hw'
    rintro t ⟨job, hj, rfl⟩ v hv hs
    have := (skips_false hs).2
    rw [hv, hdone job hj] at this
    cases this
  refine ⟨heq, fun job hj => ?_⟩
  unfold call
  rw [if_pos (by unfold skips; rw [heq, hdone job hj]; simp)]

/-- After a kill in the handler, each later attempt returns without doing anything, until somebody removes the lock file. -/
theorem C100_stale_lock {D : Type} {t : LockedTask D} {w w' : Place D} (hl : w.locked t.lock = true) (ha : Attempt t w w') : w' = w := by
  have hs : skips t w = true := by unfold skips; rw [hl]; rfl
  cases ha with
  | ends => unfold call; rw [if_pos hs]
  | interrupted x h _ => rw [hs] at h; cases h
  | killed x h _ => rw [hs] at h; cases h
  | killedEarly => rfl

/-- Each of the bad cases can happen, in the first attempt, to every evaluation. -/
theorem C100_can_happen {job : Job F J M V} (hj : jobs job) {f : F} (hb : job.build = .ok f) :
    (∃ w, History (evalTasks jobs) emptyOutputs w ∧ w.locked 0 = false ∧ w.files.flow = .torn) ∧
    (∀ j, job.assess f = .ok j → job.pictures = false → ∃ w, History (evalTasks jobs) emptyOutputs w ∧ w.locked 0 = false ∧ ¬ LastNotTorn false w.files) ∧
    (∀ j m, job.assess f = .ok j → job.merge f = .ok m → job.pictures = true → ∃ w, History (evalTasks jobs) emptyOutputs w ∧ w.locked 0 = false ∧ ¬ LastNotTorn true w.files) ∧
    ∃ w, History (evalTasks jobs) emptyOutputs w ∧ w.locked 0 = true := by
  have hs : skips (evalTask job) (emptyOutputs : Place (Outputs F J V)) = false := rfl
  have htr : (evalHandle job (⟨.absent, .absent, .absent⟩ : Outputs F J V)) = andThen [⟨.torn, .absent, .absent⟩, ⟨.whole f, .absent, .absent⟩] (writeReport job f ⟨.whole f, .absent, .absent⟩) := by
    unfold evalHandle
    simp only [hb]
  have go : ∀ x ∈ (evalHandle job (⟨.absent, .absent, .absent⟩ : Outputs F J V)).1, ∃ w, History (evalTasks jobs) emptyOutputs w ∧ w.locked 0 = false ∧ w.files = x := by
    intro x hx
    refine ⟨⟨Function.update (fun _ => false) 0 false, x⟩, .attempt .start ⟨job, hj, rfl⟩ (.interrupted x hs (List.mem_cons_of_mem _ hx)), by simp, rfl⟩
  refine ⟨?_, ?_, ?_, ?_⟩
  · obtain ⟨w, h1, h2, h3⟩ := go ⟨.torn, .absent, .absent⟩ (by rw [htr]; simp [andThen])
    exact ⟨w, h1, h2, by rw [h3]⟩
  · intro j ha _
    obtain ⟨w, h1, h2, h3⟩ := go ⟨.whole f, .torn, .absent⟩ (by rw [htr]; simp [andThen, writeReport, ha])
    exact ⟨w, h1, h2, by rw [h3]; simp [LastNotTorn]⟩
  · intro j m ha hm hp
    obtain ⟨w, h1, h2, h3⟩ := go ⟨.whole f, .whole j, .torn⟩ (by
      rw [htr]
      simp only [andThen, writeReport, ha, drawPicture, hp, if_true, hm, writePicture]
      split <;> simp)
    exact ⟨w, h1, h2, by rw [h3]; simp [LastNotTorn]⟩
  · exact ⟨⟨Function.update (fun _ => false) 0 true, (emptyOutputs : Place (Outputs F J V)).files⟩, .attempt .start ⟨job, hj, rfl⟩ (.killed _ hs (by simp)), by simp⟩

/-- **C100 is false** if the visualisation cannot be made because of the data: the first attempt raises, the next one returns without doing anything, although the visualisation is not complete. -/
theorem C100_failed_picture {job : Job F J M V} {f : F} {j : J} {m : M} {e : Err} (hp : job.pictures = true) (hb : job.build = .ok f) (ha : job.assess f = .ok j) (hm : job.merge f = .ok m) (he : job.encode m = .error e) :
    ∃ w, call (evalTask job) emptyOutputs = (w, .raised) ∧ w.files.vis = .torn ∧ w.locked 0 = false ∧ call (evalTask job) w = (w, .skipped) := by
  have hs : skips (evalTask job) (emptyOutputs : Place (Outputs F J V)) = false := rfl
  have hh : evalHandle job (⟨.absent, .absent, .absent⟩ : Outputs F J V) =
      ([⟨.torn, .absent, .absent⟩, ⟨.whole f, .absent, .absent⟩, ⟨.whole f, .torn, .absent⟩, ⟨.whole f, .whole j, .absent⟩, ⟨.whole f, .whole j, .torn⟩], .raised) := by
    simp [evalHandle, hb, andThen, writeReport, ha, drawPicture, hp, hm, writePicture, he]
  refine ⟨⟨Function.update (fun _ => false) 0 false, ⟨.whole f, .whole j, .torn⟩⟩, ?_, rfl, by simp, ?_⟩
  · unfold call
    rw [if_neg (by rw [hs]; simp)]
    show ((⟨_, (evalHandle job (⟨.absent, .absent, .absent⟩ : Outputs F J V)).1.getLast?.getD _⟩ : Place (Outputs F J V)), outcomeOf (evalHandle job (⟨.absent, .absent, .absent⟩ : Outputs F J V)).2) = _
    rw [hh]
    rfl
  · unfold call
    rw [if_pos]
    unfold skips
    simp [evalTask, File.present]

end evaluation

/-! #### What the evaluation of a network writes -/

section network
variable {P C : Type} [DecidableEq P]

/-- All attempts to make the evaluation with number `index`. -/
def evalAttempts (cfg : Config P C) (index : Nat) (job : Job (DFlow × ℚ) (Evaluation.Report P × ℚ) (Network P × DFlow × List (Nat × C)) (Picture C)) : Prop := ∃ a, job = evalJob cfg index a

theorem build_run {cfg : Config P C} {index : Nat} {a a' : Clock} {f : DFlow × ℚ} {j : Evaluation.Report P × ℚ} (hb : (evalJob cfg index a).build = .ok f) (ha : (evalJob cfg index a').assess f = .ok j) :
    ∃ x, demandsOf cfg index = .ok x ∧ runOf cfg a x none = .ok j.1 ∧ f.2 = a.time ∧ j.2 = a.time ∧ j.1.flow = f.1 := by
  obtain ⟨x, h1, hb⟩ := bind_eq_ok.mp hb
  obtain ⟨⟨n, new⟩, h2, hb⟩ := bind_eq_ok.mp hb
  obtain ⟨flow, h3, hb⟩ := bind_eq_ok.mp hb
  injection hb with hb
  obtain ⟨x', h1', ha⟩ := bind_eq_ok.mp ha
  rw [h1] at h1'; injection h1' with h1'; subst h1'
  obtain ⟨rep, h4, ha⟩ := bind_eq_ok.mp ha
  injection ha with ha
  have e1 : f.1 = flow := by rw [← hb]
  have e2 : f.2 = a.time := by rw [← hb]
  have e3 : j.1 = rep := by rw [← ha]
  have e4 : j.2 = a.time := by rw [← ha]; exact e2
  unfold runOf Evaluation.evaluateSingleRun at h4
  obtain ⟨r, h5, h4⟩ := bind_eq_ok.mp h4
  obtain ⟨⟨n', new'⟩, h6, h4⟩ := bind_eq_ok.mp h4
  have h6' := h2
  unfold setupOf at h6'
  rw [h6] at h6'
  injection h6' with h6'
  obtain ⟨h7, h8⟩ := Prod.mk.inj h6'
  subst h7 h8
  obtain ⟨flow', h9, h4⟩ := bind_eq_ok.mp h4
  unfold Evaluation.buildOrLoad at h9
  injection h9 with h9
  rw [e1] at h9
  subst h9
  refine ⟨x, h1, ?_, e2, e4, ?_⟩
  · unfold runOf Evaluation.evaluateSingleRun
    rw [h5, ok_bind, h6, ok_bind]
    show (do
      let flow ← Evaluation.buildOrLoad cfg.ord cfg.keys cfg.preds cfg.reroute cfg.horizon new' a.suppress a.tick a.fuel n' none
      Evaluation.assess n' cfg.keys cfg.batch new' _ cfg.inflowHorizon cfg.horizon cfg.reroute cfg.interval cfg.future cfg.search flow : Py (Evaluation.Report P)) = _
    rw [h3, ok_bind, e3]
    exact h4
  · rw [e3, e1]
    unfold Evaluation.assess at h4
    obtain ⟨times, _, h4⟩ := bind_eq_ok.mp h4
    obtain ⟨best, _, h4⟩ := bind_eq_ok.mp h4
    obtain ⟨delays, _, h4⟩ := bind_eq_ok.mp h4
    obtain ⟨errors, _, h4⟩ := bind_eq_ok.mp h4
    injection h4 with h4
    rw [← h4]

/-- **C100** for `eval_network_demand`: whatever happens, a complete report is what an undisturbed run of one of the attempts returns, for the demands that belong to the number of the flow, and the flow of this very run is the one
that is saved. -/
theorem C100_evaluation {cfg : Config P C} {index : Nat} {w : Place (Outputs (DFlow × ℚ) (Evaluation.Report P × ℚ) (Picture C))} (hw : History (evalTasks (evalAttempts cfg index)) emptyOutputs w)
    {rep : Evaluation.Report P} {t : ℚ} (hj : w.files.json = .whole (rep, t)) :
    ∃ a x, demandsOf cfg index = .ok x ∧ runOf cfg a x none = .ok rep ∧ a.time = t ∧ w.files.flow = .whole (rep.flow, t) := by
  obtain ⟨h1, h2, _⟩ := C100_agree hw
  obtain ⟨f, job, hf, ⟨a', rfl⟩, ha⟩ := h2 _ hj
  obtain ⟨job, ⟨a, rfl⟩, hb⟩ := h1 f hf
  obtain ⟨x, e1, e2, e3, e4, e5⟩ := build_run hb ha
  refine ⟨a, x, e1, e2, e4.symm, ?_⟩
  rw [hf]
  have e4 : t = a.time := e4
  have e5 : rep.flow = f.1 := e5
  rw [e5, e4, ← e3]

theorem setupOf_graph {cfg : Config P C} {index : Nat} {x : Network P × Nat} {n : Network P} {new : List Nat} (hx : demandsOf cfg index = .ok x) (h : setupOf cfg x = .ok (n, new)) : n.graph = cfg.file.graph := by
  obtain ⟨n0, h1, hx⟩ := bind_eq_ok.mp hx
  have g1 : x.1 = n0 := by
    split at hx
    · cases hx
    · injection hx with hx; rw [← hx]
  unfold Demands.evaluation Demands.generate at h1
  obtain ⟨s, _, h1⟩ := bind_eq_ok.mp h1
  obtain ⟨cs, _, h1⟩ := bind_eq_ok.mp h1
  injection h1 with h1
  unfold setupOf SingleRun.setup at h
  obtain ⟨r, _, h⟩ := bind_eq_ok.mp h
  split at h
  · obtain ⟨⟨rest, d⟩, _, h⟩ := bind_eq_ok.mp h
    obtain ⟨n', h2, h⟩ := bind_eq_ok.mp h
    injection h with h
    unfold Combine.combine at h2
    obtain ⟨merged, _, h2⟩ := bind_eq_ok.mp h2
    injection h2 with h2
    have := (Prod.mk.inj h).1
    rw [← this, ← h2]
    show x.1.graph = _
    rw [g1, ← h1]
  · cases h

/-- **C100 is false** for networks with a node that has no position: if there is to be a visualisation, the first attempt raises and leaves a broken visualisation, and each later one returns as if everything were there. -/
theorem C100_positions {cfg : Config P C} {index : Nat} {a : Clock} (hp : cfg.pictures = true) {v : Nat} (hv : v ∈ cfg.file.graph.nodes) (hpos : cfg.positions.lookup v = none) {f : DFlow × ℚ}
    {j : Evaluation.Report P × ℚ} {m : Network P × DFlow × List (Nat × C)} (hb : (evalJob cfg index a).build = .ok f) (ha : (evalJob cfg index a).assess f = .ok j) (hm : (evalJob cfg index a).merge f = .ok m) :
    ∃ w, call (evalTask (evalJob cfg index a)) emptyOutputs = (w, .raised) ∧ w.files.vis = .torn ∧ w.locked 0 = false ∧ ∀ a', call (evalTask (evalJob cfg index a')) w = (w, .skipped) := by
  obtain ⟨e, he⟩ : ∃ e, (evalJob cfg index a).encode m = .error e := by
    obtain ⟨x, h1, h2⟩ := bind_eq_ok.mp hm
    obtain ⟨⟨n, new⟩, h3, h2⟩ := bind_eq_ok.mp h2
    obtain ⟨merged, _, h2⟩ := bind_eq_ok.mp h2
    obtain ⟨colours, _, h2⟩ := bind_eq_ok.mp h2
    injection h2 with h2
    have hg : m.1.graph = cfg.file.graph := by rw [← h2]; exact setupOf_graph h1 h3
    show ∃ e, visualization m.1 cfg.positions m.2.2 m.2.1 = .error e
    unfold visualization
    cases hn : Builder.mapPy (nodeItem cfg.positions) m.1.graph.nodes with
    | error e => exact ⟨e, rfl⟩
    | ok l =>
      obtain ⟨y, hy⟩ := (mapPy_all_ok hn) v (by rw [hg]; exact hv)
      unfold nodeItem at hy
      rw [hpos] at hy
      cases hy
  obtain ⟨w, h1, h2, h3, h4⟩ := C100_failed_picture hp hb ha hm he
  refine ⟨w, h1, h2, h3, fun a' => ?_⟩
  unfold call at h4 ⊢
  have hs : skips (evalTask (evalJob cfg index a)) w = true := by
    by_contra hc
    rw [if_neg hc] at h4
    have h5 := congrArg Prod.snd h4
    simp only at h5
    cases hr : ((evalTask (evalJob cfg index a)).handle w.files).2 <;> rw [hr] at h5 <;> cases h5
  have hs' : skips (evalTask (evalJob cfg index a')) w = true := hs
  rw [if_pos hs']

end network

/-! ### C101 -/

section training
variable {F S V : Type} {jobs : Training F S V → Prop}

/-- Building training flows and their samples by the given jobs. -/
def trainTasks (jobs : Training F S V → Prop) (t : LockedTask (Samples F S V)) : Prop := ∃ job, jobs job ∧ (t = trainTask job ∨ t = sampleTask job)

/-- What is always true of the files of a training flow. -/
structure SamplesOk (jobs : Training F S V → Prop) (d : Samples F S V) : Prop where
  agree : SamplesAgree jobs d
  sample : d.sample ≠ .absent → ∃ x, d.flow = .whole x
  dummies : d.flow = .whole .dummy → ∃ job, jobs job ∧ job.dummy = true

theorem trainPicture_mem {job : Training F S V} {f : F} {d x : Samples F S V} (hx : x ∈ (trainPicture job f d).1) : x.flow = d.flow ∧ x.sample = d.sample := by
  unfold trainPicture at hx
  split at hx
  · split at hx
    · simp at hx
    · simp only [List.mem_cons, List.not_mem_nil, or_false] at hx
      rcases hx with hx | hx <;> rw [hx] <;> exact ⟨rfl, rfl⟩
  · simp at hx

theorem SamplesOk.of_eq {d x : Samples F S V} (h : SamplesOk jobs d) (h1 : x.flow = d.flow) (h2 : x.sample = d.sample) : SamplesOk jobs x := by
  refine ⟨⟨?_, ?_⟩, ?_, ?_⟩
  · rw [h1]; exact h.agree.1
  · rw [h1, h2]; exact h.agree.2
  · rw [h1, h2]; exact h.sample
  · rw [h1]; exact h.dummies

theorem writeSample_ok {job job0 : Training F S V} (hj : jobs job) (hj0 : jobs job0) {f : F} (hb : job0.build = .ok f) {d : Samples F S V} (h : SamplesOk jobs d) (hf : d.flow = .whole .dummy ∨ d.flow = .whole (.flow f))
    {next : Samples F S V → Trace (Samples F S V)} (hn : ∀ d x, x ∈ (next d).1 → x.flow = d.flow ∧ x.sample = d.sample) : ∀ x ∈ (writeSample job f d next).1, SamplesOk jobs x := by
  intro x hx
  unfold writeSample at hx
  split at hx
  · simp at hx
  · rename_i s hs
    have hex : ∃ x, d.flow = .whole x := by rcases hf with hf | hf <;> exact ⟨_, hf⟩
    have hw : SamplesOk jobs { d with sample := .whole s } := by
      refine ⟨⟨h.agree.1, fun s' hs' => ?_⟩, fun _ => hex, h.dummies⟩
      injection hs' with hs'
      exact ⟨f, job0, job, hj0, hb, hj, by rw [← hs']; exact hs, hf⟩
    simp only [andThen, List.cons_append, List.nil_append, List.mem_cons] at hx
    rcases hx with hx | hx | hx
    · rw [hx]; exact ⟨⟨h.agree.1, fun s' hs' => by cases hs'⟩, fun _ => hex, h.dummies⟩
    · rw [hx]; exact hw
    · obtain ⟨h1, h2⟩ := hn _ _ hx
      exact hw.of_eq h1 h2

theorem trainHandle_ok {job : Training F S V} (hj : jobs job) {d : Samples F S V} (h : SamplesOk jobs d) : ∀ x ∈ (trainHandle job d).1, SamplesOk jobs x := by
  intro x hx
  unfold trainHandle at hx
  split at hx
  · simp at hx
  · simp at hx
  · obtain ⟨h1, h2⟩ := trainPicture_mem hx
    exact h.of_eq h1 h2
  · rename_i hf
    split at hx
    · simp at hx
    · rename_i f hb
      have hs : d.sample = .absent := by
        by_contra hc
        obtain ⟨y, hy⟩ := h.sample hc
        rw [hf] at hy; cases hy
      have hw : SamplesOk jobs { d with flow := .whole (savedAs job f) } := by
        refine ⟨⟨fun f' hf' => ?_, fun s hs' => by (rw [hs] at hs'; cases hs')⟩, fun hc => absurd hs hc, fun hd => ?_⟩
        · injection hf' with hf'
          unfold savedAs at hf'
          split at hf'
          · cases hf'
          · injection hf' with hf'; exact ⟨job, hj, by rw [← hf']; exact hb⟩
        · injection hd with hd
          unfold savedAs at hd
          split at hd
          · rename_i hdum; exact ⟨job, hj, hdum⟩
          · cases hd
      simp only [andThen, List.cons_append, List.nil_append, List.mem_cons] at hx
      rcases hx with hx | hx | hx
      · rw [hx]
        exact ⟨⟨fun f' hf' => by (cases hf'), fun s hs' => by (rw [hs] at hs'; cases hs')⟩, fun hc => absurd hs hc, fun hd => by (cases hd)⟩
      · rw [hx]; exact hw
      · unfold trainCallback at hx
        split at hx
        · refine writeSample_ok hj hj hb hw ?_ (fun d x hx => trainPicture_mem hx) x hx
          unfold savedAs
          split
          · exact .inl rfl
          · exact .inr rfl
        · obtain ⟨h1, h2⟩ := trainPicture_mem hx
          exact hw.of_eq h1 h2

theorem sampleHandle_ok {job : Training F S V} (hj : jobs job) {d : Samples F S V} (h : SamplesOk jobs d) : ∀ x ∈ (sampleHandle job d).1, SamplesOk jobs x := by
  intro x hx
  unfold sampleHandle at hx
  split at hx
  · simp at hx
  · simp at hx
  · simp at hx
  · rename_i f hf
    obtain ⟨job0, hj0, hb⟩ := h.agree.1 f hf
    exact writeSample_ok hj hj0 hb h (.inr hf) (fun d x hx => by simp at hx) x hx

theorem samples_ok {w : Place (Samples F S V)} (hw : History (trainTasks jobs) emptySamples w) : SamplesOk jobs w.files := by
  refine history_inv (I := SamplesOk jobs) ?_ ?_ hw
  · rintro t ⟨job, hj, rfl | rfl⟩ w h hs x hx
    · rcases List.mem_cons.mp hx with hx | hx
      · rw [hx]; exact h
      · exact trainHandle_ok hj h x hx
    · rcases List.mem_cons.mp hx with hx | hx
      · rw [hx]; exact h
      · exact sampleHandle_ok hj h x hx
  · refine ⟨⟨fun f hf => ?_, fun f hf => ?_⟩, fun h => absurd rfl h, fun hf => ?_⟩ <;> cases hf

/-- **C101.** Whatever happens, the files of a training flow belong together: a sample is the one of a flow that was built by one of the attempts, and this flow is the saved one, if flows are saved. -/
theorem C101_agree {w : Place (Samples F S V)} (hw : History (trainTasks jobs) emptySamples w) : SamplesAgree jobs w.files := (samples_ok hw).agree

theorem trainPicture_last {job : Training F S V} {f : F} {d : Samples F S V} : ((trainPicture job f d).1.getLast?.getD d).flow = d.flow ∧ ((trainPicture job f d).1.getLast?.getD d).sample = d.sample := by
  cases h : (trainPicture job f d).1.getLast? with
  | none => exact ⟨rfl, rfl⟩
  | some x => exact trainPicture_mem (List.mem_of_getLast? h)

theorem writeSample_last {job : Training F S V} {f : F} {d : Samples F S V} {next : Samples F S V → Trace (Samples F S V)}
    (hn : ∀ d, ((next d).1.getLast?.getD d).flow = d.flow ∧ ((next d).1.getLast?.getD d).sample = d.sample) (h : (writeSample job f d next).2 = .returned) :
    ((writeSample job f d next).1.getLast?.getD d).flow = d.flow ∧ ∃ s, ((writeSample job f d next).1.getLast?.getD d).sample = .whole s := by
  unfold writeSample at h ⊢
  split at h
  · cases h
  · rename_i s hs
    rw [getLast_andThen]
    obtain ⟨h1, h2⟩ := hn { d with sample := .whole s }
    exact ⟨h1, s, h2⟩

/-- A call that ends: what was there if it is skipped, else what the handler leaves. -/
theorem call_cases {D : Type} (t : LockedTask D) (w : Place D) (h : (call t w).2 ≠ .raised) :
    (skips t w = true ∧ (call t w).1 = w) ∨ (skips t w = false ∧ (t.handle w.files).2 = .returned ∧ (call t w).1.files = (t.handle w.files).1.getLast?.getD w.files) := by
  unfold call at h ⊢
  split at h
  · rename_i hs
    rw [if_pos hs]
    exact .inl ⟨hs, rfl⟩
  · rename_i hs
    rw [if_neg hs]
    refine .inr ⟨by simpa using hs, ?_, rfl⟩
    cases he : (t.handle w.files).2 with
    | returned => rfl
    | raised => simp only [he] at h; exact absurd rfl h

/-- **C101.** If flows are saved: however often attempts were stopped, if there are no lock files and neither the file of the flow nor the sample is incomplete, then `build_flows` and `generate_queues_and_edge_loads`, if they do not
raise, leave a complete flow and a complete sample. -/
theorem C101_complete_partial (hdum : ∀ job, jobs job → job.dummy = false) {w : Place (Samples F S V)} (hw : History (trainTasks jobs) emptySamples w) (hl0 : w.locked 0 = false) (hl1 : w.locked 1 = false)
    (hflow : w.files.flow ≠ .torn) (hsample : w.files.sample ≠ .torn) {job job' : Training F S V} (hj : jobs job) (h1 : (call (trainTask job) w).2 ≠ .raised)
    (h2 : (call (sampleTask job') (call (trainTask job) w).1).2 ≠ .raised) :
    ∃ f s, (call (sampleTask job') (call (trainTask job) w).1).1.files.flow = .whole (.flow f) ∧ (call (sampleTask job') (call (trainTask job) w).1).1.files.sample = .whole s := by
  have hw1 : History (trainTasks jobs) emptySamples (call (trainTask job) w).1 := .attempt hw ⟨job, hj, .inl rfl⟩ .ends
  have hok1 := samples_ok hw1
  have nodum : ∀ y, (call (trainTask job) w).1.files.flow = .whole y → ∃ f, y = .flow f := by
    intro y hy
    cases y with
    | flow f => exact ⟨f, rfl⟩
    | dummy =>
      obtain ⟨job0, a, b⟩ := hok1.dummies hy
      rw [hdum job0 a] at b; cases b
  -- after build_flows, the flow is there, and the sample is not torn
  obtain ⟨k1, k2, k3⟩ : (∃ y, (call (trainTask job) w).1.files.flow = .whole y) ∧ (call (trainTask job) w).1.files.sample ≠ .torn ∧ (call (trainTask job) w).1.locked 1 = false := by
    have hlk : (call (trainTask job) w).1.locked 1 = false := by
      unfold call
      split
      · exact hl1
      · show Function.update w.locked 0 false 1 = false
        simp [hl1]
    refine ⟨?_, ?_, hlk⟩
    · rcases call_cases _ _ h1 with ⟨a, b⟩ | ⟨a, b, c⟩
      · rw [b]
        have : (trainTask job).done w.files = true := by
          unfold skips at a
          have hl : w.locked (trainTask job).lock = false := hl0
          simpa [hl] using a
        change (w.files.flow.present && _) = true at this
        rw [Bool.and_eq_true, present_iff] at this
        cases hf : w.files.flow with
        | absent => exact absurd hf this.1
        | torn => exact absurd hf hflow
        | whole y => exact ⟨y, rfl⟩
      · rw [c]
        change (trainHandle job w.files).2 = .returned at b
        show ∃ y, ((trainHandle job w.files).1.getLast?.getD w.files).flow = .whole y
        unfold trainHandle at b ⊢
        split at b
        · cases b
        · cases b
        · rename_i f hf
          rw [trainPicture_last.1]
          exact ⟨_, hf⟩
        · split at b
          · cases b
          · rename_i f hb
            rw [getLast_andThen]
            refine ⟨savedAs job f, ?_⟩
            show ((trainCallback job f { w.files with flow := .whole (savedAs job f) }).1.getLast?.getD { w.files with flow := .whole (savedAs job f) }).flow = _
            have b : (trainCallback job f { w.files with flow := .whole (savedAs job f) }).2 = .returned := b
            unfold trainCallback at b ⊢
            split
            · rename_i hcb
              rw [if_pos hcb] at b
              rw [(writeSample_last (fun d => trainPicture_last) b).1]
            · rw [trainPicture_last.1]
    · rcases call_cases _ _ h1 with ⟨a, b⟩ | ⟨a, b, c⟩
      · rw [b]; exact hsample
      · rw [c]
        change (trainHandle job w.files).2 = .returned at b
        show ((trainHandle job w.files).1.getLast?.getD w.files).sample ≠ .torn
        unfold trainHandle at b ⊢
        split at b
        · cases b
        · cases b
        · rw [trainPicture_last.2]
          exact hsample
        · split at b
          · cases b
          · rename_i f hb
            rw [getLast_andThen]
            show ((trainCallback job f { w.files with flow := .whole (savedAs job f) }).1.getLast?.getD { w.files with flow := .whole (savedAs job f) }).sample ≠ _
            have b : (trainCallback job f { w.files with flow := .whole (savedAs job f) }).2 = .returned := b
            unfold trainCallback at b ⊢
            split
            · rename_i hcb
              rw [if_pos hcb] at b
              obtain ⟨s, hs⟩ := (writeSample_last (fun d => trainPicture_last) b).2
              rw [hs]
              simp
            · rw [trainPicture_last.2]
              exact hsample
  obtain ⟨y, hy⟩ := k1
  obtain ⟨f, rfl⟩ := nodum y hy
  rcases call_cases _ _ h2 with ⟨a, b⟩ | ⟨a, b, c⟩
  · rw [b]
    have : (sampleTask job').done (call (trainTask job) w).1.files = true := by
      unfold skips at a
      have hl : (call (trainTask job) w).1.locked (sampleTask job').lock = false := k3
      simpa [hl] using a
    have := (present_iff _).mp this
    cases hs : (call (trainTask job) w).1.files.sample with
    | absent => exact absurd hs this
    | torn => exact absurd hs k2
    | whole s => exact ⟨f, s, hy, rfl⟩
  · rw [c]
    change (sampleHandle job' (call (trainTask job) w).1.files).2 = .returned at b
    have e : sampleHandle job' (call (trainTask job) w).1.files = writeSample job' f (call (trainTask job) w).1.files (fun _ => ([], .returned)) := by
      unfold sampleHandle
      simp only [hy]
    rw [e] at b
    obtain ⟨q1, s, q2⟩ := writeSample_last (fun d => ⟨rfl, rfl⟩) b
    refine ⟨f, s, ?_, ?_⟩
    · show ((sampleHandle job' (call (trainTask job) w).1.files).1.getLast?.getD _).flow = _
      rw [e, q1, hy]
    · show ((sampleHandle job' (call (trainTask job) w).1.files).1.getLast?.getD _).sample = _
      rw [e, q2]

/-- **C101.** With dummies instead of flows, an undisturbed first call of `build_flows` with the callback leaves a complete sample. -/
theorem C101_dummy {job : Training F S V} (hcb : job.callback = true) (h : (call (trainTask job) emptySamples).2 ≠ .raised) : ∃ s, (call (trainTask job) emptySamples).1.files.sample = .whole s := by
  rcases call_cases _ _ h with ⟨a, b⟩ | ⟨a, b, c⟩
  · cases a
  · rw [c]
    change (trainHandle job ⟨.absent, .absent, .absent⟩).2 = .returned at b
    show ∃ s, ((trainHandle job ⟨.absent, .absent, .absent⟩).1.getLast?.getD ⟨.absent, .absent, .absent⟩).sample = .whole s
    unfold trainHandle at b ⊢
    simp only at b ⊢
    split at b
    · cases b
    · rename_i f hb
      rw [getLast_andThen]
      have b : (trainCallback job f ⟨.whole (savedAs job f), .absent, .absent⟩).2 = .returned := b
      unfold trainCallback at b ⊢
      rw [if_pos hcb] at b ⊢
      exact (writeSample_last (fun d => trainPicture_last) b).2

/-- **C101 is false** with dummies: if the first attempt is stopped after writing the dummy and before the sample, there will never be a sample. `build_flows` without visualisation is content, and
`generate_queues_and_edge_loads` raises each time. -/
theorem C101_dummy_lost (hdum : ∀ job, jobs job → job.pictures = false) {w w' : Place (Samples F S V)} (hf : w.files.flow = .whole .dummy) (hs : w.files.sample = .absent) (hw' : History (trainTasks jobs) w w') :
    w'.files = w.files ∧ ∀ job, jobs job → call (trainTask job) w' = (w', .skipped) ∧ (w'.locked 1 = false → (call (sampleTask job) w').2 = .raised) := by
  have heq : w'.files = w.files := by
    refine history_stuck ?_ hw'
    rintro t ⟨job, _, rfl | rfl⟩ v hv _
    · show (trainHandle job w.files).1 = []
      unfold trainHandle
      simp only [hf]
    · show (sampleHandle job w.files).1 = []
      unfold sampleHandle
      simp only [hf]
  refine ⟨heq, fun job hj => ⟨?_, fun hl => ?_⟩⟩
  · unfold call
    rw [if_pos]
    unfold skips
    have : (trainTask job).done w'.files = true := by
      show (w'.files.flow.present && (!job.pictures || _)) = true
      rw [heq, hf, hdum job hj]
      rfl
    rw [this]
    simp
  · have hk : skips (sampleTask job) w' = false := by
      show (w'.locked 1 || w'.files.sample.present) = false
      rw [hl, heq, hs]
      rfl
    unfold call
    rw [if_neg (by rw [hk]; simp)]
    show outcomeOf (sampleHandle job w'.files).2 = .raised
    rw [heq]
    unfold sampleHandle
    simp only [hf]
    rfl

/-- **C101 is false** if an attempt is stopped while it writes the sample: it stays incomplete, and `generate_queues_and_edge_loads` is content. -/
theorem C101_torn_sample {w w' : Place (Samples F S V)} (hw : History (trainTasks jobs) emptySamples w) (hs : w.files.sample = .torn) (hw' : History (trainTasks jobs) w w') :
    w'.files.sample = .torn ∧ ∀ job : Training F S V, call (sampleTask job) w' = (w', .skipped) := by
  have key : w'.files.sample = .torn ∧ ∃ y, w'.files.flow = .whole y := by
    refine history_inv (I := fun d : Samples F S V => d.sample = .torn ∧ ∃ y, d.flow = .whole y) ?_ ⟨hs, (samples_ok hw).sample (by rw [hs]; simp)⟩ hw'
    rintro t ⟨job, _, rfl | rfl⟩ v ⟨hv, y, hy⟩ hk x hx
    · rcases List.mem_cons.mp hx with hx | hx
      · rw [hx]; exact ⟨hv, y, hy⟩
      · change x ∈ (trainHandle job v.files).1 at hx
        unfold trainHandle at hx
        rw [hy] at hx
        cases y with
        | dummy => simp at hx
        | flow f =>
          obtain ⟨a, b⟩ := trainPicture_mem hx
          exact ⟨b.trans hv, _, a.trans hy⟩
    · have := (skips_false hk).2
      change v.files.sample.present = false at this
      rw [hv] at this
      cases this
  refine ⟨key.1, fun job => ?_⟩
  unfold call
  rw [if_pos]
  unfold skips
  have : (sampleTask job).done w'.files = true := by
    show w'.files.sample.present = true
    rw [key.1]; rfl
  rw [this]
  simp

/-- Both bad cases can happen in the first attempt. -/
theorem C101_can_happen {job : Training F S V} (hj : jobs job) (hcb : job.callback = true) {f : F} {s : S} (hb : job.build = .ok f) (hs : job.sample f = .ok s) :
    (job.dummy = true → ∃ w, History (trainTasks jobs) emptySamples w ∧ w.locked 0 = false ∧ w.files.flow = .whole .dummy ∧ w.files.sample = .absent) ∧
    ∃ w, History (trainTasks jobs) emptySamples w ∧ w.locked 0 = false ∧ w.files.sample = .torn := by
  have hk : skips (trainTask job) (emptySamples : Place (Samples F S V)) = false := rfl
  have go : ∀ x ∈ (trainHandle job (⟨.absent, .absent, .absent⟩ : Samples F S V)).1, ∃ w, History (trainTasks jobs) emptySamples w ∧ w.locked 0 = false ∧ w.files = x := by
    intro x hx
    exact ⟨⟨Function.update (fun _ => false) 0 false, x⟩, .attempt .start ⟨job, hj, .inl rfl⟩ (.interrupted x hk (List.mem_cons_of_mem _ hx)), by simp, rfl⟩
  constructor
  · intro hd
    obtain ⟨w, h1, h2, h3⟩ := go ⟨.whole .dummy, .absent, .absent⟩ (by simp [trainHandle, hb, andThen, savedAs, hd])
    exact ⟨w, h1, h2, by rw [h3], by rw [h3]⟩
  · obtain ⟨w, h1, h2, h3⟩ := go ⟨.whole (savedAs job f), .absent, .torn⟩ (by simp [trainHandle, hb, andThen, trainCallback, hcb, writeSample, hs])
    exact ⟨w, h1, h2, by rw [h3]⟩

end training

/-! #### An evaluation to which all this applies -/

/-- The items of a dict of rates, in some order. -/
noncomputable def itemsOf (c : FRC) : List (Nat × RC) := by classical exact if h : ∃ l, Items c l then h.choose else []

theorem itemsOf_ok {c : FRC} (h : ∃ l, Items c l) : Items c (itemsOf c) := by
  unfold itemsOf
  rw [dif_pos h]
  exact h.choose_spec

/-- One commodity on one road, to be split between two predictors; `positions` are those of the nodes. -/
noncomputable def runCfg (positions : List (Nat × ℚ × ℚ)) : Config (Fin 2) Nat :=
  { file := runNet, ord := List.dedup, rand := fun _ _ m _ => m, pick := fun _ _ => 0, keys := [0, 1], preds := fun _ => Predictors.zero 1, batch := fun _ => Predictors.batch (Predictors.zero 1), constant := 0, inflowHorizon := 1,
    sigma := some 1, split := true, horizon := 5, reroute := 2, interval := ((1 : Nat) * 2 : ℚ), future := 1, search := 3, colours := fun p => some p.1, positions := positions, order := itemsOf, pictures := true }

theorem runCfg_demands (positions : List (Nat × ℚ × ℚ)) (i : Nat) : demandsOf (runCfg positions) i = .ok (runNet, 0) := by
  have h1 : Demands.drawSources (fun _ m _ => m) 1 ((1 : ℚ) : WithTop ℚ) 0 [(0, ⟨[0, 1], [2, 0], ((0 : ℚ) : WithBot ℚ), ⊤⟩)] = .ok [(0, ⟨[0, 1], [2, 0], ((0 : ℚ) : WithBot ℚ), ⊤⟩)] := by decide +kernel
  have h2 : Demands.evaluation (fun _ _ m _ => m) runNet ((1 : ℚ) : WithTop ℚ) (some 1) i = .ok runNet := by
    show (do
      let s ← Demands.drawSources (fun _ m _ => m) 1 ((1 : ℚ) : WithTop ℚ) 0 [(0, ⟨[0, 1], [2, 0], ((0 : ℚ) : WithBot ℚ), ⊤⟩)]
      pure { runNet with commodities := [⟨s, 1, 0⟩] } : Py (Network (Fin 2))) = _
    rw [h1, ok_bind]
    rfl
  unfold demandsOf
  show (Demands.evaluation (fun _ _ m _ => m) runNet ((1 : ℚ) : WithTop ℚ) (some 1) i >>= _) = _
  rw [h2, ok_bind]
  rfl

theorem runCfg_setup (positions : List (Nat × ℚ × ℚ)) : setupOf (runCfg positions) (runNet, 0) = .ok (runNet', [0, 1]) := run_set

theorem run_clear : ∀ b, Builder.init runNet' (some 2) = .ok b → ∀ k, (∀ m < k, ∃ c, rounds List.dedup (fun _ : Fin 2 => Predictors.zero 1) m { b with built := true } = .ok c ∧ c.flow.phi < 5) →
    ClearRounds List.dedup (fun _ : Fin 2 => Predictors.zero 1) { b with built := true } k := by
  obtain ⟨b1, u1, u2, c1, u3, u4⟩ := Builder.buildB_sound (show Builder.buildB List.dedup (fun _ => Predictors.zero 1) runNet' 2 5 (fun b => decide (b.flow.phi = 6)) = true by decide +kernel)
  have u4 := of_decide_eq_true u4
  intro b hb k hk m hm
  rw [u1] at hb
  injection hb with hb
  subst hb
  refine u2 m (lt_of_lt_of_le hm ?_)
  by_contra hge
  obtain ⟨c', w1, w2⟩ := hk 5 (by omega)
  rw [u3] at w1
  injection w1 with w1
  subst w1
  rw [u4] at w2
  norm_num at w2

/-- Its flow is built, its report is written, and its visualisation is made, if all nodes have positions. -/
theorem runCfg_jobs (positions : List (Nat × ℚ × ℚ)) (i : Nat) : ∃ a f j m, (evalJob (runCfg positions) i a).build = .ok f ∧ (evalJob (runCfg positions) i a).assess f = .ok j ∧
    (evalJob (runCfg positions) i a).merge f = .ok m ∧ (positions = [(0, 0, 0), (1, 1, 0)] → ∃ v, (evalJob (runCfg positions) i a).encode m = .ok v) := by
  obtain ⟨fuel, rep, x, h1, _⟩ := run_example
  have hstored := C99_stored h1 true (fun _ => true) fuel
  obtain ⟨r, g1, g2⟩ := bind_eq_ok.mp h1
  obtain ⟨⟨n', new⟩, g3, g2⟩ := bind_eq_ok.mp g2
  rw [run_set] at g3
  injection g3 with g3
  obtain ⟨e1, e2⟩ := Prod.mk.inj g3
  subst e1 e2
  obtain ⟨flow, g4, g5⟩ := bind_eq_ok.mp g2
  have hfl : rep.flow = flow := by
    unfold Evaluation.assess at g5
    obtain ⟨_, _, g5⟩ := bind_eq_ok.mp g5
    obtain ⟨_, _, g5⟩ := bind_eq_ok.mp g5
    obtain ⟨_, _, g5⟩ := bind_eq_ok.mp g5
    obtain ⟨_, _, g5⟩ := bind_eq_ok.mp g5
    injection g5 with g5
    rw [← g5]
  have hreach : Reached runNet'.data flow := by
    have hok : InputOk runNet' := (run_setup run_input run_set).choose_spec.2.1
    obtain ⟨_, b0, k, b, _, q1, q2, q3, _⟩ := C99_report run_input run_set (preds := fun _ => Predictors.zero 1) (fun p f0 f calls t h0 hc hr _ ht => Predictors.zero_ok hok t f) two_pos (by norm_num) run_clear h1
    rw [← hfl, q3]
    exact building_reached q1 q2
  obtain ⟨s', k, m1, _⟩ := C53_merge hreach (m := 1) (cs := [0]) (by simp) (inItems := fun e => itemsOf (flow.inflow e)) (outItems := fun e => itemsOf (flow.outflow e))
    (fun e _ => itemsOf_ok (C53_items hreach e).1) (fun e _ => itemsOf_ok (C53_items hreach e).2)
  refine ⟨⟨true, fun _ => true, fuel, 7⟩, (flow, 7), (rep, 7), (runNet', s', [(0, 0), (1, 1)]), ?_, ?_, ?_, ?_⟩
  · show (demandsOf (runCfg positions) i >>= _) = _
    rw [runCfg_demands, ok_bind, runCfg_setup, ok_bind]
    show (Evaluation.buildOrLoad List.dedup [0, 1] (fun _ => Predictors.zero 1) 2 5 [0, 1] true (fun _ => true) fuel runNet' none >>= _) = _
    rw [g4]
    rfl
  · show (demandsOf (runCfg positions) i >>= _) = _
    rw [runCfg_demands, ok_bind]
    show (Evaluation.evaluateSingleRun List.dedup runNet runObj [0] [0, 1] (fun _ => Predictors.zero 1) (fun _ => Predictors.batch (Predictors.zero 1)) 0 true 5 2 1 1 ((1 : Nat) * 2) (some flow) true
      (fun _ => true) fuel 3 >>= _) = _
    rw [← hfl, hstored]
    rfl
  · show (demandsOf (runCfg positions) i >>= _) = _
    rw [runCfg_demands, ok_bind, runCfg_setup, ok_bind]
    show (Merge.mergeCommodities flow 1 [0] (fun e => itemsOf (flow.inflow e)) (fun e => itemsOf (flow.outflow e)) >>= _) = _
    rw [m1]
    rfl
  · rintro rfl
    exact ⟨_, rfl⟩

/-- `C100_resumed_partial` applies to this evaluation: an attempt that is stopped while it writes the report, and one that is killed while the visualisation is not yet begun, whose lock file is then removed. The next attempt does not raise,
and all files are complete. -/
example : ∃ w a, History (evalTasks (evalAttempts (runCfg [(0, 0, 0), (1, 1, 0)]) 3)) emptyOutputs w ∧ w.locked 0 = false ∧ w.files.json = .torn ∧
    ∃ w', History (evalTasks (evalAttempts (runCfg [(0, 0, 0), (1, 1, 0)]) 3)) w w' ∧ w'.locked 0 = false ∧ (∃ j, w'.files.json = .whole j) ∧ w'.files.vis = .absent ∧
      AllWhole true (call (evalTask (evalJob (runCfg [(0, 0, 0), (1, 1, 0)]) 3 a)) w').1.files := by
  obtain ⟨a, f, j, m, h1, h2, h3, h4⟩ := runCfg_jobs [(0, 0, 0), (1, 1, 0)] 3
  obtain ⟨v, h4⟩ := h4 rfl
  have hp : (evalJob (runCfg [(0, 0, 0), (1, 1, 0)]) 3 a).pictures = true := rfl
  have j1 : evalAttempts (runCfg [(0, 0, 0), (1, 1, 0)]) 3 (evalJob (runCfg [(0, 0, 0), (1, 1, 0)]) 3 a) := ⟨a, rfl⟩
  obtain ⟨job, hjob⟩ : ∃ job, job = evalJob (runCfg [(0, 0, 0), (1, 1, 0)]) 3 a := ⟨_, rfl⟩
  rw [← hjob] at h1 h2 h3 h4 hp j1
  have t1 : History (evalTasks (evalAttempts (runCfg [(0, 0, 0), (1, 1, 0)]) 3)) emptyOutputs (⟨Function.update (fun _ => false) 0 false, ⟨.whole f, .torn, .absent⟩⟩ : Place (Outputs _ _ _)) :=
    .attempt .start ⟨job, j1, rfl⟩ (.interrupted _ rfl (by
      show _ ∈ _ :: (evalHandle job ⟨.absent, .absent, .absent⟩).1
      simp [evalHandle, h1, andThen, writeReport, h2]))
  have t2 : History (evalTasks (evalAttempts (runCfg [(0, 0, 0), (1, 1, 0)]) 3)) (⟨Function.update (fun _ => false) 0 false, ⟨.whole f, .torn, .absent⟩⟩ : Place (Outputs _ _ _))
      (⟨Function.update (Function.update (Function.update (fun _ => false) 0 false) 0 true) 0 false, ⟨.whole f, .whole j, .absent⟩⟩ : Place (Outputs _ _ _)) := by
    refine .unlock (w := (⟨Function.update (Function.update (fun _ => false) 0 false) 0 true, ⟨.whole f, .whole j, .absent⟩⟩ : Place (Outputs _ _ _))) 0 (.attempt .start ⟨job, j1, rfl⟩ (.killed _ ?_ ?_))
    · simp [skips, evalTask, File.present, hp]
    · show _ ∈ _ :: (evalHandle job ⟨.whole f, .torn, .absent⟩).1
      simp [evalHandle, andThen, writeReport, h2]
  refine ⟨_, a, t1, by simp, rfl, _, t2, by simp, ⟨j, rfl⟩, rfl, ?_⟩
  have := (C100_resumed_partial (job := job) (History.trans t1 t2) (by simp) (by simp) (by simp [LastNotTorn]) (by
    simp [call, skips, evalTask, File.present, hp, evalHandle, writeReport, h2, andThen, drawPicture, h3, writePicture, h4, outcomeOf])).1
  rw [hp] at this
  rw [← hjob]
  exact this

/-- `C100_torn_flow`, `C100_torn_last` and `C100_positions` apply to it, too. -/
example : (∃ w, History (evalTasks (evalAttempts (runCfg [(0, 0, 0), (1, 1, 0)]) 3)) emptyOutputs w ∧ w.files.flow = .torn) ∧
    (∃ w, History (evalTasks (evalAttempts (runCfg [(0, 0, 0), (1, 1, 0)]) 3)) emptyOutputs w ∧ ¬ LastNotTorn true w.files) ∧
    ∃ a w, call (evalTask (evalJob (runCfg [(0, 0, 0)]) 3 a)) emptyOutputs = (w, .raised) ∧ w.files.vis = .torn ∧ w.locked 0 = false ∧
      ∀ a', call (evalTask (evalJob (runCfg [(0, 0, 0)]) 3 a')) w = (w, .skipped) := by
  obtain ⟨a, f, j, m, h1, h2, h3, _⟩ := runCfg_jobs [(0, 0, 0), (1, 1, 0)] 3
  obtain ⟨g1, _, g2, _⟩ := C100_can_happen (jobs := evalAttempts (runCfg [(0, 0, 0), (1, 1, 0)]) 3) ⟨a, rfl⟩ h1
  obtain ⟨w1, k1, _, k2⟩ := g1
  obtain ⟨w2, l1, _, l2⟩ := g2 j m h2 h3 rfl
  obtain ⟨a', f', j', m', h1', h2', h3', _⟩ := runCfg_jobs [(0, 0, 0)] 3
  exact ⟨⟨w1, k1, k2⟩, ⟨w2, l1, l2⟩, a', C100_positions rfl (v := 1) (by decide +kernel) (by decide +kernel) h1' h2' h3'⟩

/-- A training flow with a callback, with numbers for flows and samples. -/
def trainJob (dummy : Bool) : Training Nat Nat Nat := ⟨.ok 5, fun f => .ok (f * f), true, fun f => .ok (f + 1), false, dummy⟩

/-- `C101_complete_partial` applies to an attempt that was stopped in the callback before it wrote the sample; with dummies, the sample is lost. -/
example : (∃ w, History (trainTasks (fun job => job = trainJob false)) emptySamples w ∧ w.locked 0 = false ∧ w.files.sample = .absent ∧
    (call (sampleTask (trainJob false)) (call (trainTask (trainJob false)) w).1).1.files.sample = .whole 25) ∧
    ∃ w, History (trainTasks (fun job => job = trainJob true)) emptySamples w ∧ w.locked 0 = false ∧ w.files.flow = .whole .dummy ∧ w.files.sample = .absent := by
  refine ⟨⟨(⟨Function.update (fun _ => false) 0 false, ⟨.whole (.flow 5), .absent, .absent⟩⟩ : Place (Samples _ _ _)), .attempt .start ⟨trainJob false, rfl, .inl rfl⟩ (.interrupted _ rfl ?_), by simp, rfl, ?_⟩,
    (C101_can_happen (jobs := fun job => job = trainJob true) (job := trainJob true) rfl rfl (f := 5) (s := 25) rfl rfl).1 rfl⟩
  · show _ ∈ _ :: (trainHandle (trainJob false) ⟨.absent, .absent, .absent⟩).1
    simp [trainHandle, trainJob, andThen, savedAs]
  · simp [call, skips, trainTask, sampleTask, File.present, trainJob, sampleHandle, writeSample, andThen]

end Verif.Props
