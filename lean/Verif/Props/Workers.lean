import Verif.Proofs.Workers
import Mathlib.Data.List.Nodup

/-! Property theorems C94: several processes share the work of `build_flows`, `eval_network`, the training functions and the like; a process goes on when all files are there. -/

namespace Verif.FileLock
open Verif.Spec

variable {jobs : Nat → Job} {w w' : Workers} {evs : List (Nat × JobEvent)}

/-- **C94**: any number of processes start at any time, each with its own list of calls of `with_file_lock`, followed by `wait_for_locks`; they are interleaved between any two system calls, some are
killed anywhere. If handlers that return have made the outputs of their call, nobody deletes outputs or touches others' locks, and no handler raises, then a process that is behind `wait_for_locks`
finds all outputs of all its calls whose file is in the directory it has waited for — whoever made them. -/
theorem C94_ready_partial (hagree : ∀ i j, ∀ c ∈ (jobs i).calls, ∀ c' ∈ (jobs j).calls, c.file = c'.file → c.outputs = c'.outputs)
    (hout : ∀ i, ∀ c ∈ (jobs i).calls, ∀ p ∈ c.outputs, ¬ IsLock p) (hw : Begin jobs w) (hf : FairRun jobs w evs) (hn : NoRaise evs) (hr : runWorkers jobs w evs = some w') {i : Nat}
    (hd : w'.stage i = .done) {c : Call} (hc : c ∈ (jobs i).calls) (hdir : c.file.1 = (jobs i).waits) : ∀ p ∈ c.outputs, w'.fs p = true := by
  have h := run_known hagree hout evs w (fun j => by rw [hw.1 j]; exact known_enter fun k' hk => absurd hk (Nat.not_lt_zero k')) hf hn w' hr i
  rw [hd] at h
  exact h c hc hdir

/-- **C94**, for `build_flows`, `generate_queues_and_edge_loads`, `eval_network`, the evaluation of a scenario and the training of models of the full network: all processes were started with the same command and
make the same files in the directory `dir`, each perhaps with further outputs. When one of them goes on, all files and all further outputs exist. -/
theorem C94_files_partial {dir : List Char} {files : List (List Char × List Path)} (hnd : (files.map Prod.fst).Nodup) (hname : ∀ f ∈ files, ¬ lockPrefix <+: f.1)
    (hmore : ∀ f ∈ files, ∀ p ∈ f.2, ¬ IsLock p) (hw : Begin (fun _ => makeFiles dir files) w) (hf : FairRun (fun _ => makeFiles dir files) w evs) (hn : NoRaise evs)
    (hr : runWorkers (fun _ => makeFiles dir files) w evs = some w') {i : Nat} (hd : w'.stage i = .done) : ∀ f ∈ files, w'.fs (dir, f.1) = true ∧ ∀ p ∈ f.2, w'.fs p = true := by
  intro f hfm
  have hc : (⟨(dir, f.1), some ((dir, f.1) :: f.2)⟩ : Call) ∈ (makeFiles dir files).calls := List.mem_map.mpr ⟨f, hfm, rfl⟩
  have h := C94_ready_partial (jobs := fun _ => makeFiles dir files) ?_ ?_ hw hf hn hr hd hc rfl
  · exact ⟨h _ List.mem_cons_self, fun p hp => h p (List.mem_cons_of_mem _ hp)⟩
  · intro _ _ c hc c' hc' he
    obtain ⟨g, hg, rfl⟩ := List.mem_map.mp hc
    obtain ⟨g', hg', rfl⟩ := List.mem_map.mp hc'
    have : g = g' := List.inj_on_of_nodup_map hnd hg hg' (congrArg Prod.snd he)
    rw [this]
  · intro _ c hc p hp
    obtain ⟨g, hg, rfl⟩ := List.mem_map.mp hc
    rcases List.mem_cons.mp hp with rfl | hp
    · exact hname g hg
    · exact hmore g hg p hp

/-- `os.path.dirname` of a path that does not end with a slash is another path. -/
theorem dirname_ne {path : List Char} {a : Char} (ha : a ≠ '/') : dirname (path ++ [a]) ≠ path ++ [a] := by
  intro h
  have h1 := congrArg List.length h
  have h2 : ((path ++ [a]).reverse.dropWhile (· ≠ '/')).length ≤ path.length := by
    rw [List.reverse_append, List.reverse_singleton, List.singleton_append, List.dropWhile_cons]
    simp only [ne_eq, ha, not_false_eq_true, decide_true, if_true]
    exact Nat.le_trans (List.dropWhile_sublist _).length_le (by simp)
  have h3 : (dirname (path ++ [a])).length ≤ path.length := by
    unfold dirname
    simp only
    split
    · rw [List.length_reverse]; exact h2
    · rw [List.length_reverse]
      refine Nat.le_trans (List.dropWhile_sublist _).length_le ?_
      rw [List.length_reverse, List.length_reverse]; exact h2
  rw [h1, List.length_append, List.length_singleton] at h3
  omega

theorem step_call {i k : Nat} {pc pc' : Pc} {c : Call} {ev : Event} {fs' : Fs} (hd : w.dead i = false) (hs : w.stage i = .call k pc) (hc : (jobs i).calls[k]? = some c)
    (he : stepCall c w.fs pc ev = some (fs', pc')) :
    ∃ w', stepWorkers jobs w i (.inCall ev) = some w' ∧ w'.fs = fs' ∧ w'.stage i = afterStep (jobs i) k pc' ∧ (∀ j, j ≠ i → w'.stage j = w.stage j) ∧ w'.dead = w.dead := by
  refine ⟨⟨fs', fun j => if j = i then afterStep (jobs i) k pc' else w.stage j, w.dead⟩, ?_, rfl, by simp, fun j hj => by simp [hj], rfl⟩
  unfold stepWorkers
  simp only [hd, Bool.false_eq_true, if_false]
  unfold stepJob
  rw [hs, ]
  simp only [hc, he, Option.map_some]

theorem step_lists {i : Nat} {names : List (List Char)} (hd : w.dead i = false) (hs : w.stage i = .waiting) (hl : ∀ n ∈ names, ¬ lockPrefix <+: n) :
    ∃ w', stepWorkers jobs w i (.lists names) = some w' ∧ w'.fs = w.fs ∧ w'.stage i = .done ∧ (∀ j, j ≠ i → w'.stage j = w.stage j) ∧ w'.dead = w.dead := by
  refine ⟨⟨w.fs, fun j => if j = i then .done else w.stage j, w.dead⟩, ?_, rfl, by simp, fun j hj => by simp [hj], rfl⟩
  unfold stepWorkers
  simp only [hd, Bool.false_eq_true, if_false]
  unfold stepJob
  rw [hs]
  simp only [Option.map_some]
  rw [if_neg]
  rw [List.filter_eq_nil_iff.mpr (fun n hn h => hl n hn (List.isPrefixOf_iff_prefix.mp h))]
  simp

/-- Before anything happened, with an empty disk. -/
def idleWorkers (jobs : Nat → Job) : Workers := ⟨fun _ => false, fun i => enter (jobs i) 0, fun _ => false⟩

theorem idle_begin : Begin jobs (idleWorkers jobs) := ⟨fun _ => rfl, fun _ => rfl⟩

/-- **C94 is false** of `train_sk_neighborhood_model` (and of `train_tf_neighborhood_model`): the models' locks are in `models_path`, but it waits for the locks of `os.path.dirname(models_path)`.
Whatever the directory (not ending with a slash, and with a directory in front of it, as in all scenarios) and the edge: when another process is just training the model, this one goes on at once; the
model does not exist, and `SKNeighborhoodPredictor.from_models` fails. -/
theorem C94_models_wrong {dir : List Char} {a : Char} (ha : a ≠ '/') (_hd : dirname (dir ++ [a]) ≠ []) (e : Nat) : ∃ (evs : List (Nat × JobEvent)) (w' : Workers),
    FairRun (fun _ => trainNeighborhood (dir ++ [a]) [e]) (idleWorkers (fun _ => trainNeighborhood (dir ++ [a]) [e])) evs ∧ NoRaise evs ∧
    (∀ i, (i, JobEvent.kill) ∉ evs) ∧ runWorkers (fun _ => trainNeighborhood (dir ++ [a]) [e]) (idleWorkers (fun _ => trainNeighborhood (dir ++ [a]) [e])) evs = some w' ∧
    w'.stage 0 = .done ∧ w'.fs (modelFile (dir ++ [a]) e) = false := by
  have hne := dirname_ne (path := dir) ha
  obtain ⟨jobs, hj⟩ : ∃ jobs : Nat → Job, jobs = fun _ => trainNeighborhood (dir ++ [a]) [e] := ⟨_, rfl⟩
  rw [← hj]
  have hc : ∀ i, (jobs i).calls[0]? = some ⟨modelFile (dir ++ [a]) e, none⟩ := fun i => by rw [hj]; rfl
  have h0 : ∀ i, (idleWorkers jobs).stage i = .call 0 .start := fun i => by rw [hj]; rfl
  have h1 : ∀ i, enter (jobs i) 1 = .waiting := fun i => by rw [hj]; rfl
  have hwt : (jobs 0).waits = dirname (dir ++ [a]) := by rw [hj]; rfl
  have hm : (fun _ => false : Fs) (modelFile (dir ++ [a]) e) = false := rfl
  obtain ⟨w1, s1, f1, p1, q1, d1⟩ := step_call (i := 1) (ev := .go) (w := idleWorkers jobs) rfl (h0 1) (hc 1) rfl
  obtain ⟨w2, s2, f2, p2, q2, d2⟩ := step_call (i := 1) (ev := .go) (w := w1) (fs' := w1.fs) (pc' := .opening) (by rw [d1]; rfl) p1 (hc 1) (by rw [f1]; rfl)
  obtain ⟨w3, s3, f3, p3, q3, d3⟩ := step_call (i := 1) (ev := .go) (w := w2) (by rw [d2, d1]; rfl) p2 (hc 1) rfl
  have f3' : w3.fs = openFile (fun _ => false) (lockPath (modelFile (dir ++ [a]) e)) := by rw [f3, f2, f1]; rfl
  have z3 : w3.stage 0 = .call 0 .start := by rw [q3 0 (by decide), q2 0 (by decide), q1 0 (by decide)]; exact h0 0
  obtain ⟨w4, s4, f4, p4, q4, d4⟩ := step_call (i := 0) (ev := .go) (w := w3) (fs' := w3.fs) (pc' := .skipped) (by rw [d3, d2, d1]; rfl) z3 (hc 0) (by
    unfold stepCall
    rw [f3']
    simp only [openFile_same, if_true])
  have z4 : w4.stage 0 = .waiting := by rw [p4]; exact h1 0
  obtain ⟨w5, s5, f5, p5, q5, d5⟩ := step_lists (jobs := jobs) (names := []) (w := w4) (i := 0) (by rw [d4, d3, d2, d1]; rfl) z4 (by simp)
  refine ⟨[(1, .inCall .go), (1, .inCall .go), (1, .inCall .go), (0, .inCall .go), (0, .lists [])], w5,
    fairRun_cons trivial s1 (fairRun_cons trivial s2 (fairRun_cons trivial s3 (fairRun_cons trivial s4 (fairRun_cons ?_ s5 fairRun_nil)))), by intro i; simp, by intro i; simp, ?_, p5, ?_⟩
  · intro q
    rw [hwt, f4, f3']
    have hnl : ((dirname (dir ++ [a]), q) : Path) ≠ lockPath (modelFile (dir ++ [a]) e) := fun h => hne (congrArg Prod.fst h)
    rw [openFile_ne hnl]
    simp
  · simp only [runWorkers, s1, s2, s3, s4, s5, Option.bind_some]
  · rw [f5, f4, f3']
    refine openFile_ne fun h => ?_
    have h2 := congrArg (fun p : Path => p.2.length) h
    simp only [lockPath, List.length_append] at h2
    have h3 : lockPrefix.length = 6 := rfl
    omega

theorem open_remove (p q : Path) : removeFile (openFile (fun _ => false) p) p q = false := by
  by_cases h : q = p
  · rw [h, removeFile_same]
  · rw [removeFile_ne h, openFile_ne h]

/-- The files of the examples: a flow, with a picture. -/
def flowFiles : List (List Char × List Path) := [("0.pickle".toList, [("out/visualization".toList, "0.json".toList)])]

/-- Every process makes them. -/
def flowJobs : Nat → Job := fun _ => makeFiles "out".toList flowFiles

/-- The disk when they are made. -/
def flowDisk (locked : Bool) : Fs := fun p => if p = ("out".toList, "0.pickle".toList) ∨ p = ("out/visualization".toList, "0.json".toList) then true else if p = ("out".toList, ".lock.0.pickle".toList) then locked else false

theorem flow_outputs (j : Nat) {c : Call} (hc : c ∈ (flowJobs j).calls) {p : Path} (hp : p ∈ c.outputs) (b : Bool) : flowDisk b p = true := by
  have h1 : c = ⟨("out".toList, "0.pickle".toList), some [("out".toList, "0.pickle".toList), ("out/visualization".toList, "0.json".toList)]⟩ := List.mem_singleton.mp hc
  subst h1
  unfold flowDisk
  rw [if_pos]
  rcases List.mem_cons.mp hp with rfl | hp
  · exact .inl rfl
  · exact .inr (List.mem_singleton.mp hp)

theorem list_locked (q : List Char) : q ∈ ["0.pickle".toList, ".lock.0.pickle".toList] ↔ flowDisk true ("out".toList, q) = true := by
  unfold flowDisk
  simp only [Prod.mk.injEq, true_and, List.mem_cons, List.not_mem_nil, or_false]
  have : ("out".toList = "out/visualization".toList) = False := by simp
  simp only [this, false_and, or_false]
  by_cases h1 : q = "0.pickle".toList
  · simp only [h1, if_true, true_or]
  · simp only [h1, if_false, false_or]
    by_cases h2 : q = ".lock.0.pickle".toList
    · simp only [h2, if_true]
    · simp only [h2, if_false, Bool.false_eq_true]

theorem list_free (q : List Char) : q ∈ ["0.pickle".toList] ↔ removeFile (flowDisk true) ("out".toList, ".lock.0.pickle".toList) ("out".toList, q) = true := by
  unfold removeFile flowDisk
  simp only [Prod.mk.injEq, true_and, List.mem_cons, List.not_mem_nil, or_false]
  have : ("out".toList = "out/visualization".toList) = False := by simp
  simp only [this, false_and, or_false]
  by_cases h1 : q = "0.pickle".toList
  · have h2 : ("0.pickle".toList = ".lock.0.pickle".toList) = False := by simp
    simp only [h1, if_true, h2, if_false]
  · by_cases h2 : q = ".lock.0.pickle".toList
    · rw [if_pos h2]
      exact ⟨fun h => absurd h h1, fun h => absurd h (by decide)⟩
    · simp only [h1, h2, if_false, Bool.false_eq_true]

/-- **C94 is false** of the code as it is if a handler raises: the process that found the lock goes on without the file. -/
theorem C94_raise_wrong : ∃ (evs : List (Nat × JobEvent)) (w' : Workers), FairRun flowJobs (idleWorkers flowJobs) evs ∧ (∀ i, (i, JobEvent.kill) ∉ evs) ∧
    runWorkers flowJobs (idleWorkers flowJobs) evs = some w' ∧ w'.stage 0 = .done ∧ w'.stage 1 = .raised ∧ w'.fs ("out".toList, "0.pickle".toList) = false := by
  refine ⟨[(1, .inCall .go), (1, .inCall .go), (1, .inCall .go), (0, .inCall .go), (1, .inCall (.ends .raised)), (1, .inCall .go), (0, .lists [])], _,
    fairRun_cons trivial rfl (fairRun_cons trivial rfl (fairRun_cons trivial rfl (fairRun_cons trivial rfl (fairRun_cons trivial rfl (fairRun_cons trivial rfl (fairRun_cons ?_ rfl fairRun_nil)))))),
    by intro i; simp, rfl, rfl, rfl, rfl⟩
  intro q
  have h : removeFile (openFile (fun _ => false) (lockPath ("out".toList, "0.pickle".toList))) (lockPath ("out".toList, "0.pickle".toList)) ("out".toList, q) = false := open_remove _ _
  exact ⟨fun hq => (List.not_mem_nil hq).elim, fun hq => absurd (h.symm.trans hq) (by decide)⟩

/-- The hypotheses of `C94_models_wrong` are met by the scenarios' directory. -/
example : 's' ≠ '/' ∧ dirname ("out/sk-neighborhood-model".toList ++ ['s']) = "out".toList ∧ "out".toList ≠ [] := by decide

/-- The hypotheses of `C94_files_partial` are met: process 1 makes the flow and the picture, process 0 finds the lock and waits, process 2 is killed at once. -/
example : ∃ (evs : List (Nat × JobEvent)) (w' : Workers), (flowFiles.map Prod.fst).Nodup ∧ (∀ f ∈ flowFiles, ¬ lockPrefix <+: f.1) ∧ (∀ f ∈ flowFiles, ∀ p ∈ f.2, ¬ IsLock p) ∧
    Begin flowJobs (idleWorkers flowJobs) ∧ FairRun flowJobs (idleWorkers flowJobs) evs ∧ NoRaise evs ∧ runWorkers flowJobs (idleWorkers flowJobs) evs = some w' ∧ w'.stage 0 = .done ∧
    w'.dead 2 = true ∧ w'.fs ("out/visualization".toList, "0.json".toList) = true := by
  refine ⟨[(2, .kill), (1, .inCall .go), (1, .inCall .go), (1, .inCall .go), (0, .inCall .go), (1, .inCall (.work (flowDisk true))), (0, .lists ["0.pickle".toList, ".lock.0.pickle".toList]),
    (1, .inCall (.ends .returned)), (1, .inCall .go), (0, .lists ["0.pickle".toList])], _, by simp [flowFiles], ?_, ?_, idle_begin,
    fairRun_cons trivial rfl (fairRun_cons trivial rfl (fairRun_cons trivial rfl (fairRun_cons trivial rfl (fairRun_cons trivial rfl (fairRun_cons ?_ rfl (fairRun_cons ?_ rfl
    (fairRun_cons ?_ rfl (fairRun_cons trivial rfl (fairRun_cons ?_ rfl fairRun_nil))))))))), by intro i; simp, rfl, rfl, rfl, rfl⟩
  · intro f hf
    simp only [flowFiles, List.mem_singleton] at hf
    subst hf
    decide
  · intro f hf p hp
    simp only [flowFiles, List.mem_singleton] at hf
    subst hf
    simp only [List.mem_singleton] at hp
    subst hp
    unfold IsLock
    decide
  · refine ⟨fun p hp => ?_, fun j c hc p hp _ => ?_⟩
    · show flowDisk true p = openFile (fun _ => false) ("out".toList, ".lock.0.pickle".toList) p
      unfold flowDisk openFile
      by_cases h1 : p = ("out".toList, "0.pickle".toList) ∨ p = ("out/visualization".toList, "0.json".toList)
      · exfalso
        rcases h1 with rfl | rfl
        · revert hp; unfold IsLock; decide
        · revert hp; unfold IsLock; decide
      · rw [if_neg h1]
    · exact flow_outputs j hc hp _
  · intro q
    exact list_locked q
  · intro k pc c hs hc p hp
    exact flow_outputs 1 (List.mem_of_getElem? hc) hp _
  · intro q
    exact list_free q

end Verif.FileLock
