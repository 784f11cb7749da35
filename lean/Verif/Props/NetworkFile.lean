import Verif.Proofs.NetworkFile

/-! Property theorems C105: the network file that the workers of a scenario share. -/

namespace Verif.Props
open Verif.Spec Verif.NetworkFile

variable {N : Type} {pickled : Nat → List UInt8} {bytes old : List UInt8} {loads : List UInt8 → Py N} {w w' : World N}

theorem after_create (hp : SamePickle pickled bytes) {p : Nat} {post : List (Nat × Event)} (h : run pickled loads w ((p, .create) :: post) = some w') :
    ∃ w1, step pickled loads w p .create = some w1 ∧ run pickled loads w1 post = some w' ∧ w1.phase p = .writing 0 ∧ Prefix bytes w1.file 0 := by
  obtain ⟨w1, h1, h2⟩ := run_cons h
  rcases step_cases h1 with ⟨_, _, h⟩ | ⟨_, _, h, _⟩ | ⟨h, _⟩ | ⟨h, _⟩ | ⟨_, _, h, _⟩ | ⟨_, h, _⟩ | ⟨h, _⟩
  all_goals first | (cases h; done) | skip
  exact ⟨w1, h1, h2, by rw [h, now_same], by rw [h]; exact ⟨by omega, by simp [World.now], by omega⟩⟩

/-- However many workers write the file at the same time, in pieces of whatever lengths, and whoever of them is killed: as soon as the worker that was the last to begin has closed it, the file is complete, and it stays so. -/
theorem C105_written_partial (hp : SamePickle pickled bytes) {p : Nat} {pre post : List (Nat × Event)} (h : run pickled loads (fresh old) (pre ++ (p, .create) :: post) = some w)
    (hlast : NobodyCreates post) (hclosed : (p, Event.close) ∈ post) : w.file = bytes := by
  obtain ⟨w1, _, h2⟩ := run_append _ _ _ h
  obtain ⟨w2, _, h3, h4, h5⟩ := after_create hp h2
  exact writer_closes hp post w2 0 h3 hlast h4 h5 hclosed

theorem last_create : ∀ {evs : List (Nat × Event)}, (∃ p, (p, Event.create) ∈ evs) → ∃ pre p post, evs = pre ++ (p, Event.create) :: post ∧ NobodyCreates post := by
  intro evs
  induction evs with
  | nil => rintro ⟨p, h⟩; cases h
  | cons x evs ih =>
    rintro ⟨p, h⟩
    by_cases hc : ∃ q, (q, Event.create) ∈ evs
    · obtain ⟨pre, q, post, h1, h2⟩ := ih hc
      exact ⟨x :: pre, q, post, by rw [h1]; rfl, h2⟩
    · rcases List.mem_cons.mp h with h | h
      · exact ⟨[], p, evs, by rw [← h]; rfl, fun q hq => hc ⟨q, hq⟩⟩
      · exact absurd ⟨p, h⟩ hc

/-- Whenever nobody is writing (and nobody was killed), the file is complete. -/
theorem C105_finished (hp : SamePickle pickled bytes) {evs : List (Nat × Event)} (h : run pickled loads (fresh old) evs = some w) (hone : ∃ p, (p, Event.create) ∈ evs) (hnow : NobodyWrites w) : w.file = bytes := by
  obtain ⟨pre, p, post, h1, h2⟩ := last_create hone
  rw [h1] at h
  refine C105_written_partial hp h h2 ?_
  by_contra hc
  obtain ⟨w1, _, h3⟩ := run_append _ _ _ h
  obtain ⟨w2, _, h4, h5, _⟩ := after_create hp h3
  rcases writer_stays post w2 0 h4 h5 hc with ⟨j, h6⟩ | h6 <;> rcases hnow p with h7 | h7 | ⟨b, h7⟩ <;> rw [h6] at h7 <;> cases h7

/-- Whoever opens the file after that, and before another worker begins to write, is given the network. -/
theorem C105_read_partial (hp : SamePickle pickled bytes) {p q : Nat} {pre mid rest : List (Nat × Event)} (h1 : run pickled loads (fresh old) (pre ++ (p, .create) :: mid) = some w)
    (hclosed : (p, Event.close) ∈ mid) (h2 : run pickled loads w ((q, .look) :: rest) = some w') (hlast : NobodyCreates (mid ++ rest)) : ∃ rs, Given w w' q rs ∧ ∀ r ∈ rs, r = loads bytes := by
  have hf := C105_written_partial hp h1 (fun r hr => hlast r (List.mem_append_left _ hr)) hclosed
  obtain ⟨w1, h3, h4⟩ := run_cons h2
  rcases step_cases h3 with ⟨h, _, _⟩ | ⟨_, _, h, _⟩ | ⟨h, _⟩ | ⟨_, _, h⟩ | ⟨_, _, h, _⟩ | ⟨_, h, _⟩ | ⟨h, _⟩
  all_goals first | (cases h; done) | skip
  obtain ⟨new, h5, h6⟩ := reader_gets (p := q) hp rest w1 h4 (fun r hr => hlast r (List.mem_append_right _ hr)) (by rw [h]; exact hf) (by
    intro b hb
    rw [h, now_same] at hb
    injection hb with hb
    rw [← hb]; simp)
  refine ⟨_, ⟨new, by rw [h5, h]; rfl, rfl⟩, ?_⟩
  intro r hr
  simp only [List.mem_map, List.mem_filter, decide_eq_true_eq] at hr
  obtain ⟨⟨a, b⟩, ⟨h7, h8⟩, h9⟩ := hr
  simp only at h8 h9
  rw [h8, h9] at h7
  exact h6 r h7

/-- A single worker is always given the network that it wrote. -/
theorem C105_alone (hp : SamePickle pickled bytes) {p : Nat} {evs : List (Nat × Event)} (h : run pickled loads (fresh old) evs = some w) (halone : ∀ x ∈ evs, x.1 = p) : ∀ x ∈ w.results, x.2 = loads bytes :=
  (lone_run hp evs _ h halone ⟨(by intro x hx; cases hx), Or.inl rfl⟩).1

/-- Two workers, a network of three bytes; `pickle.load` of anything else raises. -/
def twoBytes : List UInt8 := [128, 4, 46]

def loadTwo (b : List UInt8) : Py Nat := if b = twoBytes then .ok 7 else .error .value

/-- The first worker writes, then the second one; the first one reads the file in two pieces while the second one is ready. -/
def inTurn : List (Nat × Event) := [(0, .create), (0, .write 3), (1, .create), (1, .write 1), (1, .write 2), (1, .close), (0, .close)]

example : ∃ w w' : World Nat, run (fun _ => twoBytes) loadTwo (fresh [1, 2]) inTurn = some w ∧ run (fun _ => twoBytes) loadTwo w [(0, .look), (0, .read 2), (0, .read 9), (0, .load)] = some w' ∧
    w.file = twoBytes ∧ w'.results = [(0, .ok 7)] := by
  refine ⟨_, _, rfl, rfl, by decide, by decide⟩

/-- A worker may be started while another one is at work. That one opens the file, finds nothing in it and fails, although it has written the network itself. -/
theorem C105_torn : ∃ evs : List (Nat × Event), ∃ w : World Nat, run (fun _ => twoBytes) loadTwo (fresh []) evs = some w ∧ w.results = [(0, .error .value)] ∧
    (0, Event.close) ∈ evs ∧ (∀ p, w.phase p ≠ .dead) ∧ (∃ k, w.phase 1 = .writing k) := by
  refine ⟨[(0, .create), (0, .write 3), (0, .close), (1, .create), (0, .look), (0, .load)], _, rfl, by decide, by decide, ?_, 0, by decide⟩
  intro p
  simp only [World.now]
  split
  · decide
  · split
    · decide
    · intro h; cases h

/-- Bytes of the two workers get mixed: the file is long enough but begins with a gap. -/
theorem C105_gap : ∃ evs : List (Nat × Event), ∃ w : World Nat, run (fun _ => twoBytes) loadTwo (fresh []) evs = some w ∧ w.file = [0, 4, 46] ∧ (0, Event.close) ∈ evs :=
  ⟨[(0, .create), (0, .write 1), (1, .create), (0, .write 2), (0, .close)], _, rfl, by decide, by decide⟩

/-- A worker that is killed while it writes leaves an incomplete file to the others, for good unless somebody writes it again: then it is complete. -/
theorem C105_killed : ∃ evs more : List (Nat × Event), ∃ w w' : World Nat, run (fun _ => twoBytes) loadTwo (fresh []) evs = some w ∧ w.results = [(0, .error .value)] ∧ w.phase 0 = .ready ∧ w.phase 1 = .dead ∧
    w.file = [128] ∧ run (fun _ => twoBytes) loadTwo w more = some w' ∧ w'.file = twoBytes ∧ w'.results = [(0, .ok 7), (0, .error .value)] :=
  ⟨[(0, .create), (0, .write 3), (0, .close), (1, .create), (1, .write 1), (1, .kill), (0, .look), (0, .read 3), (0, .load)],
    [(2, .create), (2, .write 3), (2, .close), (0, .look), (0, .read 3), (0, .load)], _, _, rfl, by decide, by decide, by decide, by decide, rfl, by decide, by decide⟩

/-- If the workers do not agree on the network (for instance, because the scenario was changed in between), the finished file may be neither of the two. -/
theorem C105_different : ∃ evs : List (Nat × Event), ∃ w : World Nat, run (fun p => if p = 0 then [1, 2, 3] else [4, 5]) loadTwo (fresh []) evs = some w ∧ (0, Event.close) ∈ evs ∧ (1, Event.close) ∈ evs ∧
    w.file = [4, 5, 3] := by
  exact ⟨[(0, .create), (0, .write 1), (1, .create), (0, .write 2), (1, .write 2), (0, .close), (1, .close)], _, rfl, by decide, by decide, by decide⟩

end Verif.Props
