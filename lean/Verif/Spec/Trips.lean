import Verif.Model.Graph

/-! Trips to a sink with time-dependent arrival times. -/

namespace Verif.Spec
open Verif

/-- Who is at a node at a time and goes on along `n` edges whose tails are in `nodes`, never waiting, is at the sink at a later time: number of edges, node, time, arrival time. Who enters
edge `e` at time `t` is at its head at time `arr e t`. -/
inductive Ride (g : Graph) (arr : Nat → ℚ → ℚ) (nodes : List Nat) (sink : Nat) : Nat → Nat → ℚ → ℚ → Prop
  | here (t : ℚ) : Ride g arr nodes sink 0 sink t t
  | drive {n : Nat} {t y : ℚ} (e : Nat) (he : e ∈ g.edges) (hv : g.nodeFrom e ∈ nodes) (h : Ride g arr nodes sink n (g.nodeTo e) (arr e t) y) :
      Ride g arr nodes sink (n + 1) (g.nodeFrom e) t y

/-- Who is at node `v` at time `t` can be at the sink at time `y`. -/
def GetsTo (g : Graph) (arr : Nat → ℚ → ℚ) (nodes : List Nat) (sink v : Nat) (t y : ℚ) : Prop := ∃ n, Ride g arr nodes sink n v t y

/-- From time `phi` on, edges are left after they are entered and in the same order. -/
structure Fifo (g : Graph) (phi : ℚ) (arr : Nat → ℚ → ℚ) : Prop where
  later : ∀ e ∈ g.edges, ∀ t, phi ≤ t → t ≤ arr e t
  order : ∀ e ∈ g.edges, ∀ s t, phi ≤ s → s ≤ t → arr e s ≤ arr e t

/-- The value of the line with slope `l.1` and value `l.2` at 0. -/
def lineAt (l : ℚ × ℚ) (t : ℚ) : ℚ := l.1 * t + l.2

/-- All arrival times at the sink with at most `n` edges lie on the given lines. -/
def OnLines (g : Graph) (arr : Nat → ℚ → ℚ) (nodes : List Nat) (sink : Nat) (phi : ℚ) (n : Nat) (lines : List (ℚ × ℚ)) : Prop :=
  ∀ k v t y, k ≤ n → phi ≤ t → Ride g arr nodes sink k v t y → ∃ l ∈ lines, y = lineAt l t

/-- A time from `phi` on where something may turn: `phi`, one of the given times or a crossing of two of the lines. -/
def Turn (phi : ℚ) (lines : List (ℚ × ℚ)) (kinks : List ℚ) (t : ℚ) : Prop :=
  phi ≤ t ∧ (t = phi ∨ t ∈ kinks ∨ ∃ l ∈ lines, ∃ l' ∈ lines, l.1 ≠ l'.1 ∧ lineAt l t = lineAt l' t)

/-- Slopes, turns and values at turns are equal or clearly different: no comparison is decided by the tolerances of the program. -/
structure ClearCut (phi : ℚ) (lines : List (ℚ × ℚ)) (kinks : List ℚ) : Prop where
  slopes : ∀ l ∈ lines, ∀ l' ∈ lines, l.1 = l'.1 ∨ 1000 * eps < |l.1 - l'.1|
  turns : ∀ s t, Turn phi lines kinks s → Turn phi lines kinks t → s < t → s + eps < t
  values : ∀ t, Turn phi lines kinks t → ∀ l ∈ lines, ∀ l' ∈ lines, lineAt l t = lineAt l' t ∨ 1000 * eps < |lineAt l t - lineAt l' t|

/-- Trips from time `phi` on with at most `n` edges arrive clearly before the horizon, and the arrivals of two of them from the same node are equal or clearly different. -/
structure ClearTrips (g : Graph) (arr : Nat → ℚ → ℚ) (nodes : List Nat) (sink : Nat) (phi H : ℚ) (n : Nat) : Prop where
  before : ∀ k v y, k ≤ n → Ride g arr nodes sink k v phi y → y + eps < H
  apart : ∀ k l v y z, k ≤ n → l ≤ n → Ride g arr nodes sink k v phi y → Ride g arr nodes sink l v phi z → y = z ∨ 1000 * eps < |y - z|

end Verif.Spec
