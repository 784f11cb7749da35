import Mathlib.Order.Defs.LinearOrder

/-! Abstract priority queue: the list of stored (item, key) pairs in order of first insertion. -/

namespace Verif.Spec

/-- Pairs in insertion order. -/
abbrev AQueue (K T : Type _) := List (T × K)

namespace AQueue
variable {K T : Type _} [LinearOrder K] [DecidableEq T]

/-- The key stored for `x`. -/
def lookup (q : AQueue K T) (x : T) : Option K := (q.find? (fun p => p.1 = x)).map Prod.snd

/-- Is `x` stored? -/
def mem (q : AQueue K T) (x : T) : Prop := ∃ k, (x, k) ∈ q

/-- Insert a new item at the end. -/
def push (q : AQueue K T) (x : T) (k : K) : AQueue K T := q ++ [(x, k)]

/-- Change the key of `x` without changing its place in the insertion order. -/
def rekey (q : AQueue K T) (x : T) (k : K) : AQueue K T := q.map (fun p => if p.1 = x then (x, k) else p)

/-- Forget `x`. -/
def erase (q : AQueue K T) (x : T) : AQueue K T := q.filter (fun p => p.1 ≠ x)

/-- The first pair with minimal key. -/
def first : AQueue K T → Option (T × K)
  | [] => none
  | p :: q =>
    match first q with
    | none => some p
    | some m => if p.2 ≤ m.2 then some p else some m

/-- Insert a pair into a list ordered by key, after all pairs with the same key. -/
def insertByKey (p : T × K) : AQueue K T → AQueue K T
  | [] => [p]
  | r :: q => if p.2 < r.2 then p :: r :: q else r :: insertByKey p q

/-- All pairs by key, insertion order among equal keys. -/
def byKey (q : AQueue K T) : AQueue K T := q.foldl (fun acc p => insertByKey p acc) []

end AQueue
end Verif.Spec
