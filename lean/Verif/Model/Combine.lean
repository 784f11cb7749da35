import Verif.Model.Network

/-! Model of src/utilities/combine_commodities.py. Commodities are objects compared by identity: `obj r` is the object with
reference `r`. A set is the list of what was put into it, iterated through `ord` (any order, without repetition). -/

namespace Verif
namespace Combine

variable {P : Type} [DecidableEq P]

/-- `if key not in groups: groups[key] = {commodity} else: groups[key].add(commodity)`
(src/utilities/combine_commodities.py:16-19). -/
def addTo (key : P × Nat) (r : Nat) : List ((P × Nat) × List Nat) → List ((P × Nat) × List Nat)
  | [] => [(key, [r])]
  | (k, g) :: l => if k = key then (k, g ++ [r]) :: l else (k, g) :: addTo key r l

/-- The first loop (src/utilities/combine_commodities.py:12-19). -/
def group (obj : Nat → Commodity P) (exceptions : List Nat) : List Nat → List ((P × Nat) × List Nat) → List ((P × Nat) × List Nat)
  | [], gs => gs
  | r :: rs, gs =>
    if r ∈ exceptions then group obj exceptions rs gs
    else group obj exceptions rs (addTo ((obj r).predictor, (obj r).sink) r gs)

/-- `if source not in sources: sources[source] = value else: sources[source] += value` (src/utilities/combine_commodities.py:25-28). -/
def addSource (v : Nat) (f : RC) : List (Nat × RC) → Py (List (Nat × RC))
  | [] => .ok [(v, f)]
  | (u, g) :: l =>
    if u = v then do
      let s ← g.add f
      pure ((u, s) :: l)
    else do
      let l ← addSource v f l
      pure ((u, g) :: l)

/-- The loop over the sources of a commodity (src/utilities/combine_commodities.py:24-28). -/
def addSources : List (Nat × RC) → List (Nat × RC) → Py (List (Nat × RC))
  | [], acc => .ok acc
  | (v, f) :: l, acc => do
    let acc ← addSource v f acc
    addSources l acc

/-- The loop over a group (src/utilities/combine_commodities.py:23-28). -/
def mergeGroup (obj : Nat → Commodity P) : List Nat → List (Nat × RC) → Py (List (Nat × RC))
  | [], acc => .ok acc
  | r :: rs, acc => do
    let acc ← addSources (obj r).sources acc
    mergeGroup obj rs acc

/-- The loop over the groups (src/utilities/combine_commodities.py:21-29). -/
def mergeAll (ord : List Nat → List Nat) (obj : Nat → Commodity P) : List ((P × Nat) × List Nat) → Py (List (Commodity P))
  | [] => .ok []
  | (k, g) :: l => do
    let sources ← mergeGroup obj (ord g) []
    let rest ← mergeAll ord obj l
    pure (⟨sources, k.2, k.1⟩ :: rest)

/-- `combine_commodities_with_same_sink` (src/utilities/combine_commodities.py:8-31); `network.commodities` are the objects `refs`. -/
def combine (ord : List Nat → List Nat) (n : Network P) (obj : Nat → Commodity P) (refs exceptions : List Nat) : Py (Network P) := do
  let merged ← mergeAll ord obj (group obj exceptions refs [])
  pure { n with commodities := merged ++ (ord exceptions).map obj }

end Combine
end Verif
