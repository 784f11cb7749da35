import Verif.Model.Prelude

/-! Model of src/utilities/arrays.py. -/

namespace Verif

section Rank
variable {α : Type _} [LinearOrder α]

/-- The `while high > low` loop of `elem_rank` (src/utilities/arrays.py:29-34); returns the final
`high`. The first argument is fuel. -/
def elemRankLoop (arr : List α) (x : α) : Nat → Nat → Nat → Py Nat
  | 0, _, _ => .error .fuel
  | fuel + 1, low, high =>
    if high > low then
      let mid := (high + low) / 2
      do
        let a ← rd arr mid
        if x ≤ a then elemRankLoop arr x fuel low mid
        else elemRankLoop arr x fuel (mid + 1) high
    else .ok high

/-- `elem_rank` (src/utilities/arrays.py:17-35). -/
def elemRank (arr : List α) (x : α) : Py Int := do
  let a0 ← rd arr 0
  if x ≤ a0 then pure (-1)
  else do
    let high ← elemRankLoop arr x (arr.length + 1) 0 arr.length
    pure ((high : Int) - 1)

/-- The `while high > low` loop of `elem_lrank` (src/utilities/arrays.py:49-54). -/
def elemLrankLoop (arr : List α) (x : α) : Nat → Nat → Nat → Py Nat
  | 0, _, _ => .error .fuel
  | fuel + 1, low, high =>
    if high > low then
      let mid := (high + low) / 2
      do
        let a ← rd arr mid
        if x < a then elemLrankLoop arr x fuel low mid
        else elemLrankLoop arr x fuel (mid + 1) high
    else .ok high

/-- `elem_lrank` (src/utilities/arrays.py:38-55). -/
def elemLrank (arr : List α) (x : α) : Py Int := do
  let a0 ← rd arr 0
  if x < a0 then pure (-1)
  else do
    let high ← elemLrankLoop arr x (arr.length + 1) 0 arr.length
    pure ((high : Int) - 1)

end Rank

/-- The repeated body "append unless within eps of the last, else overwrite the last"
(src/utilities/arrays.py:74-77, 92-95, 98-101, 105-108, 111-114). -/
def mergePush (merged : List ℚ) (v : ℚ) : List ℚ :=
  match merged.getLast? with
  | none => merged ++ [v]
  | some l =>
    if l < v - eps then merged ++ [v]
    else if v - eps ≤ l ∧ l < v then merged.dropLast ++ [v]
    else merged

/-- The two tail loops of `merge_sorted` (src/utilities/arrays.py:104-115): push every rest element. -/
def mergeTail (merged : List ℚ) : List ℚ → List ℚ
  | [] => merged
  | v :: rest => mergeTail (mergePush merged v) rest

/-- The main loop of `merge_sorted` (src/utilities/arrays.py:90-115). The pair of indices is
represented by the two remaining suffixes (the code only ever reads at the indices and increments
them). -/
def mergeSortedLoop (merged : List ℚ) : List ℚ → List ℚ → List ℚ
  | [], ys => mergeTail merged ys
  | xs, [] => mergeTail merged xs
  | x :: xs, y :: ys =>
    if x < y then mergeSortedLoop (mergePush merged x) xs (y :: ys)
    else mergeSortedLoop (mergePush merged y) (x :: xs) ys
termination_by xs ys => xs.length + ys.length

/-- `merge_sorted` (src/utilities/arrays.py:82-117). -/
def mergeSorted (xs ys : List ℚ) : List ℚ := mergeSortedLoop [] xs ys

/-- The `min(..., default=None)` of `merge_sorted_many` (src/utilities/arrays.py:66-70): position and
value of the first list whose head is minimal among the non-empty rests. Returns the pair (j, head). -/
def argMinHead : Nat → List (List ℚ) → Option (Nat × ℚ)
  | _, [] => none
  | j, [] :: ls => argMinHead (j + 1) ls
  | j, (x :: _) :: ls =>
    match argMinHead (j + 1) ls with
    | none => some (j, x)
    | some (i, v) => if x ≤ v then some (j, x) else some (i, v)

/-- The `while True` loop of `merge_sorted_many` (src/utilities/arrays.py:65-78). The index vector is
represented by the list of remaining suffixes. First argument: fuel. -/
def mergeManyLoop : Nat → List ℚ → List (List ℚ) → Py (List ℚ)
  | 0, _, _ => .error .fuel
  | fuel + 1, merged, ls =>
    match argMinHead 0 ls with
    | none => .ok merged
    | some (i, v) => mergeManyLoop fuel (mergePush merged v) (ls.modify i List.tail)

/-- `merge_sorted_many` (src/utilities/arrays.py:58-79). -/
def mergeSortedMany (ls : List (List ℚ)) : Py (List ℚ) :=
  mergeManyLoop ((ls.map List.length).sum + 1) [] ls

end Verif
