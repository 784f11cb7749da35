import Verif.Model.FlowBuilder

/-! Model of several flow builders in one process (src/core/flow_builder.py).

`_get_costs` is decorated with `lru_cache(maxsize=None)` (src/core/flow_builder.py:88): one cache for the whole class, with keys
(builder, predictor type). The builders are compared by identity and stay alive as long as the cache holds them, so the entries of different builders never
mix, and the part of the cache that belongs to a builder is its field `cache`. But `cache_clear` (src/core/flow_builder.py:126) empties the
cache of the whole class. Rounds of different builders alternate in one thread: a round runs from one `yield` to the next without interruption. -/

namespace Verif

/-- A generator made by `build_flow` with its builder, its predictors and the order in which sets are iterated over. -/
structure Job (P : Type) where
  gen : Builder.Gen
  builder : Builder P
  preds : P → Predictor
  ord : List Nat → List Nat

namespace Job
variable {P : Type} [DecidableEq P]

omit [DecidableEq P] in
/-- Whether the next round of the loop calls `cache_clear` (src/core/flow_builder.py:122-126). -/
def clears (j : Job P) : Bool :=
  match j.gen, j.builder.interval with
  | .running, none => true
  | .running, some _ => decide (j.builder.flow.phi ≥ j.builder.nextReroute)
  | _, _ => false

omit [DecidableEq P] in
/-- The part of the cache that belongs to the builder is emptied (src/core/flow_builder.py:126). -/
def forget (j : Job P) : Job P := { j with builder := { j.builder with cache := fun _ => none } }

/-- `next` of the generator with number `i` (src/core/flow_builder.py:112-142), where other builders are in use: if its round clears the cache, the entries of all
builders are lost. -/
def next (J : Nat → Job P) (i : Nat) : (Nat → Job P) × Except (Option Err) DFlow :=
  let r := Builder.next (J i).ord (J i).preds (J i).gen (J i).builder
  (fun j => if j = i then { J i with gen := r.1, builder := r.2.1 } else if (J i).clears then (J j).forget else J j, r.2.2)

/-- `next` of generators in turn: what they yield or raise, and how they are left. -/
def run : List Nat → (Nat → Job P) → List (Except (Option Err) DFlow) × (Nat → Job P)
  | [], J => ([], J)
  | i :: is, J =>
    let r := next J i
    let rest := run is r.1
    (r.2 :: rest.1, rest.2)

end Job
end Verif
