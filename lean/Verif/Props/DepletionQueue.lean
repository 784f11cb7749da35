import Verif.Proofs.DepletionQueue

/-! C129: a depletion queue is a map from edges to planned depletions, for every history of calls. -/

namespace Verif.Props

/-- Start with a new `DepletionQueue` and make any calls. Every answer is the one of a map from edges to planned depletions: `set` replaces what was planned for
the edge, with its change of outflow (`None` withdraws the old change), `pop_by_depletion` returns and removes an earliest depletion with its own change,
`min_depletion` and `min_change_time` are the smallest times, infinity if there are none, `len` counts the edges. Only `remove` of an edge
that is not in the queue and `pop_by_depletion` of an empty queue raise. -/
theorem C129_history (calls : List DepQ.Call) : Spec.DepHistory (fun _ => none) calls (DepQ.empty.run calls) :=
  DepQ.ghistory calls DepQ.grep_empty

/-- Two edges; the change of edge 7 is withdrawn, that of edge 3 comes back with it; then the queue is empty. -/
example : DepQ.empty.run [.set 7 5 (some (6, ([(0, 1)], 1))), .set 3 4 (some (9, ([(1, 2)], 2))), .minDepletion, .minChangeTime, .set 7 (9/2) none,
      .minChangeTime, .size, .pop, .contains 3, .contains 7, .pop, .pop, .minDepletion, .remove 7] =
    [.nothing, .nothing, .key (ev 4), .key (ev 6), .nothing, .key (ev 9), .number 2, .popped 3 4 (some (9, ([(1, 2)], 2))), .yes false, .yes true,
      .popped 7 (9/2) none, .raised, .key ⊤, .raised] := by decide +kernel

end Verif.Props
