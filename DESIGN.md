# Formal model of dynamic-prediction-equilibria — design

## 1. Trusted base

* Lean 4.33.0's kernel, and Mathlib's definitions of `Rat`, `List`, `Finset`, order classes.
* Axioms: only Lean's three standard ones (`propext`, `Quot.sound`, `Classical.choice`); each
  theorem's list is printed by the gate. No axiom is added, no compiled evaluation is used.
* The reading of the Python source: every definition under `lean/Verif/Model/` cites the file and
  lines in `/repo` it models. Nothing ties the model to the running code but that reading.

## 2. What is modelled, and how

* **Numbers.** Python floats become exact rationals `ℚ`; `eps = 1e-10` becomes `1/10^10`.
  Floating-point rounding, NaN and overflow are *not* modelled. `±inf` occurs only as a domain end
  point or a queue key and is modelled explicitly (`Ext` / `WithTop`).
  Order-only code (rank searches, heap) is generic over a linear order, so those theorems hold for
  non-NaN floats as well.
* **Exceptions.** A call that may raise returns `Except Err α`; `assert` is `Err.assertion`, a list
  read outside its bounds is `Err.index`, a missing dict key is `Err.key`, and so on.
* **Loops** become structural recursion, or recursion over fuel with a theorem giving a sufficient
  amount of fuel (that is the termination proof); running out of fuel is a distinct error.
* **Mutation** becomes returning the new value. In-place aliasing is modelled only where a property
  is about it.
* **Python dicts** become association lists or partial functions; equality claims about them are
  order-insensitive unless the order is observable.
* **Ranks** may be -1, hence `Int`.
* **Priority queue.** `Model/Heap.lean` is the concrete heap with its position index;
  `Spec/Queue.lean` is an abstract queue (list in insertion order, pop = first minimal key). The
  refinement theorem (C05, C06) relates them, and the models of DynamicFlow, Dijkstra and FlowBuilder use the
  concrete one, through the interface `Heap.Rep` (proved from the refinement).
* **File locks.** `Model/FileLock.lean` is an interleaving semantics: any number of processes, each a program counter in
  `with_file_lock`; every system call (exists, open, remove) is one atomic step; handlers are arbitrary changes of the set
  of existing files; a process may be killed between any two steps.

Layout: `Model/` definitions of the code; `Spec/` small independent specifications; `Proofs/`
lemmas; `Props/` the property theorems with non-vacuity examples beside them.

### Not modelled
Matplotlib/visualisation drawing, pickle byte formats (only the `__getstate__/__setstate__`
logic), the digits of numbers in JSON texts (arbitrary, but different for different numbers; the rest of the texts is modelled in `Model/Json.lean`), gzip, TensorFlow / scikit-learn models (an arbitrary function parameter), NumPy internals (arrays
are lists), pandas/CSV parsing, logging and progress output, wall-clock time, the operating system
beyond the file-exists / create / delete steps of `file_lock`.

## 3. Plan per property
* **C01 elem_rank finds the strict rank** — binary search as fuel recursion on a generic linear order; loop invariant.
* **C02 elem_lrank finds the lower rank** — as C01.
* **C03 merge_sorted merges without near-duplicates** — two-pointer merge; invariant on (merged, rest); exact result under separation by uniqueness of sorted lists.
* **C04 merge_sorted_many merges any number of lists** — k-way merge over index lists; same invariant as C03.
* **C05 PriorityQueue is a finite map from items to keys** — concrete heap; invariant (index dict = positions, heap order, unique counters); refinement to the abstract queue over operation histories.
* **C06 PriorityQueue pops a minimum, first-in first-out among equal keys** — corollary of the refinement.
* **C07 increase_key raises the key of one item** — FALSE of the code: negation with a concrete witness; C07_never_stored, C07_kept and C07_lost determine for every queue what is left behind; partial: nothing changes at a leaf.
* **C08 sorted lists every item in key order** — nsmallest(n) modelled as stable sort by (key,counter); sortedness and permutation.
* **C09 RightConstant evaluation is the right-continuous step function** — eval via rank search; equality with an independent step-function spec.
* **C10 RightConstant.extend changes only the future** — case analysis over extend, function-level.
* **C11 RightConstant sum, addition, negation and subtraction are pointwise** — pointer walk over merged times = pointwise spec.
* **C12 RightConstant.integral is the antiderivative** — induction over break points.
* **C13 PiecewiseLinear evaluation interpolates; the three evaluators agree** — eval vs independent interpolation spec; agreement of evaluators.
* **C14 PiecewiseLinear plus, negation and subtraction are pointwise** — as C11 for piecewise linear.
* **C15 inverse inverts on a strictly monotone piece** — direct algebra.
* **C16 min_t_above and max_t_below are extremal** — rank search on values; extremality.
* **C17 compose is functional composition** — loop invariant: what has been written up to the point reached interpolates `g ∘ f` with thin gaps (at most eps) in front of affine stretches; partial: error bound `2·Lg·Lf·eps`, exact for bends more than eps apart; two witnesses that the full statement is false (bend dropped, wrong assertion).
* **C18 minimum is the pointwise minimum** — invariant of the sweep (everything up to the point reached is written except one affine stretch of the current minimum); partial: exact under separation and a settled tail, right extension of `outer_minimum`; four witnesses and two general failure theorems that the full statement is false.
* **C19 restrict keeps the function on the smaller domain** — case analysis, function-level.
* **C20 integrate is the exact integral** — integral spec by trapezoids over the refinement.
* **C21 extend_with_slope changes only the future** — function-level lemma `ext`.
* **C22 simplify keeps the function** — induction over the scan.
* **C23 ensure_monotone returns a monotone function above the input** — running maximum.
* **C24 smaller_equals decides pointwise order up to tolerance** — piecewise-linear order is decided at break points and outer slopes.
* **C25 FlowRatesCollection answers monotone queries with the rates in force** — queue/pointer model of FlowRatesCollection; refinement to the last-extension spec.
* **C26 per-commodity rates and cumulative amount follow the extensions** — induction over extensions.
* **C27 pickling a FlowRatesCollection keeps its answers** — state round trip incl. dropped/rebuilt fields.
* **C28 extend advances time monotonically and never past the next event or the given bound** — min of queue keys.
* **C29 queues never become negative** — per-edge invariant of DynamicFlow over runs.
* **C30 queue dynamics follow the fluid queue law** — same invariant.
* **C31 outflow never exceeds capacity** — same invariant.
* **C32 first in, first out, and nothing is lost on an edge** — same invariant.
* **C33 commodities leave an edge in the proportions in which they entered** — same invariant.
* **C34 extend reports exactly the edges whose outflow changes** — event processing.
* **C35 valid simulations never fail an internal check** — invariant implies no error is returned.
* **C36 edge loads are non-negative and zero before the start** — from C30, C32.
* **C37 reachability queries are exact** — BFS with fuel; closure argument; fuel bound.
* **C38 reverse swaps directions and is an involution** — structural.
* **C39 reverse_dijkstra returns shortest distances up to the tolerance** — label-setting invariant with tolerance.
* **C40 dynamic_dijkstra returns earliest arrival times** — label-setting invariant with FIFO.
* **C41 active edges start shortest routes and exist** — from the search invariants.
* **C42 bellman_ford returns earliest arrival functions** — the `while` loop as label correcting over operations that are exact on a class of functions (`Proofs/BellmanFord`: labels are arrival functions of simple trips, changed nodes are marked, round n settles all trips with n edges), then that class: functions on finitely many clearly different lines (`BFLines`, `BFCosts`), using C13–C18. With a horizon: the search is simulated against the one without, every intermediate function is the unrestricted one cut off where it exceeds the horizon (`BFHorizon`), provided costs are constant from a time `H0` on from which all short trips arrive in time. Two witnesses that a finite horizon gives wrong labels or an exception.
* **C43 inflow of a node is split completely and evenly over active edges** — invariant of the rounds of the builder (`Proofs/BuilderRun`, `BuilderStep`): at every past time, every node has sent on what arrived; each round handles all nodes at which something changes.
* **C44 flow of a commodity is routed only on active edges and is absorbed at its sink** — same invariant, with the active edges tied to the predictions of the routing period by the Dijkstra theorems.
* **C45 routing happens exactly at multiples of the reroute interval** — run invariant phi <= next reroute time.
* **C46 reroute_interval=None reroutes at every outflow change** — FALSE of the code: TypeError on every run with None.
* **C47 a builder can be run once** — state machine of any number of generators over one builder, used in any order.
* **C48 build_with_times returns a flow built at least up to the horizon** — loop invariant; logged lines can raise (observed commodities that have not entered), proved with `C64_avg`.
* **C49 edge ids, capacities and travel times stay aligned** — invariant over operations.
* **C50 network clean-up functions work on networks with commodities** — FALSE of the code: AttributeError for every network with commodities; partial.
* **C51 pickling a network keeps it** — state round trip; FALSE for reversed graphs and isolated nodes; partial.
* **C52 combining commodities preserves demand** — `Model/Combine.lean`; commodity objects by reference, sets iterated in any order; invariant over the two loops: the keys are distinct, and the merged rate of a source is the sum of the members' rates. Needs distinct objects (witness: a shared object).
* **C53 merging commodities for visualisation preserves the flow** — `Model/Merge.lean`; the dict of functions is read in any iteration order (`Items`); loop invariant: the entry of the merged id is the sum of the members seen so far; `simplify` is bounded by a drift lemma, with a witness that the drift is real.
* **C54 zero and constant predictors** — direct.
* **C55 LinearPredictor never predicts a negative queue** — FALSE at the depletion instant: witness; partial.
* **C56 RegularizedLinearPredictor never predicts a negative queue** — FALSE shortly after depletion: witness; partial.
* **C57 machine-learning predictions are made physical** — clamping recursion; arbitrary raw model output.
* **C58 predicted costs obey FIFO** — costs_from_preds as mapPy of the builder's costOfEdge; affine scaling of interpolation (C58_costs); FIFO iff the drain rate is bounded (C58_fifo); predictors that meet this (C58_per_edge, C58_full_net); batch predictions with an early break point are refused (C58_batch_fails).
* **C59 predictors do not look into the future** — two flows agreeing up to t; FALSE for two predictors: witness.
* **C60 neighbouring edges are those within the distance** — BFS with distance; FALSE for backward/undirected at distance >= 2: witness.
* **C61 training samples are aligned in time** — index arithmetic.
* **C62 is_positive_during is exact** — the scanned ranks are those of the pieces that meet [a,b) (C62_positive).
* **C63 predicted delays are non-negative and the reported maximum dominates them** — predEdgeDelay via dynamicDijkstra_spec (C63_delay); invariant of the three nested loops with the cached start delays (C63_reported, C63_all); every built flow meets the hypotheses (C63_built).
* **C64 avg_travel_time is total time spent divided by demand** — `sum(..., start)` as a fold of RC.add, integral, PL.integrate; specification by StepArea / LinArea (unique), no reference to the model's integral (Model/AvgTravelTime, Props/AvgTravelTime).
* **C65 at most one process works on a locked task** — interleaving state machine; FALSE (check-then-create race): witness; partial for non-overlapping check/create.
* **C66 the lock is released when the handler ends or fails** — state machine with handler outcome.
* **C67 the recorded inflow is what was given** — same invariant as C29–C36, with the history as a ghost variable.
* **C68 a collection made from functions answers with their values** — the list of items built from the merged break points reads as the functions.
* **C69 the past is never rewritten** — invariant of C29–C36 relative to the flow at an earlier time.
* **C70 LinearRegressionPredictor predicts physical queues** — FALSE for draining: witness; the other two parts directly.
* **C71 PerEdgeLinearRegressionPredictor predicts physical queues** — clamping recursion, then simplify, which keeps slopes and signs.
* **C72 each commodity is carried through an edge** — areas of step rates; on each inflow piece the outflow rate times the stretching 1+q'/cap is the inflow rate, so both areas agree piece by piece.
* **C73 no flow is made or lost in the network** — sum the node balances (C43) over all nodes, swap sums over edges and nodes, integrate.
* **C74 a model that has learned the data predicts the true queues** — compose C61 with the predictor equation of C57; true queues are physical, so clipping and repairing change nothing.
* **C75 neighbourhood models that have learned the data predict the true queues** — as C74 with additional masks; fails for intervals other than 1 (witness).
* **C76 wait_for_locks waits exactly for the locks** — `Model/FileLock.waitForLocks` over an arbitrary history of directory listings; induction on the rounds.
* **C77 the optimal average travel time is the average of the earliest arrivals** — `Model/Evaluate`; the integral of a label is the area of its trapezoids (`PLInt`), late departures form one more trapezoid; costs by C22 and uniqueness of interpolation; whole calls for flows without queues and, by C42 with horizon, for flows whose queues are worked off in time (`Props/Drained`); partial because of C42 and of a missing division (witness).
* **C78 the mean absolute error compares predictions with the queues of the same moments** — `Model/MeanError`; the samples are tables over (time, step, edge), the stride is exact by `roundPy_near`, indices stay in range by the floor inequality; sums of flattened tables are Finset sums; composed with C74 and C57 for learned models; witness for intervals that are no multiples.
* **C79 an evaluation run compares the predictors on equal terms** — `Model/SingleRun` on top of `Model/Combine`; `combine_pre` (C52 without the start condition) gives the combined rest, `extend_ok` re-establishes validity after adding the new commodities.
* **C80 the picture of an evaluation shows the evaluated commodities** — C79 gives the indices, C53 the effect of merging; partial because the merged range is that of the original network (witness for every network with split).
* **C81 building a flow ends** — `DFlowEvents`: the planned events (heap of outflow changes and of depletions) as a finite set of times `Due`; `extend` plans nothing earlier than now + shortest travel time and stops at a planned event, at the given bound, or later. So within one shortest travel time all stops lie in a finite set fixed at its beginning; the stops increase strictly (`countAfter` decreases); Archimedes.
* **C82 FullNetLinearRegressionPredictor asks its model about the masked edges** — `Model/Regression`; reshape as slices of the flattened table, block lemmas (`drop_blocks`, `take_blocks`) give the rows the model sees; queues by `edgeFn_spec` as in C57; witnesses by kernel evaluation.
* **C83 ExpandedLinearRegressionPredictor predicts** — FALSE for both constructors; the errors are proved for every input, the closure of `from_scikit_model` is proved to work with the arguments it was written for.
* **C84 random demands** — `Model/Demands.generate` with an arbitrary stream for `random.gauss`; induction over sources and commodities with the number of the call.
* **C85 every training flow is built** — composes C84, C52 and C81 (`terminates_building`); names as lists of digits, lexicographic order is numeric order for equal lengths.
* **C86 evaluation demands are not those of the training data** — FALSE: `seeded` models `random.seed` by the absolute value; equality of the two demands is proved for every generator.
* **C87 the reported slowdowns are averages over all runs** — FALSE: `Model/Statistics` with the filter of the code; exact formula and witnesses.
* **C88 imported TNTP scenarios** — `Model/Importer`: texts as lists of characters, `str.split` as a loop; parts joined by a separator whose first character occurs once in it are found again (`split_join`); graph part from C49, validity as in C84.
* **C89 imported CSV scenarios** — the arcs are proved by induction over the rows; the demands are FALSE: wrong number of arguments.
* **C90 generated commodities** — random draws are an arbitrary sequence; induction over the rounds; two defects with witnesses.
* **C91 the evaluation evaluates every commodity** — FALSE: `Model/EvalCommodities`, the loop over the output directory; induction over commodities and over processes, with C50 and C76.
* **C92 nobody arrives earlier than possible** — `Spec/Earliest.Travels`; earliest arrival times capped at T are a potential (`Proofs/Earliest`), summing C43 and C72 along the cut they define.
* **C93 the reported optimal travel time is a lower bound** — FALSE with a draining queue at the horizon (witness); proved for labels that are not too late: C92 and exchanging the order of integration for piecewise linear functions (`Proofs/EarliestAverage`).
* **C94 a worker process goes on only when all files are made** — `Model/Workers` (processes that run a list of locked calls, then wait); invariant: for each task passed, its lock or its outputs exist. FALSE for `train_sk_neighborhood_model` (waits for `os.path.dirname(models_path)`) and after exceptions (witnesses).
* **C95 get_active_edges returns the edges that start fastest trips** — `Model/ActiveEdges`; backward search = closure of edges that are on time; with strict FIFO a walk that is early at its end is early everywhere. FALSE without strong_fifo, for a single relevant edge and for zero costs (witnesses).
* **C96 columns of training rows hold the queues of the labelled moments** — `Model/Expanded`; a row is a map over its keys, the table a lookup of the header in it. FALSE: times are mirrored (witness); proved with the mirrored labels.
* **C97 every row of the training data with edge loads is written** — `Model/Expanded`; induction over the prediction times, uninitialised memory is arbitrary. FALSE for more than one prediction time (exact behaviour proved).
* **C98 training data is made from the files of build_flows** — `Model/Expanded`; folder as state (table, lock). FALSE for the gzip files of build_flows; right for plain files.
* **C99 an evaluation run reports on the flow that it built** — `Model/Evaluation` composes `setup`, `build_with_times`, `avg_travel_time`, `calculate_optimal_average_travel_time`, `approximate_max_predicted_delay` and `evaluate_mean_absolute_error`; composes C79, C48/C81, C64, C93, C63, C78.
* **C100 an interrupted evaluation can be resumed** — `Model/Resume`: a handler is the sequence of disk states it passes through; a stop may choose any of them. Invariant over histories of attempts. FALSE at two crash points (witnesses for every evaluation) and for nodes without position.
* **C101 interrupted generation of training data can be resumed** — `Model/Resume`, as C100 with two locks. FALSE with dummy files: a stop between dummy and sample loses the sample for good.
* **C102 labels in the plots belong to the data** — `Model/Statistics`: rows and columns by position; runs as functions of the predictor. FALSE for configurations with other entries (exact behaviour, Tokyo scenario).
* **C103 a trained model is used with the masks of its training data** — `Model/Training`: folder of samples, mask files and models; histories as in C100; rows as in C61, C74, C75. FALSE when samples are added between trainings, after a stop while writing a mask, and for one edge (witnesses).
* **C104 interrupted training of models can be resumed** — `Model/Training`: traces of disk states. FALSE for tensorflow models after any exception, and for incomplete model files (proved for every later history).
* **C105 the workers of a scenario share the network file** — `Model/NetworkFile`: any number of workers, every `write` and `read` a system call with its own file position; invariant: the bytes up to the position of the last opener are right, others only write the same bytes. FALSE while another worker writes (witnesses).
* **C106 what the study of the sample network writes** — `Model/SampleStudy`: the loop over demands with its lists, both pictures, each run by `Model/Evaluation`; induction over the 120 demands gives the points; the meaning of a run comes from C99 and C79.
* **C107 the order of dict entries does not matter, nor does looking** — a relation between two flows (same record per edge, dicts equal up to order, event lists equal after moving their heads, the event queues storing the same events); `Proofs/EdgeLocal` describes `extend` edge by edge, `Proofs/TwinFlow` shows that it keeps the relation, with success.
* **C108 edges are independent** — `Proofs/EdgeHistory`: replaying the inflows given to the edge, with the depletion in between, gives what the flow stores about it (induction over the calls with `extend_loc`).
* **C109 the flow that is built does not depend on the order of sets** — two builders run side by side (`BTwin`: flows as in C107, the same stored costs, stored active edges that follow from the stored costs, event queues with the same events); `Proofs/TwinActive`, `TwinNode`, `TwinBuilder` show that a round keeps them together, whichever order each of them uses. The predictors read nothing but queues, cumulative flows and the time.
* **C110 caches of functions and lists shared between them cannot be seen** — memory with lists, objects by reference, the three class-wide caches of bounded size (Model/Caches; methods are programs that may call the cached methods); the specification runs the same calls on plain values (Spec/Caches). Invariant `Good`: lists of values are owned, lists of times are shared only within a family, cached results are what would be computed. `C110_falling` and `C110_load_start` show that the writes of src/core/dynamic_flow.py that bypass `extend_with_slope` are harmless in exact arithmetic.
* **C111 builders in one process do not disturb each other** — jobs (generator, builder, predictors, set order) by number; a round that clears the cache empties the cached costs of all jobs (Model/ManyBuilders). Simulation: the builder in company equals the builder alone up to missing cache entries, and the entries of the latter are what would be computed now, as predictions that only use the past last (`C59_later`). No twin argument is needed since the flow states are equal.
* **C112 the flow builder does not look ahead** — relation of two builders (as for C109) whose event heaps agree on the times before T. A round of both stays in the relation, or the bounds of `extend` differ and are both at least T; extending one flow with two bounds at or after T gives the same flow or two flows that agree up to T (depletions up to the bound = depletions up to T, then the rest, which is exact after T). Later rounds keep the past.
* **C113 the order in which the commodities are listed does not matter** — renaming of keys as a function on rates, collections, depletion queues and flows; every operation of the flow commutes with it exactly. Relation of two builders as for C109, the flow of the one and the renamed flow of the other being alike; a round stays in the relation.
* **C114 commodities with the same demand are treated the same** — C113 for the renaming that swaps the two commodities: the network is the same, so the flow is its own renaming.
* **C115 a visualisation file tells what the picture is** — model of the encoder down to characters (Model/Json), the grammar of RFC 8259 as a specification (Spec/Json). Texts are in the grammar by induction on the value; different values have different texts because every value is a prefix code in front of a comma, a bracket or the end; different pictures give different values.
* **C116 functions and flows can be written as JSON** — as C115 for single functions; for the slide examples the encoder is run on the value and raises.
* **C117 a flow that was saved and loaded can be used like the original** — flow objects with an optional network (Model/SavedFlow); invariant of all histories: every rate in an event list is positive, so the items are accepted when they are made anew and the loaded data is equal to the saved data.
* **C118 an edge reacts only to its own total inflow, and monotonically** — from the law of C30, which determines queue and outflow by cumulative inflow and capacity (greatest excess over all periods).
* **C119 results do not depend on the unit of flow or on the zero of the clock** — from the law of C30.
* **C120 queues depend continuously on inflow and capacity** — from the law of C30.
* **C121 the flow builder accepts exactly the networks whose inflow starts at 0 and can arrive** — the constructor of Model/FlowBuilder on networks with break points anywhere; the sum of the functions at a node is the exact merge of their break points, the domain check of the sum refuses negative ones and `integral` a first one after 0. Slide examples in Model/Slides.
* **C122 the flow builder ignores the domains of the inflow functions, avg_travel_time does not** — two runs of Model/FlowBuilder related round by round (only the stored functions of the node collections and the commodities differ); the second part from the domain assertion in `__radd__`.
* **C123 the networks of the Nguyen scenario and of slide example 1 are valid and their flows are built to the end** — Model/Scenarios transcribes the file and the scripts; validity by the theorem on imported trips (C88) and explicit drives, the rest by C81.
* **C124 the names of the nodes of a network do not matter** — simulation between the builder and the renamed one (heaps, graphs, searches, dicts keyed by nodes), by induction over the rounds; for other set orders composed with C109.
* **C125 arg_min, equals and reversal answer what their names say** — Model/Observers; induction over the list; uniqueness of the break points of a step function by induction over both lists of break points; the inverse from C16.
* **C126 print_info prints true numbers** — Model/PrintInfo; folds of min and max give least and greatest elements (induction), the lists of every node have the lengths counted in the roads by the invariant of C49.
* **C127 Trained models get the right inputs and their answers become the prediction** — Model/Predictors; the calls of the model are computed from the queues and loads that are total in reachable flows; induction over the answers for the repaired values.
* **C128 generate_queues writes every table once and survives being stopped** — Model/GenerateQueues: the files after every step of the loop; induction over the list of flows; the tables from C98. False for crashes inside np.savetxt, which is proved.
* **C129 DepletionQueue is a map from edges to planned depletions** — Model/DepletionQueue: histories of calls; refinement to a map by induction over the history, on the refinement of the heaps (C05).
