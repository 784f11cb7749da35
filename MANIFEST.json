{
 "claims": [
  {
   "property": "C01",
   "status": "proved",
   "theorems": [
    "C01_elem_rank",
    "C01_elem_rank_empty"
   ],
   "note": "generic linear order"
  },
  {
   "property": "C02",
   "status": "proved",
   "theorems": [
    "C02_elem_lrank",
    "C02_elem_lrank_empty"
   ],
   "note": "generic linear order"
  },
  {
   "property": "C03",
   "status": "proved",
   "theorems": [
    "C03_merge_sorted",
    "C03_merge_sorted_exact"
   ],
   "note": "exact rationals"
  },
  {
   "property": "C04",
   "status": "proved",
   "theorems": [
    "C04_merge_sorted_many",
    "C04_merge_sorted_many_exact",
    "C04_merge_sorted_many_empty"
   ],
   "note": "exact rationals"
  },
  {
   "property": "C05",
   "status": "proved",
   "theorems": [
    "C05_finite_map",
    "C05_lookup_push",
    "C05_lookup_rekey",
    "C05_lookup_erase"
   ],
   "note": "refinement of the array heap with its index dict to an insertion-ordered list, over every history"
  },
  {
   "property": "C06",
   "status": "proved",
   "theorems": [
    "C06_min_fifo"
   ],
   "note": "corollary of the refinement"
  },
  {
   "property": "C07",
   "status": "partial",
   "theorems": [
    "C07_increase_key_false",
    "C07_increase_key_duplicates",
    "C07_increase_key_partial",
    "C07_never_stored",
    "C07_kept",
    "C07_lost"
   ],
   "note": "FALSE of the code, in every queue: the new key is never stored (C07_never_stored); if a child should go before the item nothing changes (C07_kept), if all children should stay behind it the item loses its entry (C07_lost)"
  },
  {
   "property": "C08",
   "status": "proved",
   "theorems": [
    "C08_sorted",
    "C08_byKey_sorted_perm"
   ],
   "note": "heapq.nsmallest(n, data) taken as sorted(data)"
  },
  {
   "property": "C09",
   "status": "proved",
   "theorems": [
    "C09_eval",
    "C09_new"
   ],
   "note": "exact rationals"
  },
  {
   "property": "C10",
   "status": "proved",
   "theorems": [
    "C10_extend",
    "C10_extend_past"
   ],
   "note": "last break point equal to s or more than eps before it; single-step statement with validity preserved, hence every history"
  },
  {
   "property": "C11",
   "status": "proved",
   "theorems": [
    "C11_add",
    "C11_add_domains",
    "C11_neg",
    "C11_sub",
    "C11_sum",
    "C11_sum_empty"
   ],
   "note": "distinct break points more than eps apart"
  },
  {
   "property": "C12",
   "status": "proved",
   "theorems": [
    "C12_integral",
    "C12_integral_rejects"
   ],
   "note": "under the code's own assertions and break points more than eps apart"
  },
  {
   "property": "C13",
   "status": "proved",
   "theorems": [
    "C13_new",
    "C13_evaluators_agree"
   ],
   "note": "exact rationals"
  },
  {
   "property": "C14",
   "status": "proved",
   "theorems": [
    "C14_neg",
    "C14_plus",
    "C14_sub",
    "C14_plus_disjoint"
   ],
   "note": "break points equal or more than eps apart, domains overlapping; disjoint domains shown to raise"
  },
  {
   "property": "C15",
   "status": "partial",
   "theorems": [
    "C15_inverse_partial",
    "C15_inverse_returns",
    "C15_inverse_last_wrong"
   ],
   "note": "FALSE at the last piece (asserts against values[0]): witness proved; proved for every other piece"
  },
  {
   "property": "C16",
   "status": "partial",
   "theorems": [
    "C16_min_t_above_partial",
    "C16_min_t_above_rejects",
    "C16_min_t_above_flat",
    "C16_max_t_below",
    "C16_max_t_below_default"
   ],
   "note": "min_t_above raises when the first breakpoint sits on a flat start: witness proved"
  },
  {
   "property": "C17",
   "status": "partial",
   "theorems": [
    "C17_compose_partial",
    "C17_compose_exact",
    "C17_bend_dropped",
    "C17_assertion"
   ],
   "note": "error at most 2·Lg·Lf·eps for every non-decreasing f that maps into the domain of g and does not start below its domain, exact when the bends are more than eps apart; exact equality without these conditions is false: two witnesses proved"
  },
  {
   "property": "C18",
   "status": "partial",
   "theorems": [
    "C18_minimum_partial",
    "C18_outer_same",
    "C18_outer_left",
    "C18_early_break",
    "C18_outer_right_partial",
    "C18_tail_wrong",
    "C18_tie_wrong",
    "C18_cut_slope",
    "C18_no_break"
   ],
   "note": "exact pointwise minimum when break points lie in the common domain, nothing is decided within eps and the tail is settled, and exact right extension; the full statement is false: wrong tail crossings, wrong last slopes, IndexError and outer_minimum never extending to the left are proved"
  },
  {
   "property": "C19",
   "status": "proved",
   "theorems": [
    "C19_restrict"
   ],
   "note": "exact rationals"
  },
  {
   "property": "C20",
   "status": "proved",
   "theorems": [
    "C20_integrate"
   ],
   "note": "for nonnegative values, as the code asserts"
  },
  {
   "property": "C21",
   "status": "proved",
   "theorems": [
    "C21_extend_with_slope",
    "C21_extend_stays_valid"
   ],
   "note": "exact rationals"
  },
  {
   "property": "C22",
   "status": "proved",
   "theorems": [
    "C22_simplify",
    "C22_simplify_step",
    "C22_simplify_step_drift"
   ],
   "note": "neighbouring slopes/values equal or at least the tolerance apart"
  },
  {
   "property": "C23",
   "status": "proved",
   "theorems": [
    "C23_ensure_monotone"
   ],
   "note": "exact rationals"
  },
  {
   "property": "C24",
   "status": "partial",
   "theorems": [
    "C24_smaller_equals_sound_partial",
    "C24_smaller_equals_complete",
    "C24_smaller_equals_unbounded"
   ],
   "note": "soundness up to 2 eps on bounded domain; FALSE on unbounded domains: witness proved"
  },
  {
   "property": "C25",
   "status": "proved",
   "theorems": [
    "C25_answers",
    "C25_monotone"
   ],
   "note": "About the pointer-level model of the event list; any query times, refused exactly before the extension last answered from."
  },
  {
   "property": "C26",
   "status": "proved",
   "theorems": [
    "C26_rates"
   ],
   "note": "Times, sums and per-commodity rates equal to the previous ones or more than eps apart."
  },
  {
   "property": "C27",
   "status": "proved",
   "theorems": [
    "C27_pickle"
   ],
   "note": "Pointer-level model; the pickled values themselves (dicts, step functions) are copied exactly."
  },
  {
   "property": "C28",
   "status": "proved",
   "theorems": [
    "C28_time"
   ],
   "note": "Any calls (no separation needed) with T not in the past; valid capacities and travel times."
  },
  {
   "property": "C29",
   "status": "proved",
   "theorems": [
    "C29_queue_nonneg"
   ],
   "note": "Exact rationals; every call touches no tolerance (CallsOk)."
  },
  {
   "property": "C30",
   "status": "proved",
   "theorems": [
    "C30_fluid_law"
   ],
   "note": "As C29; the queue is also characterised as the greatest excess over [0,t]."
  },
  {
   "property": "C31",
   "status": "proved",
   "theorems": [
    "C31_capacity"
   ],
   "note": "Any calls that return."
  },
  {
   "property": "C32",
   "status": "proved",
   "theorems": [
    "C32_fifo"
   ],
   "note": "As C29."
  },
  {
   "property": "C33",
   "status": "proved",
   "theorems": [
    "C33_proportions"
   ],
   "note": "As C29."
  },
  {
   "property": "C34",
   "status": "proved",
   "theorems": [
    "C34_reported",
    "C34_unreported"
   ],
   "note": "Any calls that return."
  },
  {
   "property": "C35",
   "status": "proved",
   "theorems": [
    "C35_no_error",
    "C35_needs_separation"
   ],
   "note": "As C29; without separation the negation is proved on a witness."
  },
  {
   "property": "C36",
   "status": "proved",
   "theorems": [
    "C36_loads"
   ],
   "note": "As C29 and break points of the two cumulative functions more than eps apart (otherwise the sum drops break points)."
  },
  {
   "property": "C37",
   "status": "proved",
   "theorems": [
    "C37_reachable",
    "C37_reaching"
   ],
   "note": "For consistent graphs, which C49 shows every built graph is."
  },
  {
   "property": "C38",
   "status": "proved",
   "theorems": [
    "C38_reverse",
    "C38_search"
   ],
   "note": ""
  },
  {
   "property": "C39",
   "status": "proved",
   "theorems": [
    "C39_distances",
    "C39_edges",
    "C39_not_exact"
   ],
   "note": "Costs non-negative; distances are exact up to eps per edge, and the negation of exactness is proved on a witness."
  },
  {
   "property": "C40",
   "status": "proved",
   "theorems": [
    "C40_earliest"
   ],
   "note": "First in first out, non-negative costs that do not raise."
  },
  {
   "property": "C41",
   "status": "proved",
   "theorems": [
    "C41_active",
    "C41_complete",
    "C41_source_is_sink"
   ],
   "note": ""
  },
  {
   "property": "C42",
   "status": "partial",
   "theorems": [
    "C42_earliest_partial",
    "C42_drained_partial",
    "C42_constant_partial",
    "C42_horizon_wrong",
    "C42_far_node"
   ],
   "note": "without horizon, for good cost functions whose arrival times lie on finitely many lines that are equal or clearly different: the search ends after at most one round more than nodes and labels are exactly the earliest arrival functions; with a horizon and constant costs, if all trips end before the horizon, labels are exactly the shortest lengths (C42_constant_partial); with a horizon and costs that are constant from a time H0 on such that trips starting at H0 arrive before the horizon, labels are defined exactly where the sink is reached in time and are the earliest arrivals (C42_drained_partial); with a horizon the statement is false in general, a wrong label and an AssertionError are proved"
  },
  {
   "property": "C43",
   "status": "proved",
   "theorems": [
    "C43_conservation",
    "C43_balance"
   ],
   "note": "Valid networks (InputOk), predictions that are valid for the builder (PredictorsOk; proved of the zero and constant predictors), interval > 0, rates that touch no tolerance (ClearRounds), sets iterated in any order. Arrivals below eps are not sent on, as in the code."
  },
  {
   "property": "C44",
   "status": "proved",
   "theorems": [
    "C44_active",
    "C44_predictions_stand"
   ],
   "note": "Hypotheses of C43. The predictions of a routing period are computed when first needed in it, from the flow as it is then (Predicted)."
  },
  {
   "property": "C45",
   "status": "proved",
   "theorems": [
    "C45_routing_times",
    "C45_never_past"
   ],
   "note": "Hypotheses of C43."
  },
  {
   "property": "C46",
   "status": "partial",
   "theorems": [
    "C46_none_raises"
   ],
   "note": "The property is false of the code: reroute_interval=None raises TypeError in the first round, for every valid network."
  },
  {
   "property": "C47",
   "status": "proved",
   "theorems": [
    "C47_once",
    "C47_first"
   ],
   "note": ""
  },
  {
   "property": "C48",
   "status": "proved",
   "theorems": [
    "C48_reaches",
    "C48_returns",
    "C48_observed",
    "C48_log_fails",
    "C48_name_error"
   ],
   "note": "With logging on, average travel times of observed commodities are computed while building: a line logged before such a commodity has entered raises ZeroDivisionError (C48_log_fails). With logging on and horizon <= phi the code raises NameError instead of returning (proved)."
  },
  {
   "property": "C49",
   "status": "proved",
   "theorems": [
    "C49_aligned",
    "C49_by_id"
   ],
   "note": "Edges are added while the graph is not reversed (the code is inconsistent otherwise)."
  },
  {
   "property": "C50",
   "status": "partial",
   "theorems": [
    "C50_compress_partial",
    "C50_remove_nodes_partial",
    "C50_remove_nodes_fails",
    "C50_remove_commodities_fails",
    "C50_compress_fails",
    "C50_loop_fails"
   ],
   "note": "The full statement is false of the code: AttributeError on networks with commodities, ValueError on a loop. Proved: the negations, and the claim for networks without commodities (and loops, for compress)."
  },
  {
   "property": "C51",
   "status": "partial",
   "theorems": [
    "C51_roundtrip_partial",
    "C51_reversed_fails",
    "C51_isolated_fails"
   ],
   "note": "The full statement is false for reversed graphs and nodes without edges (negations proved); proved for all others. The order of the node dict is not claimed."
  },
  {
   "property": "C52",
   "status": "proved",
   "theorems": [
    "C52_combine",
    "C52_no_exceptions",
    "C52_shared_object"
   ],
   "note": "Commodities must be distinct objects (a shared object loses demand: C52_shared_object) and the exceptions commodities of the network; the result is again a valid input."
  },
  {
   "property": "C53",
   "status": "proved",
   "theorems": [
    "C53_merge",
    "C53_merge_exact",
    "C53_nothing",
    "C53_total",
    "C53_items",
    "C53_drift"
   ],
   "note": "For every flow reached by valid calls. The error bound grows with the number of break points and has to (C53_drift). The time and the event queues of the new flow object are those of an empty flow, as in the code."
  },
  {
   "property": "C54",
   "status": "proved",
   "theorems": [
    "C54_zero",
    "C54_constant"
   ],
   "note": ""
  },
  {
   "property": "C55",
   "status": "partial",
   "theorems": [
    "C55_linear_partial",
    "C55_linear_any",
    "C55_negative",
    "C55_raises"
   ],
   "note": "The property is false of the code at the moment a queue runs empty: a negative prediction and an AssertionError are proved on witnesses. Proved in full whenever the code returns and the queue is not shrinking out of an empty state."
  },
  {
   "property": "C56",
   "status": "partial",
   "theorems": [
    "C56_regularized_partial",
    "C56_regularized_any",
    "C56_negative"
   ],
   "note": "The property is false shortly after a queue ran empty (witness proved)."
  },
  {
   "property": "C57",
   "status": "partial",
   "theorems": [
    "C57_full_net",
    "C57_full_net_returns",
    "C57_neighborhood_partial",
    "C57_neighborhood_too_fast",
    "C57_batch",
    "C57_neighborhood_batch_partial",
    "C57_neighborhood_batch_differs",
    "C57_batch_key_error",
    "C57_neighborhood_batch_wrong_edge"
   ],
   "note": "Proved for the full-net predictors. For the neighbourhood predictors it is false: predict ignores prediction_interval (faster than capacity, proved), and batch_predict differs from predict, raises KeyError or uses the wrong edge (proved on witnesses)."
  },
  {
   "property": "C58",
   "status": "proved",
   "theorems": [
    "C58_costs",
    "C58_builder",
    "C58_fifo",
    "C58_physical",
    "C58_per_edge",
    "C58_full_net",
    "C58_early_break_fails",
    "C58_batch_fails"
   ],
   "note": "costs_from_preds and FlowBuilder._get_costs make travel time + queue / capacity of valid predictions with break points from t on; t + cost(t) is monotone iff the predicted queue never drains faster than the capacity. Both facts are proved in full; C58_early_break_fails / C58_batch_fails record that predictions with a break point before t (what batch_predict of the full-net predictors returns for edges outside the output mask) are refused by costs_from_preds."
  },
  {
   "property": "C59",
   "status": "partial",
   "theorems": [
    "C59_queues_only",
    "C59_queues_and_loads_only",
    "C59_later",
    "C59_per_edge_looks_ahead",
    "C59_full_net_regression_looks_ahead"
   ],
   "note": "Proved for all predictors but PerEdgeLinearRegressionPredictor and FullNetLinearRegressionPredictor, for which the negation is proved (ExpandedLinearRegressionPredictor always raises, C83)."
  },
  {
   "property": "C60",
   "status": "partial",
   "theorems": [
    "C60_forward",
    "C60_backward_partial",
    "C60_directed_partial",
    "C60_undirected_partial",
    "C60_masks",
    "C60_backward_fails",
    "C60_undirected_fails"
   ],
   "note": "Forward search is exact at every distance. Backward and undirected searches never advance their queue, so they work as if the distance were min d 1: proved for every d, with the negation of the full claim at distance >= 2 (C60_backward_fails, C60_undirected_fails)."
  },
  {
   "property": "C61",
   "status": "proved",
   "theorems": [
    "C61_samples",
    "C61_times",
    "C61_refused",
    "C61_shape",
    "C61_stride"
   ],
   "note": "For every list of reached flows with separated loads (C36), every setting whose interval is a multiple of the rerouting interval within 1e-14 and every pair of additional masks; numpy files are modelled by their contents."
  },
  {
   "property": "C62",
   "status": "proved",
   "theorems": [
    "C62_positive"
   ],
   "note": "For every valid step function whose domain covers [a, b)."
  },
  {
   "property": "C63",
   "status": "proved",
   "theorems": [
    "C63_delay",
    "C63_reported",
    "C63_all",
    "C63_on_the_way",
    "C63_built"
   ],
   "note": "Delay of every usable edge is >= 0 and is the difference of the two earliest arrivals (or 0 on a punctual edge); the report dominates every measured delay and is attained at its witness; C63_built shows that every built flow can be measured with every valid predictor."
  },
  {
   "property": "C64",
   "status": "proved",
   "theorems": [
    "C64_avg",
    "C64_unique",
    "C64_refused",
    "C64_range"
   ],
   "note": "For every reached flow and every horizon > 0 when break points of the summed step functions are more than eps apart (a restriction of merge_sorted, see C03). Areas are characterised by rectangles/trapezoids between break points and are unique (C64_unique). ZeroDivisionError when nothing entered."
  },
  {
   "property": "C65",
   "status": "partial",
   "theorems": [
    "C65_exclusive_partial",
    "C65_unfinished_partial",
    "C65_finished",
    "C65_race",
    "C65_rerun"
   ],
   "note": "Full claim fails: looking for the lock and making it are two system calls, so two processes can both run (witness C65_race), also one whose task another has just finished (C65_rerun). Proved for every schedule of any number of processes in which no two processes are between these two calls for the same file at once; C65_finished holds in every schedule."
  },
  {
   "property": "C66",
   "status": "proved",
   "theorems": [
    "C66_released",
    "C66_ends",
    "C66_starts",
    "C66_skip",
    "C66_locked",
    "C66_stale"
   ],
   "note": "Every schedule of any number of processes, with crashes. C66_stale states what a crash costs: the lock of a killed process stays for ever."
  },
  {
   "property": "C67",
   "status": "proved",
   "theorems": [
    "C67_recorded"
   ],
   "note": "As C29."
  },
  {
   "property": "C68",
   "status": "proved",
   "theorems": [
    "C68_rates",
    "C68_late_start"
   ],
   "note": ""
  },
  {
   "property": "C69",
   "status": "proved",
   "theorems": [
    "C69_past"
   ],
   "note": "As C29."
  },
  {
   "property": "C70",
   "status": "partial",
   "theorems": [
    "C70_weka_partial",
    "C70_not_physical"
   ],
   "note": "The claim on draining is false (witness proved)."
  },
  {
   "property": "C71",
   "status": "proved",
   "theorems": [
    "C71_per_edge",
    "C71_per_edge_returns"
   ],
   "note": ""
  },
  {
   "property": "C72",
   "status": "proved",
   "theorems": [
    "C72_carried",
    "C72_travel_time"
   ],
   "note": "Amounts are areas under the recorded step rates (Spec/Area.lean), unique by StepArea.unique."
  },
  {
   "property": "C73",
   "status": "proved",
   "theorems": [
    "C73_network"
   ],
   "note": "Inequality always; equality under the two stated conditions (both are behaviour of the code: flow at a sink source vanishes, node inflow below eps is dropped)."
  },
  {
   "property": "C74",
   "status": "proved",
   "theorems": [
    "C74_full_net"
   ],
   "note": "Interval exactly k times the rerouting interval and above eps; flow computed up to the horizon."
  },
  {
   "property": "C75",
   "status": "partial",
   "theorems": [
    "C75_neighborhood",
    "C75_neighborhood_partial",
    "C75_wrong_times"
   ],
   "note": "Full claim fails: predict places the values one time unit apart instead of prediction_interval (witness C75_wrong_times); proved for interval 1, and in general with the times the code uses."
  },
  {
   "property": "C76",
   "status": "proved",
   "theorems": [
    "C76_returns",
    "C76_waits",
    "C76_never"
   ],
   "note": "Time in whole seconds; listing and computing take no time."
  },
  {
   "property": "C77",
   "status": "partial",
   "theorems": [
    "C77_average",
    "C77_costs",
    "C77_free_flow",
    "C77_drained_partial",
    "C77_optimal_partial",
    "C77_one_source",
    "C77_no_label",
    "C77_no_label_wrong",
    "C93_wrong"
   ],
   "note": "Proved: the edge costs are the travel times with the queues of the flow, and the result is the average of the label the search returns for the source; for flows without queues the whole call is right (C77_free_flow), also for reached flows whose queues stop changing at a time from which everybody arrives before the horizon (C77_drained_partial). Missing: with a finite horizon these labels are not the earliest arrivals in general (C42_horizon_wrong); a source that cannot reach the sink gets the sum, not the average (C77_no_label, witness C77_no_label_wrong). With a queue that is being worked off at the horizon the labels are too late (C93_wrong)."
  },
  {
   "property": "C78",
   "status": "proved",
   "theorems": [
    "C78_mae",
    "C78_bound",
    "C78_zero",
    "C78_returns",
    "C78_learned",
    "C78_refused",
    "C78_misaligned"
   ],
   "note": "At least one edge and one future time step (else NumPy returns nan). The interval must be a multiple of the rerouting interval: C78_misaligned shows wrong errors and an IndexError otherwise. C78_learned: a full-net model that has learned the data of the flow has error 0."
  },
  {
   "property": "C79",
   "status": "proved",
   "theorems": [
    "C79_split",
    "C79_split_total",
    "C79_added",
    "C79_refused"
   ],
   "note": "Commodities are distinct objects. Without split the inflow horizon must be clear of the times at which other inflows at that source change (by more than eps), else the queue of inflow changes is not valid."
  },
  {
   "property": "C80",
   "status": "partial",
   "theorems": [
    "C80_picture_partial",
    "C80_split_hides"
   ],
   "note": "Proved without split for networks whose commodities have distinct (predictor, sink). The full claim is false of the code: it merges range(original number of commodities) although the commodities are combined and split before; C80_split_hides: with split and at least two commodities, the first evaluated commodity is always merged into commodity 0 and not shown."
  },
  {
   "property": "C81",
   "status": "proved",
   "theorems": [
    "C81_advances",
    "C81_reaches",
    "C81_terminates"
   ],
   "note": "All travel times positive. C81_advances and C81_reaches assume nothing about the predictors. C81_terminates: valid predictors, and rounds before the horizon that touch no tolerance (as in C43)."
  },
  {
   "property": "C82",
   "status": "partial",
   "theorems": [
    "C82_inputs",
    "C82_inputs_partial",
    "C82_physical_partial",
    "C82_returns",
    "C82_refused",
    "C82_wrong_inputs",
    "C82_too_fast"
   ],
   "note": "False of the code: the reshape mixes rows (edge e of the mask is fed with rows 2e and 2e+1 of the stacked queues and loads, at current and future times: C82_inputs; witness C82_wrong_inputs) and the values are one time unit apart whatever step_length is (witness C82_too_fast). Proved: inputs for one edge and one past step; physical queues for step_length <= 1; ValueError otherwise."
  },
  {
   "property": "C83",
   "status": "partial",
   "theorems": [
    "C83_weka_raises",
    "C83_scikit_raises",
    "C83_scikit_closure"
   ],
   "note": "False of the code: from_weka_models builds a function with 10 times and 11 values, so predict raises AssertionError for every flow; from_scikit_model passes (time, flow) to a closure of (queues, time), so predict raises TypeError always. C83_scikit_closure: with the intended arguments the closure keeps the claim."
  },
  {
   "property": "C84",
   "status": "proved",
   "theorems": [
    "C84_demands"
   ],
   "note": "Commodities are distinct objects; inflow horizon more than eps. Whatever random.gauss returns."
  },
  {
   "property": "C85",
   "status": "proved",
   "theorems": [
    "C85_training_flow",
    "C85_names"
   ],
   "note": "All commodities use PredictorType.CONSTANT (the only predictor build_flows provides). Rounds before the horizon touch no tolerance (as in C43). Writing the file itself is not modelled (file locks: C65, C66)."
  },
  {
   "property": "C86",
   "status": "partial",
   "theorems": [
    "C86_same_demands",
    "C86_own_streams_partial"
   ],
   "note": "False of the code: training seeds are k, evaluation seeds -k-1, and CPython's random.seed uses the absolute value, so evaluation flow k has the demands of training flow k+1 (same network, horizon and sigma). Within training and within evaluation seeds differ. Trusted: random.seed(-a) = random.seed(a) for int a, as in CPython."
  },
  {
   "property": "C87",
   "status": "partial",
   "theorems": [
    "C87_slowdowns_partial",
    "C87_slowdowns",
    "C87_nonneg",
    "C87_left_out",
    "C87_means_partial",
    "C87_wrong_mean"
   ],
   "note": "False of the code: runs in which all predictors have the same travel time are left out of the average, and the printed means divide the sum over the remaining runs by the number of all runs. Proved: what is computed, that it is the claimed average if two predictors differ in every run, and that it is not negative."
  },
  {
   "property": "C88",
   "status": "proved",
   "theorems": [
    "C88_network",
    "C88_trips",
    "C88_commodities",
    "C88_valid",
    "C88_refused",
    "C88_unreachable"
   ],
   "note": "int() and float() are arbitrary partial functions of the text, reading tables with pandas is not modelled. Unreachable destinations are imported and refused by FlowBuilder (witness)."
  },
  {
   "property": "C89",
   "status": "partial",
   "theorems": [
    "C89_network",
    "C89_positive",
    "C89_demands_raise",
    "C89_demands_partial"
   ],
   "note": "The second half is false of the code: add_commodity is called with four arguments, so TypeError is raised as soon as one row has a reachable sink. Proved: the network is right, and what add_demands_to_network does for every table of known places."
  },
  {
   "property": "C90",
   "status": "partial",
   "theorems": [
    "C90_generated",
    "C90_returns_nothing",
    "C90_same_place"
   ],
   "note": "Proved: which trips are added and when the loop ends. False of the code: the returned list is always empty, and a commodity may start at its own sink."
  },
  {
   "property": "C91",
   "status": "partial",
   "theorems": [
    "C91_never_evaluates",
    "C91_locks_left",
    "C91_waits_forever",
    "C91_done_partial"
   ],
   "note": "False of the code: remove_unnecessary_commodities always raises (C50), so no commodity is ever evaluated; each process leaves a lock behind (there is no finally), and when every commodity is locked further processes wait for ever. Proved for every network, directory and evaluation program."
  },
  {
   "property": "C92",
   "status": "proved",
   "theorems": [
    "C92_not_faster",
    "C92_same_time"
   ],
   "note": "A cut argument over earliest arrival times at all nodes; sources may be left at different times."
  },
  {
   "property": "C93",
   "status": "partial",
   "theorems": [
    "C93_lower_bound",
    "C93_drained_partial",
    "C93_reported_partial",
    "C93_wrong",
    "C93_behind_horizon"
   ],
   "note": "Proved: the average of any arrival times that are never too late is at most the average travel time; the reported number is a lower bound for built flows whose queues stop changing at a time from which everybody arrives before the horizon (C93_drained_partial). The property is false of the code in general: bellman_ford replaces slopes below 1 after the last break point by 1, so labels are too late while a queue is being worked off at the horizon (C93_wrong: 37/10 reported, 7/2 travelled), and no number is computed if a queue changes behind the horizon."
  },
  {
   "property": "C94",
   "status": "partial",
   "theorems": [
    "C94_ready_partial",
    "C94_files_partial",
    "C94_models_wrong",
    "C94_raise_wrong"
   ],
   "note": "Proved for all commands that wait for the directory of their files (build_flows, generate_queues_and_edge_loads, eval_network, full-network training) if no handler raises. False of the code for the training of neighbourhood models, which waits for the locks of the wrong directory (C94_models_wrong, for every directory and edge), and if a handler of another process raises (C94_raise_wrong)."
  },
  {
   "property": "C95",
   "status": "partial",
   "theorems": [
    "C95_fastest_partial",
    "C95_weak_raises",
    "C95_dead_end_wrong",
    "C95_weak_reversed",
    "C95_zero_wrong"
   ],
   "note": "Proved for strong_fifo=True, positive costs and at least two relevant edges. False of the code otherwise: without strong_fifo it always raises (C95_weak_raises) and may leave the graph reversed; with a single relevant edge all edges are returned, dead ends too; with edges that take no time active edges can be missing."
  },
  {
   "property": "C96",
   "status": "partial",
   "theorems": [
    "C96_rows_partial",
    "C96_edge_rows_partial",
    "C96_labels_wrong"
   ],
   "note": "Rows, columns and values are determined exactly; the labels are false of the code: the column of t holds the queue at phi - step*t, so past and future are interchanged (C96_labels_wrong). Edges into a node after the fifth have no column."
  },
  {
   "property": "C97",
   "status": "partial",
   "theorems": [
    "C97_single_partial",
    "C97_first_row_only",
    "C97_row_wrong"
   ],
   "note": "False of the code: row is never incremented. Proved: only the first row is ever written and ends up with the data of the last prediction time, the others keep what was in memory; right only for horizons below one rerouting interval."
  },
  {
   "property": "C98",
   "status": "partial",
   "theorems": [
    "C98_written_partial",
    "C98_never_written",
    "C98_queues"
   ],
   "note": "False of the code: build_flows writes gzip files, the generators read them with plain open. The first call raises and leaves its lock, every later call returns silently without writing (C98_never_written). Proved for uncompressed files."
  },
  {
   "property": "C99",
   "status": "partial",
   "theorems": [
    "C99_report",
    "C99_stored",
    "C99_runs_partial"
   ],
   "note": "C99_report: what is reported if the run returns (flow built without touching tolerances, as in C43; areas as in C64). C99_runs_partial: it returns and the last number is a lower bound, for queues that are worked off before the horizon; false in general, see C93."
  },
  {
   "property": "C100",
   "status": "partial",
   "theorems": [
    "C100_agree",
    "C100_resumed_partial",
    "C100_not_raised",
    "C100_evaluation",
    "C100_torn_flow",
    "C100_torn_last",
    "C100_stale_lock",
    "C100_can_happen",
    "C100_failed_picture",
    "C100_positions"
   ],
   "note": "Complete files always belong together (C100_agree, C100_evaluation). Resuming is false after a stop while the flow or the last file is written (each later attempt raises, or is content with a broken file), and for nodes without position; proved otherwise."
  },
  {
   "property": "C101",
   "status": "partial",
   "theorems": [
    "C101_agree",
    "C101_complete_partial",
    "C101_dummy",
    "C101_dummy_lost",
    "C101_torn_sample",
    "C101_can_happen"
   ],
   "note": "Samples always belong to a flow that was built, the saved one if flows are saved. Completion is false with save_dummy (as in the Anaheim and Berlin scenarios) after a stop between the dummy and the sample, and after a stop while a file is written; proved otherwise."
  },
  {
   "property": "C102",
   "status": "partial",
   "theorems": [
    "C102_labels_partial",
    "C102_by_position",
    "C102_extra",
    "C102_missing",
    "C102_swapped"
   ],
   "note": "Data and labels are matched by position: right if visualization_config lists the evaluated predictors in the same order (and up to the runs left out, see C87). With one more entry, as in the Tokyo scenario, a predictor that was never evaluated is shown as perfect (slowdown 0) and the plot of errors raises."
  },
  {
   "property": "C103",
   "status": "partial",
   "theorems": [
    "C103_agree",
    "C103_full_partial",
    "C103_edges_partial",
    "C103_asked",
    "C103_asked_edges",
    "C103_items_end",
    "C103_split",
    "C103_too_short",
    "C103_new_samples",
    "C103_torn_mask",
    "C103_one_edge",
    "C103_one_edge_neighborhood"
   ],
   "note": "Proved as long as the samples stay the same and no process was killed while writing a mask. False otherwise: all models share two mask files which every training rewrites (C103_new_samples, C103_torn_mask), and networks with one edge cannot read their masks (C103_one_edge)."
  },
  {
   "property": "C104",
   "status": "partial",
   "theorems": [
    "C104_resumed_partial",
    "C104_not_raised",
    "C104_sk_raised",
    "C104_tf_raised",
    "C104_tf_too_early",
    "C104_torn_stays"
   ],
   "note": "Proved unless the model was left incomplete. False of the code: tensorflow trainings make the directory of the model first, so every training that raises (for example before there are samples) leaves an incomplete model, which later attempts take for a finished one for ever; the same after a stop while a scikit-learn model is written."
  },
  {
   "property": "C105",
   "status": "partial",
   "theorems": [
    "C105_written_partial",
    "C105_finished",
    "C105_read_partial",
    "C105_alone",
    "C105_torn",
    "C105_gap",
    "C105_killed",
    "C105_different"
   ],
   "note": "Proved whenever the worker that was last to begin writing has finished and nobody begins during the reading. False otherwise: every worker truncates and rewrites the file without a lock, so a worker that is at work fails when another one is started (C105_torn), and a worker killed while writing leaves an incomplete file (C105_killed)."
  },
  {
   "property": "C106",
   "status": "proved",
   "theorems": [
    "C106_written",
    "C106_returns",
    "C106_one_fails",
    "C106_more_predictors",
    "C106_fewer_predictors",
    "C106_run",
    "C106_study"
   ],
   "note": "The labels are fixed: with another number of predictors the study raises, with fewer after it has written a picture that shows the optimum under the label of a predictor (C106_fewer_predictors)."
  },
  {
   "property": "C107",
   "status": "proved",
   "theorems": [
    "C107_order"
   ],
   "note": "Exact arithmetic: with floats the sums of a dict depend on the order by rounding."
  },
  {
   "property": "C108",
   "status": "proved",
   "theorems": [
    "C108_edge"
   ],
   "note": "Needs no tolerance to be respected, only that both series return."
  },
  {
   "property": "C109",
   "status": "proved",
   "theorems": [
    "C109_order",
    "C109_blind"
   ],
   "note": "Exact arithmetic: with floats the sums depend on the order by rounding. Commodities with a common constant predictor and a common sink must use the same nodes: the labels of the reverse search carry a tolerance and may depend on the set of nodes searched."
  },
  {
   "property": "C110",
   "status": "proved",
   "theorems": [
    "C110_caches",
    "C110_compose",
    "C110_eval",
    "C110_loads",
    "C110_falling",
    "C110_load_start",
    "C110_load"
   ],
   "note": "The first two conditions are assumed of the program, not derived from its code. Witnesses show that each condition is needed: C110_flat_witness, C110_shared_witness, C110_same_object_witness."
  },
  {
   "property": "C111",
   "status": "proved",
   "theorems": [
    "C111_alternate",
    "C111_regression_fails"
   ],
   "note": "Hypotheses of C43 (runs that touch no tolerance) and predictors that only use the past: by C59 all of the project but PerEdgeLinearRegressionPredictor and FullNetLinearRegressionPredictor. For the latter C111_regression_fails proves that a round raises ValueError if another builder has routed in between."
  },
  {
   "property": "C112",
   "status": "proved",
   "theorems": [
    "C112_causal"
   ],
   "note": "Hypotheses of C43 for both networks (valid input, valid predictions, no tolerance touched) and those of C109 (predictions follow from the record of the flow, proved of all predictors of the project; commodities with a common constant predictor and sink use the same nodes)."
  },
  {
   "property": "C113",
   "status": "proved",
   "theorems": [
    "C113_relisted",
    "C113_arrangements",
    "C113_anonymous"
   ],
   "note": "Hypotheses of C43 for one of the networks (valid input, valid predictions, no tolerance touched) and that commodities with a common constant predictor and sink use the same nodes, as in C109; building the other network is shown to be of the same kind."
  },
  {
   "property": "C114",
   "status": "proved",
   "theorems": [
    "C114_equal"
   ],
   "note": "Hypotheses of C113."
  },
  {
   "property": "C115",
   "status": "proved",
   "theorems": [
    "C115_written",
    "C115_faithful"
   ],
   "note": "The texts of numbers are arbitrary JSON numbers, different for different numbers."
  },
  {
   "property": "C116",
   "status": "partial",
   "theorems": [
    "C116_functions_partial",
    "C116_slides"
   ],
   "note": "Proved for functions. False for the flows of the slide examples: their lists of FlowRatesCollection objects make the encoder raise TypeError on every network with edges (C116_slides)."
  },
  {
   "property": "C117",
   "status": "proved",
   "theorems": [
    "C117_reload",
    "C117_missing"
   ],
   "note": "No assumption on the calls but that those before the save returned. The pointer structure of the event lists is treated in C27."
  },
  {
   "property": "C118",
   "status": "proved",
   "theorems": [
    "C118_same",
    "C118_more",
    "C118_through"
   ],
   "note": "For valid calls as in C30 (times and rates more than the tolerance apart); flows made by the flow builder are such flows (building_reached in Props/Conservation)."
  },
  {
   "property": "C119",
   "status": "proved",
   "theorems": [
    "C119_units",
    "C119_shift"
   ],
   "note": "For valid calls as in C30: the tolerance of 1e-10 is not scaled, so both flows have to keep away from it."
  },
  {
   "property": "C120",
   "status": "proved",
   "theorems": [
    "C120_close"
   ],
   "note": "For valid calls as in C30."
  },
  {
   "property": "C121",
   "status": "proved",
   "theorems": [
    "C121_accepts",
    "C121_refuses",
    "C121_slides",
    "C121_valid"
   ],
   "note": "C121_valid shows that the input condition of the other builder properties implies acceptance."
  },
  {
   "property": "C122",
   "status": "proved",
   "theorems": [
    "C122_same_flow",
    "C122_average"
   ],
   "note": "Domains that start after 0 are not covered by the first theorem: collections then evaluate outside the domain."
  },
  {
   "property": "C123",
   "status": "proved",
   "theorems": [
    "C123_nguyen",
    "C123_nguyen_builds",
    "C123_example1"
   ],
   "note": "The tolerance condition of the second theorem is that of C81; it cannot be dropped (see C35)."
  },
  {
   "property": "C124",
   "status": "proved",
   "theorems": [
    "C124_same_calls",
    "C124_searches",
    "C124_average",
    "C124_same_flow",
    "C124_any_order"
   ],
   "note": "C124_same_flow has no other hypothesis than that sets of nodes are iterated over in corresponding orders; C124_any_order drops it under the hypotheses of C43 and C109. Node names are natural numbers in the model."
  },
  {
   "property": "C125",
   "status": "proved",
   "theorems": [
    "C125_arg_min",
    "C125_arg_min_raises",
    "C125_equals",
    "C125_equals_exact",
    "C125_equals_stored",
    "C125_reversal"
   ],
   "note": "C125_equals_stored shows that the condition on the values cannot be dropped: equals compares how functions are stored."
  },
  {
   "property": "C126",
   "status": "proved",
   "theorems": [
    "C126_print_info",
    "C126_print_info_empty"
   ],
   "note": "What is printed before an exception is not modelled."
  },
  {
   "property": "C127",
   "status": "proved",
   "theorems": [
    "C127_full_net",
    "C127_neighborhood",
    "C127_per_edge",
    "C127_scikit_closure"
   ],
   "note": "For the per edge predictor the values are those before simplify (C22)."
  },
  {
   "property": "C128",
   "status": "partial",
   "theorems": [
    "C128_generate_queues",
    "C128_again",
    "C128_unreadable",
    "C128_resume_partial",
    "C128_torn_stays",
    "C128_resume_fails"
   ],
   "note": "The last part is false for crashes while a file is written: C128_torn_stays and C128_resume_fails prove that such a file stays incomplete for ever. C128_resume_partial proves it for all other crash points."
  },
  {
   "property": "C129",
   "status": "proved",
   "theorems": [
    "C129_history"
   ],
   "note": "Ties between equal depletion times are not specified. Depletion times are finite."
  }
 ]
}
