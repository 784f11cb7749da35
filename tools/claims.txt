C01 | proved | C01_elem_rank C01_elem_rank_empty | generic linear order
C02 | proved | C02_elem_lrank C02_elem_lrank_empty | generic linear order
C03 | proved | C03_merge_sorted C03_merge_sorted_exact | exact rationals
C04 | proved | C04_merge_sorted_many C04_merge_sorted_many_exact C04_merge_sorted_many_empty | exact rationals
C05 | proved | C05_finite_map C05_lookup_push C05_lookup_rekey C05_lookup_erase | refinement of the array heap with its index dict to an insertion-ordered list, over every history
C06 | proved | C06_min_fifo | corollary of the refinement
C07 | partial | C07_increase_key_false C07_increase_key_duplicates C07_increase_key_partial C07_never_stored C07_kept C07_lost | FALSE of the code, in every queue: the new key is never stored (C07_never_stored); if a child should go before the item nothing changes (C07_kept), if all children should stay behind it the item loses its entry (C07_lost)
C08 | proved | C08_sorted C08_byKey_sorted_perm | heapq.nsmallest(n, data) taken as sorted(data)
C13 | proved | C13_new C13_evaluators_agree | exact rationals
C14 | proved | C14_neg C14_plus C14_sub C14_plus_disjoint | break points equal or more than eps apart, domains overlapping; disjoint domains shown to raise
C15 | partial | C15_inverse_partial C15_inverse_returns C15_inverse_last_wrong | FALSE at the last piece (asserts against values[0]): witness proved; proved for every other piece
C16 | partial | C16_min_t_above_partial C16_min_t_above_rejects C16_min_t_above_flat C16_max_t_below C16_max_t_below_default | min_t_above raises when the first breakpoint sits on a flat start: witness proved
C17 | partial | C17_compose_partial C17_compose_exact C17_bend_dropped C17_assertion | error at most 2·Lg·Lf·eps for every non-decreasing f that maps into the domain of g and does not start below its domain, exact when the bends are more than eps apart; exact equality without these conditions is false: two witnesses proved
C18 | partial | C18_minimum_partial C18_outer_same C18_outer_left C18_early_break C18_outer_right_partial C18_tail_wrong C18_tie_wrong C18_cut_slope C18_no_break | exact pointwise minimum when break points lie in the common domain, nothing is decided within eps and the tail is settled, and exact right extension; the full statement is false: wrong tail crossings, wrong last slopes, IndexError and outer_minimum never extending to the left are proved
C19 | proved | C19_restrict | exact rationals
C20 | proved | C20_integrate | for nonnegative values, as the code asserts
C21 | proved | C21_extend_with_slope C21_extend_stays_valid | exact rationals
C23 | proved | C23_ensure_monotone | exact rationals
C24 | partial | C24_smaller_equals_sound_partial C24_smaller_equals_complete C24_smaller_equals_unbounded | soundness up to 2 eps on bounded domain; FALSE on unbounded domains: witness proved
C09 | proved | C09_eval C09_new | exact rationals
C10 | proved | C10_extend C10_extend_past | last break point equal to s or more than eps before it; single-step statement with validity preserved, hence every history
C11 | proved | C11_add C11_add_domains C11_neg C11_sub C11_sum C11_sum_empty | distinct break points more than eps apart
C12 | proved | C12_integral C12_integral_rejects | under the code's own assertions and break points more than eps apart
C22 | proved | C22_simplify C22_simplify_step C22_simplify_step_drift | neighbouring slopes/values equal or at least the tolerance apart
C25 | proved | C25_answers C25_monotone | About the pointer-level model of the event list; any query times, refused exactly before the extension last answered from.
C26 | proved | C26_rates | Times, sums and per-commodity rates equal to the previous ones or more than eps apart.
C27 | proved | C27_pickle | Pointer-level model; the pickled values themselves (dicts, step functions) are copied exactly.
C28 | proved | C28_time | Any calls (no separation needed) with T not in the past; valid capacities and travel times.
C29 | proved | C29_queue_nonneg | Exact rationals; every call touches no tolerance (CallsOk).
C30 | proved | C30_fluid_law | As C29; the queue is also characterised as the greatest excess over [0,t].
C31 | proved | C31_capacity | Any calls that return.
C32 | proved | C32_fifo | As C29.
C33 | proved | C33_proportions | As C29.
C34 | proved | C34_reported C34_unreported | Any calls that return.
C35 | proved | C35_no_error C35_needs_separation | As C29; without separation the negation is proved on a witness.
C36 | proved | C36_loads | As C29 and break points of the two cumulative functions more than eps apart (otherwise the sum drops break points).
C67 | proved | C67_recorded | As C29.
C37 | proved | C37_reachable C37_reaching | For consistent graphs, which C49 shows every built graph is.
C38 | proved | C38_reverse C38_search | 
C49 | proved | C49_aligned C49_by_id | Edges are added while the graph is not reversed (the code is inconsistent otherwise).
C50 | partial | C50_compress_partial C50_remove_nodes_partial C50_remove_nodes_fails C50_remove_commodities_fails C50_compress_fails C50_loop_fails | The full statement is false of the code: AttributeError on networks with commodities, ValueError on a loop. Proved: the negations, and the claim for networks without commodities (and loops, for compress).
C51 | partial | C51_roundtrip_partial C51_reversed_fails C51_isolated_fails | The full statement is false for reversed graphs and nodes without edges (negations proved); proved for all others. The order of the node dict is not claimed.
C39 | proved | C39_distances C39_edges C39_not_exact | Costs non-negative; distances are exact up to eps per edge, and the negation of exactness is proved on a witness.
C40 | proved | C40_earliest | First in first out, non-negative costs that do not raise.
C41 | proved | C41_active C41_complete C41_source_is_sink | 
C42 | partial | C42_earliest_partial C42_drained_partial C42_constant_partial C42_horizon_wrong C42_far_node | without horizon, for good cost functions whose arrival times lie on finitely many lines that are equal or clearly different: the search ends after at most one round more than nodes and labels are exactly the earliest arrival functions; with a horizon and constant costs, if all trips end before the horizon, labels are exactly the shortest lengths (C42_constant_partial); with a horizon and costs that are constant from a time H0 on such that trips starting at H0 arrive before the horizon, labels are defined exactly where the sink is reached in time and are the earliest arrivals (C42_drained_partial); with a horizon the statement is false in general, a wrong label and an AssertionError are proved
C43 | proved | C43_conservation C43_balance | Valid networks (InputOk), predictions that are valid for the builder (PredictorsOk; proved of the zero and constant predictors), interval > 0, rates that touch no tolerance (ClearRounds), sets iterated in any order. Arrivals below eps are not sent on, as in the code.
C44 | proved | C44_active C44_predictions_stand | Hypotheses of C43. The predictions of a routing period are computed when first needed in it, from the flow as it is then (Predicted).
C45 | proved | C45_routing_times C45_never_past | Hypotheses of C43.
C46 | partial | C46_none_raises | The property is false of the code: reroute_interval=None raises TypeError in the first round, for every valid network.
C47 | proved | C47_once C47_first | 
C48 | proved | C48_reaches C48_returns C48_observed C48_log_fails C48_name_error | With logging on, average travel times of observed commodities are computed while building: a line logged before such a commodity has entered raises ZeroDivisionError (C48_log_fails). With logging on and horizon <= phi the code raises NameError instead of returning (proved).
C68 | proved | C68_rates C68_late_start | 
C54 | proved | C54_zero C54_constant | 
C55 | partial | C55_linear_partial C55_linear_any C55_negative C55_raises | The property is false of the code at the moment a queue runs empty: a negative prediction and an AssertionError are proved on witnesses. Proved in full whenever the code returns and the queue is not shrinking out of an empty state.
C56 | partial | C56_regularized_partial C56_regularized_any C56_negative | The property is false shortly after a queue ran empty (witness proved).
C57 | partial | C57_full_net C57_full_net_returns C57_neighborhood_partial C57_neighborhood_too_fast C57_batch C57_neighborhood_batch_partial C57_neighborhood_batch_differs C57_batch_key_error C57_neighborhood_batch_wrong_edge | Proved for the full-net predictors. For the neighbourhood predictors it is false: predict ignores prediction_interval (faster than capacity, proved), and batch_predict differs from predict, raises KeyError or uses the wrong edge (proved on witnesses).
C59 | partial | C59_queues_only C59_queues_and_loads_only C59_later C59_per_edge_looks_ahead C59_full_net_regression_looks_ahead | Proved for all predictors but PerEdgeLinearRegressionPredictor and FullNetLinearRegressionPredictor, for which the negation is proved (ExpandedLinearRegressionPredictor always raises, C83).
C69 | proved | C69_past | As C29.
C70 | partial | C70_weka_partial C70_not_physical | The claim on draining is false (witness proved).
C71 | proved | C71_per_edge C71_per_edge_returns | 
C58 | proved | C58_costs C58_builder C58_fifo C58_physical C58_per_edge C58_full_net C58_early_break_fails C58_batch_fails | costs_from_preds and FlowBuilder._get_costs make travel time + queue / capacity of valid predictions with break points from t on; t + cost(t) is monotone iff the predicted queue never drains faster than the capacity. Both facts are proved in full; C58_early_break_fails / C58_batch_fails record that predictions with a break point before t (what batch_predict of the full-net predictors returns for edges outside the output mask) are refused by costs_from_preds.
C62 | proved | C62_positive | For every valid step function whose domain covers [a, b).
C63 | proved | C63_delay C63_reported C63_all C63_on_the_way C63_built | Delay of every usable edge is >= 0 and is the difference of the two earliest arrivals (or 0 on a punctual edge); the report dominates every measured delay and is attained at its witness; C63_built shows that every built flow can be measured with every valid predictor.
C52 | proved | C52_combine C52_no_exceptions C52_shared_object | Commodities must be distinct objects (a shared object loses demand: C52_shared_object) and the exceptions commodities of the network; the result is again a valid input.
C53 | proved | C53_merge C53_merge_exact C53_nothing C53_total C53_items C53_drift | For every flow reached by valid calls. The error bound grows with the number of break points and has to (C53_drift). The time and the event queues of the new flow object are those of an empty flow, as in the code.
C60 | partial | C60_forward C60_backward_partial C60_directed_partial C60_undirected_partial C60_masks C60_backward_fails C60_undirected_fails | Forward search is exact at every distance. Backward and undirected searches never advance their queue, so they work as if the distance were min d 1: proved for every d, with the negation of the full claim at distance >= 2 (C60_backward_fails, C60_undirected_fails).
C64 | proved | C64_avg C64_unique C64_refused C64_range | For every reached flow and every horizon > 0 when break points of the summed step functions are more than eps apart (a restriction of merge_sorted, see C03). Areas are characterised by rectangles/trapezoids between break points and are unique (C64_unique). ZeroDivisionError when nothing entered.
C72 | proved | C72_carried C72_travel_time | Amounts are areas under the recorded step rates (Spec/Area.lean), unique by StepArea.unique.
C73 | proved | C73_network | Inequality always; equality under the two stated conditions (both are behaviour of the code: flow at a sink source vanishes, node inflow below eps is dropped).
C61 | proved | C61_samples C61_times C61_refused C61_shape C61_stride | For every list of reached flows with separated loads (C36), every setting whose interval is a multiple of the rerouting interval within 1e-14 and every pair of additional masks; numpy files are modelled by their contents.
C74 | proved | C74_full_net | Interval exactly k times the rerouting interval and above eps; flow computed up to the horizon.
C75 | partial | C75_neighborhood C75_neighborhood_partial C75_wrong_times | Full claim fails: predict places the values one time unit apart instead of prediction_interval (witness C75_wrong_times); proved for interval 1, and in general with the times the code uses.
C65 | partial | C65_exclusive_partial C65_unfinished_partial C65_finished C65_race C65_rerun | Full claim fails: looking for the lock and making it are two system calls, so two processes can both run (witness C65_race), also one whose task another has just finished (C65_rerun). Proved for every schedule of any number of processes in which no two processes are between these two calls for the same file at once; C65_finished holds in every schedule.
C66 | proved | C66_released C66_ends C66_starts C66_skip C66_locked C66_stale | Every schedule of any number of processes, with crashes. C66_stale states what a crash costs: the lock of a killed process stays for ever.
C76 | proved | C76_returns C76_waits C76_never | Time in whole seconds; listing and computing take no time.
C77 | partial | C77_average C77_costs C77_free_flow C77_drained_partial C77_optimal_partial C77_one_source C77_no_label C77_no_label_wrong C93_wrong | Proved: the edge costs are the travel times with the queues of the flow, and the result is the average of the label the search returns for the source; for flows without queues the whole call is right (C77_free_flow), also for reached flows whose queues stop changing at a time from which everybody arrives before the horizon (C77_drained_partial). Missing: with a finite horizon these labels are not the earliest arrivals in general (C42_horizon_wrong); a source that cannot reach the sink gets the sum, not the average (C77_no_label, witness C77_no_label_wrong). With a queue that is being worked off at the horizon the labels are too late (C93_wrong).
C78 | proved | C78_mae C78_bound C78_zero C78_returns C78_learned C78_refused C78_misaligned | At least one edge and one future time step (else NumPy returns nan). The interval must be a multiple of the rerouting interval: C78_misaligned shows wrong errors and an IndexError otherwise. C78_learned: a full-net model that has learned the data of the flow has error 0.
C79 | proved | C79_split C79_split_total C79_added C79_refused | Commodities are distinct objects. Without split the inflow horizon must be clear of the times at which other inflows at that source change (by more than eps), else the queue of inflow changes is not valid.
C80 | partial | C80_picture_partial C80_split_hides | Proved without split for networks whose commodities have distinct (predictor, sink). The full claim is false of the code: it merges range(original number of commodities) although the commodities are combined and split before; C80_split_hides: with split and at least two commodities, the first evaluated commodity is always merged into commodity 0 and not shown.
C81 | proved | C81_advances C81_reaches C81_terminates | All travel times positive. C81_advances and C81_reaches assume nothing about the predictors. C81_terminates: valid predictors, and rounds before the horizon that touch no tolerance (as in C43).
C82 | partial | C82_inputs C82_inputs_partial C82_physical_partial C82_returns C82_refused C82_wrong_inputs C82_too_fast | False of the code: the reshape mixes rows (edge e of the mask is fed with rows 2e and 2e+1 of the stacked queues and loads, at current and future times: C82_inputs; witness C82_wrong_inputs) and the values are one time unit apart whatever step_length is (witness C82_too_fast). Proved: inputs for one edge and one past step; physical queues for step_length <= 1; ValueError otherwise.
C83 | partial | C83_weka_raises C83_scikit_raises C83_scikit_closure | False of the code: from_weka_models builds a function with 10 times and 11 values, so predict raises AssertionError for every flow; from_scikit_model passes (time, flow) to a closure of (queues, time), so predict raises TypeError always. C83_scikit_closure: with the intended arguments the closure keeps the claim.
C84 | proved | C84_demands | Commodities are distinct objects; inflow horizon more than eps. Whatever random.gauss returns.
C85 | proved | C85_training_flow C85_names | All commodities use PredictorType.CONSTANT (the only predictor build_flows provides). Rounds before the horizon touch no tolerance (as in C43). Writing the file itself is not modelled (file locks: C65, C66).
C86 | partial | C86_same_demands C86_own_streams_partial | False of the code: training seeds are k, evaluation seeds -k-1, and CPython's random.seed uses the absolute value, so evaluation flow k has the demands of training flow k+1 (same network, horizon and sigma). Within training and within evaluation seeds differ. Trusted: random.seed(-a) = random.seed(a) for int a, as in CPython.
C87 | partial | C87_slowdowns_partial C87_slowdowns C87_nonneg C87_left_out C87_means_partial C87_wrong_mean | False of the code: runs in which all predictors have the same travel time are left out of the average, and the printed means divide the sum over the remaining runs by the number of all runs. Proved: what is computed, that it is the claimed average if two predictors differ in every run, and that it is not negative.
C88 | proved | C88_network C88_trips C88_commodities C88_valid C88_refused C88_unreachable | int() and float() are arbitrary partial functions of the text, reading tables with pandas is not modelled. Unreachable destinations are imported and refused by FlowBuilder (witness).
C89 | partial | C89_network C89_positive C89_demands_raise C89_demands_partial | The second half is false of the code: add_commodity is called with four arguments, so TypeError is raised as soon as one row has a reachable sink. Proved: the network is right, and what add_demands_to_network does for every table of known places.
C90 | partial | C90_generated C90_returns_nothing C90_same_place | Proved: which trips are added and when the loop ends. False of the code: the returned list is always empty, and a commodity may start at its own sink.
C91 | partial | C91_never_evaluates C91_locks_left C91_waits_forever C91_done_partial | False of the code: remove_unnecessary_commodities always raises (C50), so no commodity is ever evaluated; each process leaves a lock behind (there is no finally), and when every commodity is locked further processes wait for ever. Proved for every network, directory and evaluation program.
C92 | proved | C92_not_faster C92_same_time | A cut argument over earliest arrival times at all nodes; sources may be left at different times.
C93 | partial | C93_lower_bound C93_drained_partial C93_reported_partial C93_wrong C93_behind_horizon | Proved: the average of any arrival times that are never too late is at most the average travel time; the reported number is a lower bound for built flows whose queues stop changing at a time from which everybody arrives before the horizon (C93_drained_partial). The property is false of the code in general: bellman_ford replaces slopes below 1 after the last break point by 1, so labels are too late while a queue is being worked off at the horizon (C93_wrong: 37/10 reported, 7/2 travelled), and no number is computed if a queue changes behind the horizon.
C94 | partial | C94_ready_partial C94_files_partial C94_models_wrong C94_raise_wrong | Proved for all commands that wait for the directory of their files (build_flows, generate_queues_and_edge_loads, eval_network, full-network training) if no handler raises. False of the code for the training of neighbourhood models, which waits for the locks of the wrong directory (C94_models_wrong, for every directory and edge), and if a handler of another process raises (C94_raise_wrong).
C95 | partial | C95_fastest_partial C95_weak_raises C95_dead_end_wrong C95_weak_reversed C95_zero_wrong | Proved for strong_fifo=True, positive costs and at least two relevant edges. False of the code otherwise: without strong_fifo it always raises (C95_weak_raises) and may leave the graph reversed; with a single relevant edge all edges are returned, dead ends too; with edges that take no time active edges can be missing.
C96 | partial | C96_rows_partial C96_edge_rows_partial C96_labels_wrong | Rows, columns and values are determined exactly; the labels are false of the code: the column of t holds the queue at phi - step*t, so past and future are interchanged (C96_labels_wrong). Edges into a node after the fifth have no column.
C97 | partial | C97_single_partial C97_first_row_only C97_row_wrong | False of the code: row is never incremented. Proved: only the first row is ever written and ends up with the data of the last prediction time, the others keep what was in memory; right only for horizons below one rerouting interval.
C98 | partial | C98_written_partial C98_never_written C98_queues | False of the code: build_flows writes gzip files, the generators read them with plain open. The first call raises and leaves its lock, every later call returns silently without writing (C98_never_written). Proved for uncompressed files.
C99 | partial | C99_report C99_stored C99_runs_partial | C99_report: what is reported if the run returns (flow built without touching tolerances, as in C43; areas as in C64). C99_runs_partial: it returns and the last number is a lower bound, for queues that are worked off before the horizon; false in general, see C93.
C100 | partial | C100_agree C100_resumed_partial C100_not_raised C100_evaluation C100_torn_flow C100_torn_last C100_stale_lock C100_can_happen C100_failed_picture C100_positions | Complete files always belong together (C100_agree, C100_evaluation). Resuming is false after a stop while the flow or the last file is written (each later attempt raises, or is content with a broken file), and for nodes without position; proved otherwise.
C101 | partial | C101_agree C101_complete_partial C101_dummy C101_dummy_lost C101_torn_sample C101_can_happen | Samples always belong to a flow that was built, the saved one if flows are saved. Completion is false with save_dummy (as in the Anaheim and Berlin scenarios) after a stop between the dummy and the sample, and after a stop while a file is written; proved otherwise.
C102 | partial | C102_labels_partial C102_by_position C102_extra C102_missing C102_swapped | Data and labels are matched by position: right if visualization_config lists the evaluated predictors in the same order (and up to the runs left out, see C87). With one more entry, as in the Tokyo scenario, a predictor that was never evaluated is shown as perfect (slowdown 0) and the plot of errors raises.
C103 | partial | C103_agree C103_full_partial C103_edges_partial C103_asked C103_asked_edges C103_items_end C103_split C103_too_short C103_new_samples C103_torn_mask C103_one_edge C103_one_edge_neighborhood | Proved as long as the samples stay the same and no process was killed while writing a mask. False otherwise: all models share two mask files which every training rewrites (C103_new_samples, C103_torn_mask), and networks with one edge cannot read their masks (C103_one_edge).
C104 | partial | C104_resumed_partial C104_not_raised C104_sk_raised C104_tf_raised C104_tf_too_early C104_torn_stays | Proved unless the model was left incomplete. False of the code: tensorflow trainings make the directory of the model first, so every training that raises (for example before there are samples) leaves an incomplete model, which later attempts take for a finished one for ever; the same after a stop while a scikit-learn model is written.
C105 | partial | C105_written_partial C105_finished C105_read_partial C105_alone C105_torn C105_gap C105_killed C105_different | Proved whenever the worker that was last to begin writing has finished and nobody begins during the reading. False otherwise: every worker truncates and rewrites the file without a lock, so a worker that is at work fails when another one is started (C105_torn), and a worker killed while writing leaves an incomplete file (C105_killed).
C106 | proved | C106_written C106_returns C106_one_fails C106_more_predictors C106_fewer_predictors C106_run C106_study | The labels are fixed: with another number of predictors the study raises, with fewer after it has written a picture that shows the optimum under the label of a predictor (C106_fewer_predictors).
C107 | proved | C107_order | Exact arithmetic: with floats the sums of a dict depend on the order by rounding.
C108 | proved | C108_edge | Needs no tolerance to be respected, only that both series return.
C109 | proved | C109_order C109_blind | Exact arithmetic: with floats the sums depend on the order by rounding. Commodities with a common constant predictor and a common sink must use the same nodes: the labels of the reverse search carry a tolerance and may depend on the set of nodes searched.
C110 | proved | C110_caches C110_compose C110_eval C110_loads C110_falling C110_load_start C110_load | The first two conditions are assumed of the program, not derived from its code. Witnesses show that each condition is needed: C110_flat_witness, C110_shared_witness, C110_same_object_witness.
C111 | proved | C111_alternate C111_regression_fails | Hypotheses of C43 (runs that touch no tolerance) and predictors that only use the past: by C59 all of the project but PerEdgeLinearRegressionPredictor and FullNetLinearRegressionPredictor. For the latter C111_regression_fails proves that a round raises ValueError if another builder has routed in between.
C112 | proved | C112_causal | Hypotheses of C43 for both networks (valid input, valid predictions, no tolerance touched) and those of C109 (predictions follow from the record of the flow, proved of all predictors of the project; commodities with a common constant predictor and sink use the same nodes).
C113 | proved | C113_relisted C113_arrangements C113_anonymous | Hypotheses of C43 for one of the networks (valid input, valid predictions, no tolerance touched) and that commodities with a common constant predictor and sink use the same nodes, as in C109; building the other network is shown to be of the same kind.
C114 | proved | C114_equal | Hypotheses of C113.
C115 | proved | C115_written C115_faithful | The texts of numbers are arbitrary JSON numbers, different for different numbers.
C116 | partial | C116_functions_partial C116_slides | Proved for functions. False for the flows of the slide examples: their lists of FlowRatesCollection objects make the encoder raise TypeError on every network with edges (C116_slides).
C117 | proved | C117_reload C117_missing | No assumption on the calls but that those before the save returned. The pointer structure of the event lists is treated in C27.
C118 | proved | C118_same C118_more C118_through | For valid calls as in C30 (times and rates more than the tolerance apart); flows made by the flow builder are such flows (building_reached in Props/Conservation).
C119 | proved | C119_units C119_shift | For valid calls as in C30: the tolerance of 1e-10 is not scaled, so both flows have to keep away from it.
C120 | proved | C120_close | For valid calls as in C30.
C121 | proved | C121_accepts C121_refuses C121_slides C121_valid | C121_valid shows that the input condition of the other builder properties implies acceptance.
C122 | proved | C122_same_flow C122_average | Domains that start after 0 are not covered by the first theorem: collections then evaluate outside the domain.
C123 | proved | C123_nguyen C123_nguyen_builds C123_example1 | The tolerance condition of the second theorem is that of C81; it cannot be dropped (see C35).
C124 | proved | C124_same_calls C124_searches C124_average C124_same_flow C124_any_order | C124_same_flow has no other hypothesis than that sets of nodes are iterated over in corresponding orders; C124_any_order drops it under the hypotheses of C43 and C109. Node names are natural numbers in the model.
C125 | proved | C125_arg_min C125_arg_min_raises C125_equals C125_equals_exact C125_equals_stored C125_reversal | C125_equals_stored shows that the condition on the values cannot be dropped: equals compares how functions are stored.
C126 | proved | C126_print_info C126_print_info_empty | What is printed before an exception is not modelled.
C127 | proved | C127_full_net C127_neighborhood C127_per_edge C127_scikit_closure | For the per edge predictor the values are those before simplify (C22).
C128 | partial | C128_generate_queues C128_again C128_unreadable C128_resume_partial C128_torn_stays C128_resume_fails | The last part is false for crashes while a file is written: C128_torn_stays and C128_resume_fails prove that such a file stays incomplete for ever. C128_resume_partial proves it for all other crash points.
C129 | proved | C129_history | Ties between equal depletion times are not specified. Depletion times are finite.
