#!/usr/bin/env python3
"""Writes /verif/properties.jsonl from the list below (one place to edit)."""
import json, os
P = []
def p(id, title, statement, quantifier, why, anchors):
    P.append(dict(id=id, title=title, statement=statement, quantifier=quantifier,
                  why_tests_cant=why, anchors=anchors))

A='src/utilities/arrays.py'; Q='src/utilities/queues.py'; RC='src/utilities/right_constant.py'
PL='src/utilities/piecewise_linear.py'; FR='src/core/flow_rates_collection.py'; DF='src/core/dynamic_flow.py'
FB='src/core/flow_builder.py'; DJ='src/core/dijkstra.py'; GR='src/core/graph.py'; NW='src/core/network.py'
PR='src/core/predictors/'; ML='src/ml/'; EV='src/eval/'

p('C01','elem_rank finds the strict rank',
  'elem_rank(arr, x) returns, without an index error, the unique r in -1..len(arr)-1 with arr[r] < x <= arr[r+1] (arr[-1] read as -inf and arr[len] as +inf).',
  'every non-empty non-decreasing list over any linearly ordered key type (every length, duplicates allowed) and every x',
  'binary search has off-by-one failures only at particular length/position combinations; no finite sample covers all lengths.',
  [A+':elem_rank'])
p('C02','elem_lrank finds the lower rank',
  'elem_lrank(arr, x) returns, without an index error, the unique r in -1..len(arr)-1 with arr[r] <= x < arr[r+1].',
  'every non-empty non-decreasing list over any linearly ordered key type and every x',
  'same as C01', [A+':elem_lrank'])
p('C03','merge_sorted merges without near-duplicates',
  'merge_sorted(a, b) returns a list whose consecutive elements are more than eps apart and strictly increasing, containing only elements of a and b, ending with the overall maximum; every input element is absorbed by an output element that is not smaller and is reached from it through input elements at steps of at most eps; if distinct input elements are more than eps apart the result is exactly the sorted duplicate-free union.',
  'every pair of non-decreasing lists of every length',
  'depends on the interleaving of two arbitrary-length lists and on chains of near-equal values.', [A+':merge_sorted'])
p('C04','merge_sorted_many merges any number of lists',
  'merge_sorted_many(arrays) has the same guarantees as C03 for any number of sorted lists (the empty collection gives the empty list).',
  'every finite family of non-decreasing lists', 'unbounded number and lengths of lists.', [A+':merge_sorted_many'])
p('C05','PriorityQueue is a finite map from items to keys',
  'After any sequence of push, set, update, decrease_key, remove and pop (each called inside its documented precondition), has, key_of and len answer as a finite map updated by the same operations would, and no operation raises.',
  'every construction from a list of distinct items and every finite operation sequence',
  'heap corruption needs specific operation interleavings; the index dictionary and the heap array must agree after every one of unboundedly many states.',
  [Q+':PriorityQueue'])
p('C06','PriorityQueue pops a minimum, first-in first-out among equal keys',
  'min_key returns the smallest stored key (inf when empty); next and pop return the item with the smallest key and, among equal keys, the one inserted first; pop removes exactly that item.',
  'every reachable queue state', 'ordering under arbitrary operation histories.', [Q+':pop',Q+':min_key',Q+':next'])
p('C07','increase_key raises the key of one item',
  'increase_key(item, k) makes key_of(item) equal to k, leaves every other item as it was and keeps the queue ordered.',
  'every reachable queue state, item and larger key',
  'the method has no caller in the repository and no test; its effect depends on the position in the heap.', [Q+':increase_key'])
p('C08','sorted lists every item in key order',
  'sorted() returns every stored item exactly once in non-decreasing key order (insertion order among equal keys) and leaves the queue unchanged.',
  'every reachable queue state', 'as C06.', [Q+':sorted'])
p('C09','RightConstant evaluation is the right-continuous step function',
  'f(t) = values[i] for the largest i with times[i] <= t, and values[0] before times[0]; eval and eval_from_end agree; outside the domain both raise.',
  'every RightConstant with strictly increasing times and every t', 'all break point counts and positions, including ties with t.', [RC+':eval',RC+':eval_from_end'])
p('C10','RightConstant.extend changes only the future',
  'After extend(s, v): if the last break point is equal to s or more than eps before it, f is unchanged at every t with times[0] <= t < s and equals v up to eps at every t >= s; times stay increasing.',
  'every RightConstant, s not before its last break point, v', 'unbounded extension histories; eps-window cases.', [RC+':extend'])
p('C11','RightConstant sum, addition, negation and subtraction are pointwise',
  '(f+g)(t)=f(t)+g(t), (-f)(t)=-f(t), (f-g)(t)=f(t)-g(t), RightConstant.sum(fs)(t)=sum of fs(t), at every t of the domain, when distinct break points are more than eps apart.',
  'every pair / finite family of step functions and every t', 'pointer-advancing merge loops over unbounded lists.', [RC+':__radd__',RC+':sum',RC+':__sub__'])
p('C12','RightConstant.integral is the antiderivative',
  'F = f.integral() satisfies F(times[0]) = 0 and F(b)-F(a) = (b-a) f(a) whenever no break point of f lies strictly between a and b; hence F(t) is the integral of f from times[0] to t.',
  'every step function and all a <= b in the domain', 'universally quantified over break points and arguments.', [RC+':integral'])
p('C13','PiecewiseLinear evaluation interpolates; the three evaluators agree',
  'f(times[i]) = values[i]; f is affine between consecutive break points and has the declared slopes outside; eval, eval_from_end and, on non-decreasing arguments, eval_sorted_array return the same numbers.',
  'every well-formed piecewise linear function and every argument / sorted argument list', 'divide-and-conquer index arithmetic over unbounded lists.',
  [PL+':eval',PL+':eval_from_end',PL+':eval_sorted_array',PL+':_find_rnk_between'])
p('C14','PiecewiseLinear plus, negation and subtraction are pointwise',
  '(f+g)(t) = f(t)+g(t), (-f)(t) = -f(t) and (f-g)(t) = f(t)-g(t) for every t in the intersection of the domains, when distinct break points are more than eps apart.',
  'every pair of well-formed functions with overlapping domains and every t', 'domain cutting, merging and slope handling in all relative positions.', [PL+':plus',PL+':__neg__',PL+':__sub__'])
p('C15','inverse inverts on a strictly monotone piece',
  'If inverse(x, i) returns t, then f(t) = x and t lies in the closure of piece i.',
  'every function, piece index and value accepted by the preconditions', 'all pieces and values.', [PL+':inverse'])
p('C16','min_t_above and max_t_below are extremal',
  'For a non-decreasing f: min_t_above(b) is the least t in the domain with f(t) >= b, max_t_below(b) is the greatest t in the domain with f(t) <= b.',
  'every monotone function and every attained bound', 'flat pieces, boundary values and break point ties.', [PL+':min_t_above',PL+':max_t_below'])
p('C17','compose is functional composition',
  '(g.compose(f))(t) = g(f(t)) for every t of the domain of f.',
  'every g and every monotone f whose image lies in the domain of g, every t', 'interleaving of break points of g with images of break points of f.', [PL+':compose'])
p('C18','minimum is the pointwise minimum',
  'f.minimum(g)(t) = min(f(t), g(t)) for every t of the common domain; outer_minimum additionally equals the only defined function elsewhere.',
  'every pair of well-formed functions', 'crossings between, at and after break points in any number.', [PL+':minimum',PL+':outer_minimum'])
p('C19','restrict keeps the function on the smaller domain',
  'f.restrict((a,b))(t) = f(t) for every t in [a,b].', 'every function and sub-domain', 'break points on, inside and outside the new bounds.', [PL+':restrict'])
p('C20','integrate is the exact integral',
  'f.integrate(a,b) equals the area under f between a and b: it is additive over adjacent intervals and on a piece equals the trapezoid.',
  'every function with non-negative values and every a < b in its domain', 'break point positions relative to both limits.', [PL+':integrate'])
p('C21','extend_with_slope changes only the future',
  'After extend_with_slope(s, m): f is unchanged at every t <= s and f(t) = f(s) + m (t-s) at every t >= s (s equal to or more than eps after the last break point, m equal to or more than eps away from the last slope); the function stays well-formed in all cases.',
  'every function, s, m and every t', 'unbounded extension histories.', [PL+':extend_with_slope'])
p('C22','simplify keeps the function',
  'PiecewiseLinear.simplify and RightConstant.simplify return a function equal to the input at every t when dropped break points carry no change, keep only input break points, and keep the first break point and outer slopes.',
  'every function', 'every pattern of droppable break points.', [PL+':simplify',RC+':simplify'])
p('C23','ensure_monotone returns a monotone function above the input',
  'ensure_monotone returns a function that is non-decreasing on its whole domain, is >= the input at every break point and equals it if the input was already monotone with non-negative outer slopes.',
  'every function', 'running-maximum over unbounded lists.', [PL+':ensure_monotone'])
p('C24','smaller_equals decides pointwise order up to tolerance',
  'If f.smaller_equals(g) is true then f(t) <= g(t) + tolerance for every t of the domain of g; if f(t) <= g(t) everywhere then it is true.',
  'every pair of functions starting at the same point', 'merge of unbounded break point lists, and unbounded domains.', [PL+':smaller_equals'])
p('C25','FlowRatesCollection answers monotone queries with the rates in force',
  'get_values_at_time(t) returns the rates of the last extension at a time <= t ({} before the first), for any interleaving of extend and non-decreasing queries; a query before the already consumed part raises ValueError.',
  'every finite interleaving of extend and get_values_at_time calls', 'the read pointer is destructive state; correctness depends on the whole history.', [FR+':get_values_at_time',FR+':extend'])
p('C26','per-commodity rates and cumulative amount follow the extensions',
  'After any sequence of extensions, the step function of commodity i takes at time t the rate given by the extension in force at t (0 if absent), and accumulative grows with slope equal to the given sum.',
  'every separated extension sequence, commodity and time', 'unbounded history.', [FR+':extend'])
p('C27','pickling a FlowRatesCollection keeps its answers',
  'unpickle(pickle(c)) answers every later sequence of extend and get_values_at_time calls as c would.',
  'every reachable collection and every later call sequence', 'linked list is rebuilt from an unrolled list.', [FR+':__getstate__',FR+':__setstate__'])
p('C28','extend advances time monotonically and never past the next event or the given bound',
  'If T >= phi, extend(new_inflow, T) that returns does not move the time back nor beyond T; unless it reaches T it stops exactly at a recorded outflow change of a reported edge; and no recorded outflow change lies strictly between the old and the new time.',
  'every reachable flow state and every extend call', 'event queues depend on the whole history.', [DF+':extend'])
p('C29','queues never become negative',
  'Every queue length is >= 0 at every time up to phi.',
  'every finite history of extend calls with positive rates whose event times and slopes on an edge are equal or more than eps apart', 'arbitrarily long simulations; a missed depletion shows up only in particular schedules.', [DF+':extend',DF+':_process_depletions'])
p('C30','queue dynamics follow the fluid queue law',
  'The queue of an edge grows with slope inflow - capacity while it is positive or the inflow exceeds the capacity, and stays 0 otherwise; equivalently queue(t) = cumulative inflow(t) - cumulative outflow(t + travel time).',
  'every history as in C29, every edge, every t <= phi', 'as C29', [DF+':_extend_case_i',DF+':_extend_case_ii',DF+':_extend_case_iii'])
p('C31','outflow never exceeds capacity',
  'The total outflow rate of an edge is at most its capacity at every time.',
  'every history of extend calls', 'as C29', [DF+':extend'])
p('C32','first in, first out, and nothing is lost on an edge',
  'What has entered an edge up to t has left it exactly by t + travel time + queue(t)/capacity: cumulative outflow there equals cumulative inflow at t; and exit times are non-decreasing in t.',
  'every history as in C29, every edge, every t <= phi', 'as C29', [DF+':extend'])
p('C33','commodities leave an edge in the proportions in which they entered',
  'The inflow rates of all commodities at t are one and the same multiple k of their outflow rates at the exit time of t, and k is the rate at which exit times move just after t.',
  'every history as in C29, every edge, commodity and t', 'as C29', [DF+':_extend_case_ii',DF+':_extend_case_iii'])
p('C34','extend reports exactly the edges whose outflow changes',
  'Between two calls no edge outflow changes strictly before the new phi, and every edge whose outflow rates at the new phi differ from those in force just before is in the returned set.',
  'every reachable flow state and extend call', 'a missed event would silently stop flow; depends on the whole history.', [DF+':extend'])
p('C35','valid simulations never fail an internal check',
  'No assertion, KeyError, IndexError or ValueError is raised by extend for valid inputs.',
  'every history as in C29', 'assertions deep in the call tree under all histories; production runs disable them.', [DF+':extend',FR+':extend',PL+':extend_with_slope',RC+':extend'])
p('C36','edge loads are non-negative and zero before the start',
  'get_edge_loads()[e](t) equals cumulative inflow minus cumulative outflow, is >= 0 for 0 <= t <= phi and 0 for t <= 0.',
  'every history as in C29', 'as C29', [DF+':get_edge_loads'])
p('C37','reachability queries are exact',
  'get_reachable_nodes(s) is exactly the set of nodes reachable by a directed path from s, get_nodes_reaching(t) exactly the set of nodes from which t is reachable; both terminate.',
  'every finite graph including cycles, loops and parallel edges', 'all graphs.', [GR+':get_reachable_nodes',GR+':get_nodes_reaching'])
p('C38','reverse swaps directions and is an involution',
  'reverse() exchanges node_from/node_to of every edge and incoming/outgoing of every node; applying it twice restores the graph; get_nodes_reaching on the reversed graph is get_reachable_nodes on the original.',
  'every graph', 'all graphs.', [GR+':reverse'])
p('C39','reverse_dijkstra returns shortest distances up to the tolerance',
  'For non-negative costs reverse_dijkstra terminates; it labels exactly the nodes that can reach the sink inside the given node set; each label is the length of a real path and exceeds no path length by more than eps per edge.',
  'every finite graph, non-negative cost vector and node set', 'all graphs; the eps-relaxation accumulates along paths.', [DJ+':reverse_dijkstra'])
p('C40','dynamic_dijkstra returns earliest arrival times',
  'For non-negative costs obeying FIFO, every returned arrival time is the earliest arrival over all walks inside the relevant nodes, the sink is returned whenever reachable, and every labelled node is at most as late as the sink.',
  'every finite graph, FIFO cost functions, departure time', 'all graphs and cost functions.', [DJ+':dynamic_dijkstra'])
p('C41','active edges start shortest routes and exist',
  'get_active_edges_from_dijkstra returns only edges out of the source that start a route to the sink every edge of which is tight up to eps, returns all such edges that were explored, and never an empty list when the sink was reached.',
  'every dijkstra result', 'all graphs.', [DJ+':get_active_edges_from_dijkstra'])
p('C42','bellman_ford returns earliest arrival functions',
  'bellman_ford terminates and returns, for every node of interest from which the sink can be reached, a function g_v such that g_v(t) is the earliest arrival at the sink when leaving v at t; other nodes get no function.', 'every finite graph, non-negative FIFO cost functions, start time and horizon, all departure times', 'all graphs, cost functions and departure times; the number of rounds is not bounded in the code.', ['src/core/bellman_ford.py:bellman_ford'])
p('C43','inflow of a node is split completely and evenly over active edges',
  'For every handled node v and commodity i not ending in v with node inflow >= eps, the new edge inflows of i over the outgoing edges of v sum to the outflow of i from incoming edges plus the network inflow of i at v, equal on every active edge and absent elsewhere.',
  'every network, builder state and time', 'all networks and histories.', [FB+':_determine_new_inflow'])
p('C44','flow of a commodity is routed only on active edges and is absorbed at its sink',
  'The builder never puts flow of commodity i on an edge leaving its sink nor on an edge that is not active for i at the routing time; with a constant predictor active edges satisfy cost(e)+dist(head) <= dist(tail)+eps.',
  'every network and builder state', 'all networks and histories.', [FB+':_get_active_edges',FB+':_determine_new_inflow'])
p('C45','routing happens exactly at multiples of the reroute interval',
  'With interval d > 0 the builder recomputes routes exactly when phi reaches 0, d, 2d, ...; the routing time used equals phi, and phi never passes the next routing time.',
  'every simulation', 'event order depends on the whole history.', [FB+':build_flow'])
p('C46','reroute_interval=None reroutes at every outflow change',
  'As the constructor documents, None means rerouting every time some outflow changes.',
  'every network', 'no test uses None.', [FB+':__init__',FB+':build_flow'])
p('C47','a builder can be run once',
  'The second build_flow generator raises RuntimeError on first use and does not touch the flow.', 'every builder state', 'state machine.', [FB+':build_flow'])
p('C48','build_with_times returns a flow built at least up to the horizon',
  'If build_with_times returns, phi >= horizon and it stopped at the first such step.', 'every event sequence', 'unbounded loop.', ['src/utilities/build_with_times.py:build_with_times'])
p('C49','edge ids, capacities and travel times stay aligned',
  'After any sequence of add_edge and edge removals, edges[i].id = i and capacity[i], travel_time[i] are those given for that edge; node adjacency lists contain exactly the present edges.',
  'every operation sequence', 'renumbering after deletions.', [NW+':add_edge',NW+':_remove_edge'])
p('C50','network clean-up functions work on networks with commodities',
  'compress_lonely_nodes, remove_unnecessary_nodes and remove_unnecessary_commodities return normally and remove only what they document.',
  'every network', 'untested code paths.', [NW+':compress_lonely_nodes',NW+':remove_unnecessary_nodes',NW+':remove_unnecessary_commodities'])
p('C51','pickling a network keeps it',
  'A network read back from a pickle has the same edges in the same order with the same attributes, adjacency orders, and commodities.',
  'every network', 'all networks.', [GR+':__getstate__',GR+':__setstate__',NW+':__getstate__',NW+':__setstate__'])
p('C52','combining commodities preserves demand',
  'combine_commodities_with_same_sink leaves, for every predictor type, sink, source and time, the total inflow rate unchanged and leaves at most one commodity per (predictor, sink).',
  'every commodity list', 'all lists and groupings.', ['src/utilities/combine_commodities.py:combine_commodities_with_same_sink'])
p('C53','merging commodities for visualisation preserves the flow',
  'merge_commodities leaves for every edge and time the total rate unchanged (up to the simplification tolerance of 1000 eps for every recorded break point; exactly, if the total never changes by less than that) and leaves unmerged commodities as they were.',
  'every flow and commodity set', 'all flows.', ['src/visualization/to_json.py:merge_commodities'])
p('C54','zero and constant predictors',
  'ZeroPredictor predicts 0 and ConstantPredictor the current queue length, at every future time, for every edge; both declare is_constant and their predictions are constant.',
  'every flow, prediction time and future time', 'all flows.', [PR+'zero_predictor.py',PR+'constant_predictor.py'])
p('C55','LinearPredictor never predicts a negative queue',
  'Every predicted queue is >= 0 at all times >= the prediction time, starts at the current queue length and follows the current slope until horizon or depletion.',
  'every flow with non-negative queues and every prediction time', 'fails only when the prediction time hits a depletion.', [PR+'linear_predictor.py'])
p('C56','RegularizedLinearPredictor never predicts a negative queue',
  'As C55 with the average slope over the last delta.', 'every flow with non-negative queues and every prediction time', 'as C55', [PR+'reg_linear_predictor.py'])
p('C57','machine-learning predictions are made physical',
  'Whatever the model returns, predicted queues start at the current queue, are >= 0 and never drain faster than capacity; predict and batch_predict give the same prediction.',
  'every model output, flow, masks and prediction time', 'the model is an arbitrary function.', [PR+'sk_full_net_predictor.py',PR+'sk_neighborhood_predictor.py',PR+'tf_full_net_predictor.py',PR+'tf_neighborhood_predictor.py'])
p('C58','predicted costs obey FIFO',
  'If a predicted queue never drains faster than capacity then leaving later on that edge never means arriving earlier, i.e. t + cost(t) is non-decreasing; and costs are at least the travel time if the predicted queue is >= 0.',
  'every prediction, capacity > 0, t <= t2', 'all functions.', [FB+':_get_costs','src/eval/predicted_delay.py:costs_from_preds'])
p('C59','predictors do not look into the future',
  'predict(t, flow) depends only on the flow up to time t.', 'every pair of flows agreeing up to t', 'relational property over two executions.', [PR+'constant_predictor.py',PR+'linear_predictor.py',PR+'reg_linear_predictor.py',PR+'linear_regression_predictor.py',PR+'per_edge_linear_regression_predictor.py',PR+'full_net_linear_regression_predictor.py'])
p('C60','neighbouring edges are those within the distance',
  'get_neighboring_edges_forward/backward/undirected(edge, d) return exactly the edges reachable within d steps in the respective direction, plus the edge itself.',
  'every graph, edge and distance', 'all graphs and distances.', [ML+'neighboring_edges.py'])
p('C61','training samples are aligned in time',
  'Sample k of a flow contains the queue and load values at the past_timesteps times phi-(p-1)D,...,phi and as target those at phi+D,...,phi+fD, with phi = k*reroute_interval; all indices are in range. A data set is made exactly if there are files and sampled times and every file has one value per road and sampled time; otherwise ValueError is raised.',
  'all interval, past, future and horizon settings and every sample index', 'index arithmetic over all settings.', [ML+'QueueAndEdgeLoadsDataset.py:__getitem__',ML+'generate_queues.py:save_queues_and_edge_loads_for_flow'])
p('C62','is_positive_during is exact',
  'is_positive_during(f, a, b) is true iff f(t) > eps for some t in [a,b).', 'every step function and a < b', 'rank arithmetic in all relative positions.', ['src/eval/predicted_delay.py:is_positive_during'])
p('C63','predicted delays are non-negative and the reported maximum dominates them',
  'get_pred_edge_delay returns a value >= 0 for FIFO costs, and the reported delay of a commodity is >= every measured delay and is 0 or attained at the reported witness.',
  'every graph, costs and measurement grid', 'all graphs.', ['src/eval/predicted_delay.py'])
p('C64','avg_travel_time is total time spent divided by demand',
  'avg_travel_time(i, h) = (integral over [0,h] of (cumulative inflow - cumulative arrivals) of commodity i) / total inflow up to h.',
  'every flow and horizon', 'all flows.', [DF+':avg_travel_time'])
p('C65','at most one process works on a locked task',
  'Among any number of processes calling with_file_lock on the same path, at most one runs the handler at a time and a finished task is not started again.',
  'every interleaving of any number of processes', 'race conditions.', ['src/utilities/file_lock.py:with_file_lock'])
p('C66','the lock is released when the handler ends or fails',
  'After with_file_lock returns or raises, the lock file it created is gone, also if the handler raises; a call that found a lock or finished outputs does not touch the file system.',
  'every handler outcome', 'exception paths.', ['src/utilities/file_lock.py:with_file_lock'])
p('C67','the recorded inflow is what was given',
  'At every time t >= 0 the recorded inflow rate of every commodity on an edge is that of the last extend call not later than t that names the edge, and the cumulative inflow is the total given up to t.',
  'every history as in C29, every edge, commodity and time', 'a skipped or misplaced extension shows up only after particular histories.', [DF+':extend',FR+':extend'])

p('C68','a collection made from functions answers with their values',
  'FlowRatesCollection(functions_dict) answers get_values_at_time at non-decreasing times >= 0 with the values of the functions; it raises AssertionError when no function starts at 0.',
  'every dict of non-negative step functions and every non-decreasing list of query times', 'all dicts and query sequences.', [FR+':__init__',FR+':get_values_at_time'])

p('C69','the past is never rewritten',
  'Further extend calls never change anything the flow has recorded up to its current time: recorded inflow and outflow rates, cumulative functions and queue lengths at times <= phi stay what they were.',
  'every history as in C29, every continuation of it, every edge, commodity and time <= phi', 'a late extension that reaches back shows up only for particular histories.', [DF+':extend',FR+':extend'])
p('C70','LinearRegressionPredictor predicts physical queues',
  'The predicted queue starts at the current queue, is never negative and never drains faster than the capacity.',
  'every reachable flow and prediction time', 'all flows.', [PR+'linear_regression_predictor.py:predict'])
p('C71','PerEdgeLinearRegressionPredictor predicts physical queues',
  'Whatever the trained models return, the predicted queues start at the current queue, are never negative and never drain faster than the capacity; predict returns when the models answer with future_timesteps numbers.',
  'every reachable flow, prediction time, model output and masks', 'the model is an arbitrary function.', [PR+'per_edge_linear_regression_predictor.py:predict'])

p('C72','each commodity is carried through an edge',
  'On every edge and for every commodity, the amount that has left by t + travel time + queue(t)/capacity equals the amount that has entered by t, for every t up to the current time; nothing leaves before the travel time has passed, and never has more left than entered.',
  'every history as in C29, every edge, commodity and time', 'the outflow mixes of all past inflow pieces must add up for every history.', [DF+':extend'])
p('C73','no flow is made or lost in the network',
  'For every flow built by build_flow, commodity and time up to phi: what has arrived at the sink plus what is on the edges is at most what has entered the network, and equal to it when no source lies at the sink and no node inflow is positive but below the tolerance.',
  'every network, predictor assignment, number of rounds, commodity and time', 'a global balance over all edges, nodes and rounds.', [FB+':FlowBuilder',DF+':extend'])

p('C74','a model that has learned the data predicts the true queues',
  'At every sampled time the full-net predictor asks its model about exactly the input of the training sample of that flow and time; if the model answers with the sample\'s target, the predicted queues of all edges equal the true queues at the sampled future times.',
  'all flows, settings, masks, samples and models', 'index arithmetic of generation, dataset and predictor must agree for all settings.', [ML+'QueueAndEdgeLoadsDataset.py:__getitem__',PR+'sk_full_net_predictor.py:predict',PR+'tf_full_net_predictor.py:predict'])
p('C75','neighbourhood models that have learned the data predict the true queues',
  'The same for the neighbourhood predictors with one model per edge, each trained with the additional masks of its edge.',
  'all flows, settings, masks, neighbourhoods, samples and models', 'as C74.', [ML+'SKNeighborhood.py',PR+'sk_neighborhood_predictor.py:predict',PR+'tf_neighborhood_predictor.py:predict'])

p('C76','wait_for_locks waits exactly for the locks',
  'wait_for_locks(dir) returns only at a time when dir contains no lock file; if from some time on there are none it returns, at most 30 seconds later; while there are some it does not return.',
  'every history of the directory contents', 'timing and history dependent.', ['src/utilities/file_lock.py:wait_for_locks'])
p('C77','the optimal average travel time is the average of the earliest arrivals',
  'calculate_optimal_average_travel_time returns, for a commodity with one source, the average over all departures in [0, min(inflow_horizon, horizon)] of the time until the earliest arrival at the sink in the given flow, where those who cannot arrive by the horizon count as arriving at the horizon; other commodities are rejected.',
  'every network, flow, inflow horizon and horizon', 'the average is an integral of a function that depends on the whole flow.', ['src/eval/evaluate.py:calculate_optimal_average_travel_time'])
p('C78','the mean absolute error compares predictions with the queues of the same moments',
  'evaluate_mean_absolute_error returns for every predictor the mean of |predicted queue - true queue| over all edges, all prediction times i * reroute_interval up to horizon - (future_timesteps + 1) * prediction_interval and all times prediction_interval, ..., future_timesteps * prediction_interval later, both taken at the same moment, whenever prediction_interval is a multiple of reroute_interval; it is 0 exactly for right predictions, and raises ValueError when there is no prediction time or the flow is too short.',
  'every flow, predictors, intervals, horizon and number of steps', 'index arithmetic (rounded strides against times) for all settings.', ['src/eval/evaluate.py:evaluate_mean_absolute_error','src/core/predictor.py:batch_predict'])
p('C79','an evaluation run compares the predictors on equal terms',
  'evaluate_single_run, on a valid network whose focused commodity has one source, adds one commodity per predictor with the same source and sink and the same demand: with split=True the focused commodity is replaced and each new one gets an equal share of its inflow, so that the total is unchanged; otherwise each gets max(min capacity / 256, first rate / 16 / number of predictors) until inflow_horizon. All other demand is unchanged per predictor and sink, the returned indices are those of the new commodities, and the network is valid again. A focused commodity with no or several sources is refused with ValueError.',
  'every valid network, list of predictors, focused commodity, order of set iteration and inflow horizon', 'all networks, inflow functions and iteration orders.', ['src/eval/evaluate.py:evaluate_single_run','src/utilities/combine_commodities.py'])
p('C80','the picture of an evaluation shows the evaluated commodities',
  'eval_network_demand merges the original commodities into one for the visualisation and keeps the rates of every evaluated commodity.',
  'every valid network, list of predictors, with and without split', 'all networks and flows.', ['src/eval/evaluate_network.py:eval_network_demand','src/core/dynamic_flow.py:merge_commodities','src/eval/evaluate.py:evaluate_single_run'])
p('C81','building a flow ends',
  'On a valid network with positive travel times every round of build_flow moves the time strictly forward, and after finitely many rounds any given time is reached or a round has raised, whatever the predictors predict: event times cannot accumulate. build_with_times therefore returns a flow that reaches the horizon.',
  'every valid network with positive travel times, predictors, rerouting interval, horizon and order of set iteration', 'termination; infinitely many events in finite time cannot be excluded by running the program.', ['src/core/flow_builder.py:build_flow','src/core/dynamic_flow.py:extend','src/utilities/build_with_times.py:build_with_times'])
p('C82','FullNetLinearRegressionPredictor asks its model about the masked edges',
  'predict feeds the trained model with the time and, for each edge of the mask, its queue and load at the last past_timesteps time steps; whatever the model answers, the predicted queues of the edges of the mask start at the current queue, are never negative and never drain faster than the capacity, and the other edges get 0. Predictions for another time than flow.phi raise ValueError.',
  'every reachable flow, mask, trained model and setting', 'the model is an arbitrary function and the arrays are rearranged silently; wrong inputs give plausible numbers.', ['src/core/predictors/full_net_linear_regression_predictor.py:FullNetLinearRegressionPredictor.predict'])
p('C83','ExpandedLinearRegressionPredictor predicts',
  'The predictors made by from_weka_models and from_scikit_model return, for every edge, a function that starts at the current queue and then follows the values of the trained models.',
  'every reachable flow, prediction time, trained model and number of edges', 'the arguments of a closure and the lengths of lists are only checked at run time, and the class is used in a scenario that is never tested.', ['src/core/predictors/expanded_linear_regression_predictor.py:ExpandedLinearRegressionPredictor.from_weka_models','src/core/predictors/expanded_linear_regression_predictor.py:ExpandedLinearRegressionPredictor.from_scikit_model'])
p('C84','random demands are constant up to the inflow horizon and non-negative',
  'generate_network_demands gives every source of every commodity one inflow: the number drawn for it, or 0 if that is negative, up to the inflow horizon and 0 afterwards (for ever if the horizon is infinite). The mean is the first rate of the inflow before, the deviation the given one or half of the smallest capacity. Sources, sinks, predictors and the graph do not change and the network is valid for the flow builder.',
  'every valid network, random generator, inflow horizon and sigma', 'the drawn numbers are arbitrary and sources can be shared between commodities.', ['src/ml/build_test_flows.py:generate_network_demands'])
p('C85','every training flow is built for the drawn demands and gets its own file',
  'build_flows builds for every index a flow up to the horizon: total demand per sink and source is the drawn one, there is one commodity per sink, and the flow is the one FlowBuilder makes with ConstantPredictor. The file names of different flows differ and sort in the order of the flows.',
  'every valid network with positive travel times, random generator, horizons, sigma, rerouting interval, order of set iteration, number of flows and index', 'composition of four modules with arbitrary random numbers; termination.', ['src/ml/build_test_flows.py:build_flows','src/ml/build_test_flows.py:generate_network_demands','src/utilities/combine_commodities.py:combine_commodities_with_same_sink','src/utilities/build_with_times.py:build_with_times'])
p('C86','evaluation demands are not those of the training data',
  'The flows on which predictors are evaluated are generated with other seeds than the flows the models were trained on, so that their demands are drawn independently.',
  'every network, random generator, horizon, sigma and index', 'numbers of two runs look equally random; that they are the same needs the seeds to be followed.', ['src/ml/build_test_flows.py:build_flows','src/eval/evaluate_network.py:eval_network_demand'])
p('C87','the reported slowdowns are averages over all runs',
  'The average slowdown saved for a predictor is the mean, over all evaluated runs, of its average travel time divided by the optimal one, minus 1, and is never negative; the printed mean travel times are means over all runs.',
  'every number of predictors and list of runs', 'which runs are dropped depends on equality of computed numbers.', ['src/eval/evaluate_network.py:eval_jsons_to_avg_slowdowns','src/eval/evaluate_network.py:eval_jsons_to_avg_eps','src/eval/evaluate_network.py:generate_slowdown_boxplot'])
p('C88','an imported TNTP scenario has the roads and trips of its files and is a valid input',
  'import_network makes one edge per row with its travel time and capacity, in order. add_commodities reads every trip of the file, whatever header, blanks, semicolons and line breaks it has, and adds one commodity per trip, in order, with the demand of the trip up to the inflow horizon. Unknown places are refused. If capacities are positive, times and demands not negative and destinations reachable, the network is a valid input of the flow builder.',
  'every table of edges, every file in the format of trips, every inflow horizon', 'files are arbitrary texts; splitting on Origin, semicolons, colons and line breaks must be unambiguous for all of them.', ['src/importer/tntp_importer.py:add_commodities','src/importer/tntp_importer.py:import_network','src/importer/sioux_falls_importer.py:add_od_pairs','src/scenarios/scenario_utils.py:get_demand_with_inflow_horizon'])
p('C89','an imported CSV scenario has the arcs and demands of its files',
  'network_from_csv makes one edge per row that is no loop, with travel time length / speed, capacity lanes * speed and speed 20 if none is given; add_demands_to_network adds one commodity for every row whose sink can be reached from its source.',
  'every table of arcs and of demands, seed and flags', 'the defect hides behind the reachability of the rows.', ['src/importer/csv_importer.py:network_from_csv','src/importer/csv_importer.py:add_demands_to_network'])
p('C90','generated commodities can travel and are returned',
  '_generate_commodities fills the network up to the given number of commodities with drawn trips, each with a sink that can be reached from a different source, and returns them.',
  'every network, number, inflow horizon and sequence of random draws', 'random draws; the loop may be unlucky any number of times.', ['src/importer/sioux_falls_importer.py:_generate_commodities'])
p('C91','the evaluation of a network evaluates every commodity',
  'eval_network_for_commodities, started by any number of processes one after the other, evaluates every commodity once, removes its locks and returns.',
  'every network with commodities, every content of the output directory, with and without random commodities', 'how files and locks develop over a history of processes.', ['src/eval/evaluate_network.py:eval_network_for_commodities','src/core/network.py:remove_unnecessary_commodities','src/utilities/file_lock.py:wait_for_locks'])
p('C92','nobody arrives earlier than possible',
  'In every flow that FlowBuilder builds: if nobody who leaves the sources of a commodity at given times can be at its sink before time T, whatever way is taken through the network with the travel times and queues of the flow, then at most as much of the commodity arrives at the sink up to T as entered at the sources up to those times.',
  'every valid network, predictors, rerouting interval and number of rounds, every commodity, departure times and T up to the time built', 'a statement about all walks through the network and all flow of a commodity; the flow is only known after the simulation.', ['src/core/dynamic_flow.py:extend','src/core/flow_builder.py:_determine_new_inflow'])
p('C93','the reported optimal travel time is a lower bound, slowdowns are not negative',
  'For a commodity with one source and a constant inflow, calculate_optimal_average_travel_time on the built flow returns at most avg_travel_time of that commodity: nobody travels faster than the reported optimum on average.',
  'every valid network, predictors and rerouting interval, every horizon up to which the flow is built, every commodity with one source and constant inflow', 'compares two integrals over the whole flow, computed by different algorithms.', ['src/eval/evaluate.py:calculate_optimal_average_travel_time','src/core/bellman_ford.py:bellman_ford','src/core/dynamic_flow.py:avg_travel_time'])
p('C94','a worker process goes on only when all files are made',
  'Several processes started with the same command share the work of build_flows, generate_queues_and_edge_loads, eval_network and the training functions through with_file_lock and wait_for_locks: when one of them goes on behind wait_for_locks, all outputs of all its tasks exist, whoever made them.',
  'any number of processes, every interleaving of their system calls, every point at which processes are killed, every contents of the disk at the beginning', 'a statement about all interleavings of processes.', ['src/utilities/file_lock.py:wait_for_locks','src/utilities/file_lock.py:with_file_lock','src/ml/build_test_flows.py:build_flows','src/ml/SKNeighborhood.py:train_sk_neighborhood_model','src/eval/evaluate_network.py:eval_network'])
p('C95','get_active_edges returns the edges that start fastest trips',
  'get_active_edges(costs, theta, source, sink, relevant_nodes, graph, strong_fifo) returns exactly the edges out of the source from which the sink can be reached as early as possible when leaving at theta, and leaves the graph as it was.',
  'every graph, FIFO costs, departure time, source and sink, both values of strong_fifo', 'a statement about all walks with time-dependent costs.', ['src/core/active_edges.py:get_active_edges','src/core/active_edges.py:backward_search'])
p('C96','columns of training rows hold the queues of the labelled moments',
  'expanded_queues_from_flows and expanded_queues_from_flows_per_edge write one row for every flow, sampled time (and busy edge); the column labelled t holds the queue t steps after the sampled time, before it for negative t.',
  'every graph, all flows, step lengths, numbers of past and future steps and sample steps', 'a statement about all flows, times and columns.', ['src/ml/generate_queues.py:expanded_queues_from_flows','src/ml/generate_queues.py:expanded_queues_from_flows_per_edge'])
p('C97','every row of the training data with edge loads is written',
  'generate_training_data_with_edge_loads saves for every flow an array with one row for each prediction time 0, reroute_interval, ..., holding queues and loads of the past and queues of the future of that time.',
  'every flow, horizon, rerouting interval and prediction interval', 'a statement about all flows and horizons.', ['src/ml/generate_queues.py:generate_training_data_with_edge_loads'])
p('C98','training data is made from the files of build_flows',
  'The generators of training data read the flow files that build_flows has written; expanded_queues_from_flows then writes its table and removes its lock, later calls leave the table as it is.',
  'all flow files, parameters and sequences of calls', 'a statement about all later runs after a failure.', ['src/ml/generate_queues.py:expanded_queues_from_flows','src/ml/generate_queues.py:generate_queues','src/ml/build_test_flows.py:build_flows'])
p('C99','an evaluation run reports on the flow that it built',
  'evaluate_single_run builds a flow at least up to the horizon for the network with one new commodity per predictor; it reports the average travel times of these commodities in the order of the predictors, then the optimal average travel time (which is at most each of them), the errors in the same order, and one predicted delay per commodity. With the stored flow of an earlier run it reports the same.',
  'every valid network and focused commodity, with or without split, all predictors, intervals and horizons', 'composes all parts of the program over all inputs.', ['src/eval/evaluate.py:evaluate_single_run','src/utilities/build_with_times.py:build_with_times'])
p('C100','an interrupted evaluation can be resumed',
  'However often eval_network_demand was stopped by exceptions or kills, calling it again (after removing stale lock files) completes the flow, the report and the visualisation of each evaluation, and the three belong to one and the same flow, as if the evaluation had never been stopped.',
  'every number of attempts, each stopped at any point or not at all; every network, all predictors', 'all crash points and sequences of crashes.', ['src/eval/evaluate_network.py:eval_network_demand','src/eval/evaluate.py:evaluate_single_run','src/utilities/file_lock.py:with_file_lock','src/visualization/to_json.py:to_visualization_json'])
p('C101','interrupted generation of training data can be resumed',
  'However often build_flows (with a callback that saves queues and edge loads) was stopped, calling it again and then generate_queues_and_edge_loads completes the sample of every flow, and the sample is that of the saved flow.',
  'every number of attempts, each stopped at any point or not at all', 'all crash points and sequences of crashes.', ['src/ml/build_test_flows.py:build_flows','src/ml/generate_queues.py:generate_queues_and_edge_loads','src/scenarios/anaheim_multi_com_scenario.py:on_flow_computed','src/utilities/file_lock.py:with_file_lock'])
p('C102','labels in the plots belong to the data',
  'In the box plots of slowdowns and errors and in the comparison of errors and performance, each label and colour of visualization_config goes with the numbers of its predictor: slowdowns T_i / T_OPT - 1, errors, and pairs of error and excess travel time, over the evaluated runs.',
  'every list of predictors, configuration and list of runs', 'all runs and configurations.', ['src/eval/evaluate_network.py:generate_slowdown_boxplot','src/eval/evaluate_network.py:generate_mae_boxplot','src/eval/evaluate_network.py:compare_mae_with_perf','src/tokyo/tokyo_scenario.py:run_scenario'])
p('C103','a trained model is used with the masks of its training data',
  'The predictor that a training function returns, in the process that trained the model or in any other one that runs the same command, asks a model that was learned from the dataset whose input and output masks the predictor uses; at every sampled time of a training flow it asks about the very row the model was trained with.',
  'every list of samples, setting, learning algorithm, number of processes and history of trainings that were stopped anywhere', 'all histories and datasets.', ['src/ml/SKFullNetworkModel.py:train_sk_full_net_model','src/ml/TFFullNetworkModel.py:train_tf_full_net_model','src/ml/SKNeighborhood.py:train_sk_neighborhood_model','src/ml/TFNeighborhood.py:train_tf_neighborhood_model','src/ml/QueueAndEdgeLoadsDataset.py:QueueAndEdgeLoadDataset.load_mask','src/core/predictors/sk_full_net_predictor.py:SKFullNetPredictor.from_model','src/core/predictors/sk_neighborhood_predictor.py:SKNeighborhoodPredictor.from_models'])
p('C104','interrupted training of models can be resumed',
  'After a training that raised or was stopped, the next attempt that does not raise leaves a complete model.',
  'every state of the files, setting, dataset and learning algorithm', 'all crash points and later histories.', ['src/ml/SKFullNetworkModel.py:train_sk_full_net_model','src/ml/TFFullNetworkModel.py:train_tf_full_net_model','src/ml/SKNeighborhood.py:train_sk_neighborhood_model','src/ml/TFNeighborhood.py:train_tf_neighborhood_model','src/utilities/file_lock.py:with_file_lock'])
p('C105','the workers of a scenario share the network file',
  'A worker of a scenario that reads the network file is given the network of the scenario, whenever the other workers are started, write the file or are killed.',
  'every number of workers, network, sizes of the pieces in which Python writes and reads, and interleaving of the system calls', 'all schedules and crash points.', ['src/core/network.py:Network.to_file','src/core/network.py:Network.from_file','src/scenarios/nguyen_scenario.py:run_scenario','src/scenarios/sioux_falls_scenario.py:run_scenario','src/ml/build_test_flows.py:build_flows','src/eval/evaluate_network.py:eval_network_demand'])
p('C106','what the study of the sample network writes',
  'The study of the sample network writes, if it ends, one curve per predictor and one for the optimum over the demands 0.25, 0.5, ..., 30: each point is the average travel time of the commodity of that predictor (or the optimum) in the flow built for that demand, under the label and colour of its predictor, and the regrets are divided by the optimum of the same run. If one run raises, nothing is written.',
  'every tuple of predictors, order of sets, demand of the study and outcome of the runs', 'the flows depend on arbitrary predictors; every failing run must be covered.', ['src/eval/evaluate_sample.py:eval_sample','src/eval/evaluate_sample.py:sample_from_file_to_tikz','src/eval/evaluate_sample.py:sample_regrets_from_file_to_tikz','src/test/sample_network.py:build_sample_network','src/eval/evaluate.py:evaluate_single_run'])
p('C107','the order of dict entries does not matter, nor does looking',
  'If a series of calls of extend on a new DynamicFlow returns, then so does every series with the same times and equal dicts, whatever the order of their entries and of the entries of the inner dicts, and whatever outflow rates are read in between: the flows then have the same time, rates, cumulative flows and queues on all edges, the same outflow rates are read off them, and a further call of extend reports the same set of changed edges.',
  'every network, series of calls, order of entries and readings in between', 'the number of orders is exponential, and the event queues store ties in different orders: all of them must lead to one record.', ['src/core/dynamic_flow.py:DynamicFlow.extend','src/core/flow_rates_collection.py:FlowRatesCollection.extend','src/core/flow_rates_collection.py:FlowRatesCollection.get_values_at_time','src/utilities/queues.py:PriorityQueue'])
p('C108','edges are independent',
  'What a flow records about an edge depends on nothing but the capacity and travel time of this edge and the inflows given to it: two series of calls of extend, on new flows of any two networks, that return, end at the same time and give the edge equal inflows at the same times leave the same rates, cumulative flows and queue of the edge, and the same outflow rates are read off it, whatever happened on other edges, whichever events the time stopped at, and whatever was read.',
  'every pair of networks and of series of calls that return, and every edge', 'all events of all other edges interleave with those of the edge; no test covers every interleaving.', ['src/core/dynamic_flow.py:DynamicFlow.extend','src/core/dynamic_flow.py:DynamicFlow._process_depletions','src/core/dynamic_flow.py:DepletionQueue'])
p('C109','the flow that is built does not depend on the order of sets',
  'If building a flow touches no tolerance with one order of iterating over sets (the nodes to handle, the changed edges, the active edges), then building the same network with the same predictors in any other order runs as well, touches no tolerance either, and after each number of rounds leaves the same time, rates, cumulative flows and queues on all edges, the same stored predictions, the same nodes waiting to be handled and the same time of the next routing. The predictors of the project predict the same for flows with the same record.',
  'every valid network, every family of predictors that look only at the record, every number of rounds and every two orders of iteration', 'Python orders sets by hash and insertion history; a test sees one order, and the caches for commodities with a shared predictor fill in the order of iteration.', ['src/core/flow_builder.py:FlowBuilder.build_flow','src/core/flow_builder.py:FlowBuilder._determine_new_inflow','src/core/flow_builder.py:FlowBuilder._get_active_edges'])
p('C110','caches of functions and lists shared between them cannot be seen',
  'For every series of calls on piecewise linear functions (constructor, methods, compose, extend_with_slope, and the in-place writes of src/core/dynamic_flow.py), in which no function is used after another function with the same list of times was extended, no result of compose is extended, a queue is set to 0 only while it falls, and loads start with value and slope 0: each call returns the number or raises the exception that plain values without caches and shared lists give, whatever the size of the caches. Flows meet the last two conditions. get_edge_loads returns what it would without its cache, for every series of calls on every number of flows.',
  'every series of calls of every length on any number of functions, every size of the caches, every body of a method', 'The caches are global to the class and keyed by identity; whether a stale entry is met depends on the whole history of calls, and tests use short ones.', ['src/utilities/piecewise_linear.py:PiecewiseLinear.gradient','src/utilities/piecewise_linear.py:PiecewiseLinear._eval_with_rank','src/utilities/piecewise_linear.py:PiecewiseLinear.compose','src/utilities/piecewise_linear.py:PiecewiseLinear.extend_with_slope','src/core/dynamic_flow.py:DynamicFlow.get_edge_loads','src/core/dynamic_flow.py:DynamicFlow._process_depletions'])
p('C111','builders in one process do not disturb each other',
  'If several flow builders are used in one process and the calls of next on their generators alternate in any way, each generator yields exactly the flows it yields when it is the only one in use, although every routing of one builder empties the cache of predicted costs of all of them. This holds for builders of valid inputs with predictors that only use the past; the other builders may be in any state, use any predictors and raise.',
  'every number of builders, every schedule of calls of next, every state of the other builders', 'The cache is global to the class; whether costs are computed again in the middle of a routing period depends on how the rounds of different builders alternate.', ['src/core/flow_builder.py:FlowBuilder._get_costs','src/core/flow_builder.py:FlowBuilder.build_flow','src/core/predictors/full_net_linear_regression_predictor.py'])
p('C112','the flow builder does not look ahead',
  'If two networks differ only in what their network inflow rates are from a time T on (the steps and values before T, the sinks, source nodes, predictors, edges, capacities and travel times are the same) and both are built with the same predictors and the same routing interval, then at all times up to T that both flows have reached the recorded edge inflow and outflow rates, cumulative flows and queues are the same, however many rounds each builder has run and in whatever order sets are iterated.',
  'every pair of valid networks with the same demands before T, every T, all numbers of rounds, all set orders, all predictors that see the flow only', 'Demand changes after T are in the event queue from the start and bound how far each round extends the flow; that they leave no trace before T has to hold for every demand and every number of rounds.', ['src/core/flow_builder.py:FlowBuilder.build_flow','src/core/dynamic_flow.py:DynamicFlow.extend'])
p('C113','the order in which the commodities are listed does not matter',
  'If the same commodities are listed in another order in a network, the flow that FlowBuilder builds is the same up to the numbers of the commodities: after the same number of rounds the time, the cumulative flows and queues of all edges, the predictions in use and the nodes to be handled are the same, and the rates that the one flow has for a commodity the other has for it under its new number. No predictor of the project asks for the rates of single commodities.',
  'every valid network, every arrangement of its commodities, all numbers of rounds, all set orders, all predictors that do not ask for single commodities', 'Commodity numbers are the keys of every dict of rates, of the event queue and of the caches of active edges; that they leave no trace has to hold for every arrangement and history.', ['src/core/flow_builder.py:FlowBuilder.build_flow','src/core/dynamic_flow.py:DynamicFlow.extend','src/core/flow_rates_collection.py:FlowRatesCollection'])
p('C114','commodities with the same demand are treated the same',
  'If two commodities of a network have the same sources with the same network inflow rates, the same sink and the same predictor, then in every flow built by FlowBuilder they have the same recorded inflow and outflow rates, as functions with the same break points and values, on all edges.',
  'every valid network with two equal commodities, all numbers of rounds, all set orders, all predictors that do not ask for single commodities', 'The commodities are handled one after the other in the order of a set, and the first one fills the cache of active edges for the others; that none has an advantage has to hold for every history.', ['src/core/flow_builder.py:FlowBuilder._determine_new_inflow','src/core/flow_builder.py:FlowBuilder._get_active_edges'])
p('C115','a visualisation file tells what the picture is',
  'to_visualization_json writes its file, as a text that follows the JSON grammar, whenever all nodes have positions and all commodities colours; and two files with the same text show the same nodes and positions, edges, capacities and travel times, colours, and flows with the same rates of all commodities and the same queues on all edges, with break points, values and domains.',
  'every valid network, all positions and colours, all flows; the text in the file character by character', 'Names of colours may hold quotes, line ends or letters outside ASCII, functions may have infinite domains, which JSON cannot express as numbers, and keys that are numbers become strings: that nothing of this makes texts invalid or lets different flows look the same has to hold for all of them.', ['src/visualization/to_json.py:to_visualization_json','src/utilities/json_encoder.py:JSONEncoder','src/utilities/right_constant.py:RightConstant.__json__','src/utilities/piecewise_linear.py:PiecewiseLinear.__json__'])
p('C116','functions and flows can be written as JSON',
  'JSONEncoder writes right-constant and piecewise linear functions, and the dicts of inflows, outflows and queues that the slide examples hand to it, as JSON texts from which the functions can be told.',
  'all functions, all flows', 'all functions and flows.', ['src/utilities/json_encoder.py:JSONEncoder.default','src/slide_examples/example2.py:build_example1','src/slide_examples/example3.py:build_example3','src/slide_examples/example4.py:build_example1'])
p('C117','a flow that was saved and loaded can be used like the original',
  'Whatever was done with a DynamicFlow before, it can be pickled as long as it has its network; loading succeeds, and once _network is assigned, the loaded copy answers all further calls (extend, current rates, edge loads, average travel times, further saves) as the original does. Until then it can be read, but extend and avg_travel_time raise AttributeError and it cannot be pickled again; assigning the attribute network does not change this.',
  'all sequences of uses before and after, with any number of saves and loads, all networks', 'Saving drops the network and takes the event lists apart, loading checks every item again: that no history leads to a state that is refused or goes on differently has to hold for all of them.', ['src/core/dynamic_flow.py:DynamicFlow.__getstate__','src/core/dynamic_flow.py:DynamicFlow.__setstate__','src/core/flow_rates_collection.py:FlowRatesCollection.__setstate__','src/eval/evaluate.py:evaluate_single_run','src/ml/generate_queues.py:expanded_queues_from_flows'])
p('C118','an edge reacts only to its own total inflow, and monotonically',
  'Take two edges, of one flow or of two flows on different networks. If they have the same capacity and the same cumulative inflow up to t, they have the same queue at t and the same cumulative outflow at t plus their travel time, however the inflow was divided into calls and commodities and whatever the rest of the network does. If one receives at least as much in every period ending at t and has at most the capacity, its queue is at least as long and waiting takes at least as long. If one has received at least as much at every time up to t and has at least the capacity, at least as much has passed.',
  'all pairs of networks, histories of valid extend calls, edges and times', 'It compares two arbitrary runs; unit tests look at one run at a time.', ['src/core/dynamic_flow.py:DynamicFlow.extend','src/core/dynamic_flow.py:DynamicFlow._extend_case_i','src/core/dynamic_flow.py:DynamicFlow._extend_case_ii','src/core/dynamic_flow.py:DynamicFlow._extend_case_iii','src/core/dynamic_flow.py:DynamicFlow._process_depletion'])
p('C119','results do not depend on the unit of flow or on the zero of the clock',
  'If an edge has c > 0 times the capacity and has received c times as much at every time up to t, then its queue at t is c times as long, c times as much has passed, and waiting takes as long. If an edge with the same capacity receives nothing up to time d and then what another edge receives d earlier, its queue at t + d is that of the other at t, and the same has passed.',
  'all pairs of networks, histories of valid extend calls, edges, times, factors and shifts', 'It compares two arbitrary runs; unit tests look at one run at a time.', ['src/core/dynamic_flow.py:DynamicFlow.extend','src/core/dynamic_flow.py:DynamicFlow._extend_case_i','src/core/dynamic_flow.py:DynamicFlow._extend_case_ii','src/core/dynamic_flow.py:DynamicFlow._extend_case_iii','src/core/dynamic_flow.py:DynamicFlow._process_depletion'])
p('C120','queues depend continuously on inflow and capacity',
  'If the cumulative inflows of two edges differ by at most delta at every time up to t, and their capacities by at most kappa, then what has passed up to t differs by at most delta + kappa t and the queues at t by at most 2 delta + kappa t. So a small error in the inflow is not amplified, however long the history.',
  'all pairs of networks, histories of valid extend calls, edges, times and bounds', 'It bounds the difference of two arbitrary runs; unit tests look at one run at a time.', ['src/core/dynamic_flow.py:DynamicFlow.extend','src/core/dynamic_flow.py:DynamicFlow._extend_case_i','src/core/dynamic_flow.py:DynamicFlow._extend_case_ii','src/core/dynamic_flow.py:DynamicFlow._extend_case_iii','src/core/dynamic_flow.py:DynamicFlow._process_depletion'])
p('C121','the flow builder accepts exactly the networks whose inflow starts at 0 and can arrive',
  'Take any network whose graph is consistent and whose inflow functions are non-negative step functions defined on [0, inf), with break points at one node that are equal or more than the tolerance apart. FlowBuilder(network, ...) returns exactly if every source can reach the sink of its commodity, no inflow function has a break point before 0, and at every source node some inflow function has a break point at 0; otherwise it raises AssertionError. In particular the slide examples 2, 3 and 4, whose inflow starts at -1, raise before any flow is built.',
  'all such networks with any number of nodes, edges and commodities, all reroute intervals', 'Which inputs are refused has to be known for all networks: a single refused example shows neither why nor what else is refused.', ['src/core/flow_builder.py:FlowBuilder.__init__','src/core/flow_rates_collection.py:FlowRatesCollection.__init__','src/utilities/right_constant.py:RightConstant.sum','src/utilities/right_constant.py:RightConstant.integral','src/slide_examples/example2.py:build_example1','src/slide_examples/example3.py:build_example3','src/slide_examples/example4.py:build_example1'])
p('C122','the flow builder ignores the domains of the inflow functions, avg_travel_time does not',
  'Take a valid network and a second one that differs only in the domains of its inflow functions, which contain [0, inf) (for example the default domain of RightConstant, the whole line). FlowBuilder accepts the second as well, and for every predictor, every iteration order of the sets and every number of rounds both builders yield the same flow or raise the same exception. But avg_travel_time(i, horizon) raises AssertionError for every horizon if an inflow function of commodity i has a domain that does not start at 0.',
  'all valid networks, all larger domains, predictors, set orders, numbers of rounds, reached flows and horizons', 'That nothing in the builder reads the domains has to hold for all runs; comparing two runs of one network says nothing of others.', ['src/core/flow_builder.py:FlowBuilder','src/core/flow_rates_collection.py:FlowRatesCollection.__init__','src/core/dynamic_flow.py:DynamicFlow.avg_travel_time','src/utilities/right_constant.py:RightConstant.__radd__','src/utilities/right_constant.py:RightConstant.sum'])
p('C123','the networks of the Nguyen scenario and of slide example 1 are valid and their flows are built to the end',
  'For every demand that is not negative and every inflow horizon larger than the tolerance, the network of the Nguyen scenario has exactly the 19 roads of its file, with positive travel times, carries the demand from 1 to 2, 1 to 3, 4 to 2 and 4 to 3 up to the inflow horizon and is a valid input of the flow builder, which accepts it. With the constant predictor and any reroute interval and horizon build_with_times then ends and returns a flow that reaches the horizon, provided that no round touches a tolerance. The network of slide example 1 is a valid input as well.',
  'all demands, inflow horizons, reroute intervals, horizons and set orders', 'The demand and the intervals are parameters; running the script once settles one choice only.', ['src/scenarios/nguyen_scenario.py:build_nguyen_network','src/scenarios/nguyen_scenario.py:run_scenario','src/scenarios/nguyen_network.csv','src/scenarios/scenario_utils.py:get_demand_with_inflow_horizon','src/slide_examples/example1.py:build_example1'])
p('C124','the names of the nodes of a network do not matter',
  'Giving the nodes other, different names when roads and commodities are added gives the same network with the other names, or the same exception. The searches for shortest routes and earliest arrivals then give every node the same label and the same active edges, and the flow builder builds the same flow: the same record of every edge after every number of rounds, the same predictions and routing times, or the same exception in the same round. If no round touches a tolerance this holds for any order in which sets of nodes are iterated over.',
  'all injective renamings, roads, commodities, networks, predictors, reroute intervals, numbers of rounds and set orders', 'Compares two runs for every network and every renaming.', ['src/core/network.py:Network','src/core/graph.py:DirectedGraph','src/core/dijkstra.py','src/core/flow_builder.py:FlowBuilder','src/core/dynamic_flow.py:avg_travel_time'])
p('C125','arg_min, equals and reversal answer what their names say',
  'arg_min returns the first of the items with the least key, None when there are none, and passes the first exception of the key on. equals answers True exactly for a function of the same class with the same break points, values, slopes and domain; for step functions on the same domain whose values change at every break point but a common first one this is the same as having the same values everywhere. reversal of an increasing function is its inverse on the values that it takes.',
  'all lists, keys, step functions and piecewise linear functions', 'Functions have infinitely many arguments; two functions that agree at all tested points may differ elsewhere.', ['src/utilities/arrays.py:arg_min','src/utilities/right_constant.py:RightConstant.equals','src/utilities/piecewise_linear.py:PiecewiseLinear.equals','src/utilities/piecewise_linear.py:PiecewiseLinear.reversal'])
p('C126','print_info prints true numbers',
  'For a network with at least one road, print_info prints the numbers of nodes, roads and commodities, the least, average and greatest capacity and travel time, the greatest number of roads into a node, out of a node and at a node, and the average of the first inflow rates of all sources (nan if there is none). Without roads it raises ValueError.',
  'all networks made by add_edge, remove_edge and reverse, and all commodities', 'Tests look at a few networks.', ['src/core/network.py:Network.print_info'])
p('C127','Trained models get the right inputs and their answers become the prediction',
  'A full-net predictor asks its model one row: the time, then the queues and then the loads of the input roads at the last past times, road by road; a neighbourhood predictor asks the model of every output road the same about the input roads of its neighbourhood; a per edge regression predictor asks about the roads into the tail, the roads out of the head and the road itself, time by time; the closure of from_scikit_model asks about the roads into the tail, zeros up to five blocks and the road itself, unless all of these are 0. The predicted queue of every output road starts at the current queue and then takes the answers of the model that belong to this road one by one, raised to 0 and to what is left after draining at capacity.',
  'all reachable flows, times, setups, neighbourhoods and models', 'A model answers some number for every input; a swapped row goes unnoticed in tests.', ['src/core/predictors/sk_full_net_predictor.py:SKFullNetPredictor.predict','src/core/predictors/sk_neighborhood_predictor.py:SKNeighborhoodPredictor.predict','src/core/predictors/per_edge_linear_regression_predictor.py:PerEdgeLinearRegressionPredictor.predict'])
p('C128','generate_queues writes every table once and survives being stopped',
  'For flow files that can be read, generate_queues writes, for every listed flow without an output file, the queues of all roads at -past, -past + step, … up to the horizon, and touches nothing else; a second call writes nothing; at the first flow without a file that cannot be read it raises; after being stopped at any point, a second call ends with the same files as a call that was not stopped.',
  'all folders, flows, contents of the output folder and crash points', 'A test cannot stop the process at every point.', ['src/ml/generate_queues.py:generate_queues'])
p('C129','DepletionQueue is a map from edges to planned depletions',
  'After any history of calls, every answer of a DepletionQueue is that of a map from edges to planned depletions with optional changes: set replaces what was planned for the edge, pop_by_depletion returns and removes an earliest one together with its own change, min_depletion and min_change_time are the smallest times (infinity if there are none), len counts the edges, and only remove of a missing edge and pop_by_depletion of an empty queue raise.',
  'all histories of calls', 'Three containers have to agree after every history; tests follow a few.', ['src/core/dynamic_flow.py:DepletionQueue'])
if __name__ == '__main__':
    with open(os.path.join(os.path.dirname(__file__), '..', 'properties.jsonl'), 'w') as f:
        for x in P:
            f.write(json.dumps(x, ensure_ascii=False) + '\n')
    print(len(P), 'properties')
