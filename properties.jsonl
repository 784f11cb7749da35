{"id": "C01", "title": "elem_rank finds the strict rank", "statement": "elem_rank(arr, x) returns, without an index error, the unique r in -1..len(arr)-1 with arr[r] < x <= arr[r+1] (arr[-1] read as -inf and arr[len] as +inf).", "quantifier": "every non-empty non-decreasing list over any linearly ordered key type (every length, duplicates allowed) and every x", "why_tests_cant": "binary search has off-by-one failures only at particular length/position combinations; no finite sample covers all lengths.", "anchors": ["src/utilities/arrays.py:elem_rank"]}
{"id": "C02", "title": "elem_lrank finds the lower rank", "statement": "elem_lrank(arr, x) returns, without an index error, the unique r in -1..len(arr)-1 with arr[r] <= x < arr[r+1].", "quantifier": "every non-empty non-decreasing list over any linearly ordered key type and every x", "why_tests_cant": "same as C01", "anchors": ["src/utilities/arrays.py:elem_lrank"]}
{"id": "C03", "title": "merge_sorted merges without near-duplicates", "statement": "merge_sorted(a, b) returns a list whose consecutive elements are more than eps apart and strictly increasing, containing only elements of a and b, ending with the overall maximum; every input element is absorbed by an output element that is not smaller and is reached from it through input elements at steps of at most eps; if distinct input elements are more than eps apart the result is exactly the sorted duplicate-free union.", "quantifier": "every pair of non-decreasing lists of every length", "why_tests_cant": "depends on the interleaving of two arbitrary-length lists and on chains of near-equal values.", "anchors": ["src/utilities/arrays.py:merge_sorted"]}
{"id": "C04", "title": "merge_sorted_many merges any number of lists", "statement": "merge_sorted_many(arrays) has the same guarantees as C03 for any number of sorted lists (the empty collection gives the empty list).", "quantifier": "every finite family of non-decreasing lists", "why_tests_cant": "unbounded number and lengths of lists.", "anchors": ["src/utilities/arrays.py:merge_sorted_many"]}
{"id": "C05", "title": "PriorityQueue is a finite map from items to keys", "statement": "After any sequence of push, set, update, decrease_key, remove and pop (each called inside its documented precondition), has, key_of and len answer as a finite map updated by the same operations would, and no operation raises.", "quantifier": "every construction from a list of distinct items and every finite operation sequence", "why_tests_cant": "heap corruption needs specific operation interleavings; the index dictionary and the heap array must agree after every one of unboundedly many states.", "anchors": ["src/utilities/queues.py:PriorityQueue"]}
{"id": "C06", "title": "PriorityQueue pops a minimum, first-in first-out among equal keys", "statement": "min_key returns the smallest stored key (inf when empty); next and pop return the item with the smallest key and, among equal keys, the one inserted first; pop removes exactly that item.", "quantifier": "every reachable queue state", "why_tests_cant": "ordering under arbitrary operation histories.", "anchors": ["src/utilities/queues.py:pop", "src/utilities/queues.py:min_key", "src/utilities/queues.py:next"]}
{"id": "C07", "title": "increase_key raises the key of one item", "statement": "increase_key(item, k) makes key_of(item) equal to k, leaves every other item as it was and keeps the queue ordered.", "quantifier": "every reachable queue state, item and larger key", "why_tests_cant": "the method has no caller in the repository and no test; its effect depends on the position in the heap.", "anchors": ["src/utilities/queues.py:increase_key"]}
{"id": "C08", "title": "sorted lists every item in key order", "statement": "sorted() returns every stored item exactly once in non-decreasing key order (insertion order among equal keys) and leaves the queue unchanged.", "quantifier": "every reachable queue state", "why_tests_cant": "as C06.", "anchors": ["src/utilities/queues.py:sorted"]}
{"id": "C09", "title": "RightConstant evaluation is the right-continuous step function", "statement": "f(t) = values[i] for the largest i with times[i] <= t, and values[0] before times[0]; eval and eval_from_end agree; outside the domain both raise.", "quantifier": "every RightConstant with strictly increasing times and every t", "why_tests_cant": "all break point counts and positions, including ties with t.", "anchors": ["src/utilities/right_constant.py:eval", "src/utilities/right_constant.py:eval_from_end"]}
{"id": "C10", "title": "RightConstant.extend changes only the future", "statement": "After extend(s, v): if the last break point is equal to s or more than eps before it, f is unchanged at every t with times[0] <= t < s and equals v up to eps at every t >= s; times stay increasing.", "quantifier": "every RightConstant, s not before its last break point, v", "why_tests_cant": "unbounded extension histories; eps-window cases.", "anchors": ["src/utilities/right_constant.py:extend"]}
{"id": "C11", "title": "RightConstant sum, addition, negation and subtraction are pointwise", "statement": "(f+g)(t)=f(t)+g(t), (-f)(t)=-f(t), (f-g)(t)=f(t)-g(t), RightConstant.sum(fs)(t)=sum of fs(t), at every t of the domain, when distinct break points are more than eps apart.", "quantifier": "every pair / finite family of step functions and every t", "why_tests_cant": "pointer-advancing merge loops over unbounded lists.", "anchors": ["src/utilities/right_constant.py:__radd__", "src/utilities/right_constant.py:sum", "src/utilities/right_constant.py:__sub__"]}
{"id": "C12", "title": "RightConstant.integral is the antiderivative", "statement": "F = f.integral() satisfies F(times[0]) = 0 and F(b)-F(a) = (b-a) f(a) whenever no break point of f lies strictly between a and b; hence F(t) is the integral of f from times[0] to t.", "quantifier": "every step function and all a <= b in the domain", "why_tests_cant": "universally quantified over break points and arguments.", "anchors": ["src/utilities/right_constant.py:integral"]}
{"id": "C13", "title": "PiecewiseLinear evaluation interpolates; the three evaluators agree", "statement": "f(times[i]) = values[i]; f is affine between consecutive break points and has the declared slopes outside; eval, eval_from_end and, on non-decreasing arguments, eval_sorted_array return the same numbers.", "quantifier": "every well-formed piecewise linear function and every argument / sorted argument list", "why_tests_cant": "divide-and-conquer index arithmetic over unbounded lists.", "anchors": ["src/utilities/piecewise_linear.py:eval", "src/utilities/piecewise_linear.py:eval_from_end", "src/utilities/piecewise_linear.py:eval_sorted_array", "src/utilities/piecewise_linear.py:_find_rnk_between"]}
{"id": "C14", "title": "PiecewiseLinear plus, negation and subtraction are pointwise", "statement": "(f+g)(t) = f(t)+g(t), (-f)(t) = -f(t) and (f-g)(t) = f(t)-g(t) for every t in the intersection of the domains, when distinct break points are more than eps apart.", "quantifier": "every pair of well-formed functions with overlapping domains and every t", "why_tests_cant": "domain cutting, merging and slope handling in all relative positions.", "anchors": ["src/utilities/piecewise_linear.py:plus", "src/utilities/piecewise_linear.py:__neg__", "src/utilities/piecewise_linear.py:__sub__"]}
{"id": "C15", "title": "inverse inverts on a strictly monotone piece", "statement": "If inverse(x, i) returns t, then f(t) = x and t lies in the closure of piece i.", "quantifier": "every function, piece index and value accepted by the preconditions", "why_tests_cant": "all pieces and values.", "anchors": ["src/utilities/piecewise_linear.py:inverse"]}
{"id": "C16", "title": "min_t_above and max_t_below are extremal", "statement": "For a non-decreasing f: min_t_above(b) is the least t in the domain with f(t) >= b, max_t_below(b) is the greatest t in the domain with f(t) <= b.", "quantifier": "every monotone function and every attained bound", "why_tests_cant": "flat pieces, boundary values and break point ties.", "anchors": ["src/utilities/piecewise_linear.py:min_t_above", "src/utilities/piecewise_linear.py:max_t_below"]}
{"id": "C17", "title": "compose is functional composition", "statement": "(g.compose(f))(t) = g(f(t)) for every t of the domain of f.", "quantifier": "every g and every monotone f whose image lies in the domain of g, every t", "why_tests_cant": "interleaving of break points of g with images of break points of f.", "anchors": ["src/utilities/piecewise_linear.py:compose"]}
{"id": "C18", "title": "minimum is the pointwise minimum", "statement": "f.minimum(g)(t) = min(f(t), g(t)) for every t of the common domain; outer_minimum additionally equals the only defined function elsewhere.", "quantifier": "every pair of well-formed functions", "why_tests_cant": "crossings between, at and after break points in any number.", "anchors": ["src/utilities/piecewise_linear.py:minimum", "src/utilities/piecewise_linear.py:outer_minimum"]}
{"id": "C19", "title": "restrict keeps the function on the smaller domain", "statement": "f.restrict((a,b))(t) = f(t) for every t in [a,b].", "quantifier": "every function and sub-domain", "why_tests_cant": "break points on, inside and outside the new bounds.", "anchors": ["src/utilities/piecewise_linear.py:restrict"]}
{"id": "C20", "title": "integrate is the exact integral", "statement": "f.integrate(a,b) equals the area under f between a and b: it is additive over adjacent intervals and on a piece equals the trapezoid.", "quantifier": "every function with non-negative values and every a < b in its domain", "why_tests_cant": "break point positions relative to both limits.", "anchors": ["src/utilities/piecewise_linear.py:integrate"]}
{"id": "C21", "title": "extend_with_slope changes only the future", "statement": "After extend_with_slope(s, m): f is unchanged at every t <= s and f(t) = f(s) + m (t-s) at every t >= s (s equal to or more than eps after the last break point, m equal to or more than eps away from the last slope); the function stays well-formed in all cases.", "quantifier": "every function, s, m and every t", "why_tests_cant": "unbounded extension histories.", "anchors": ["src/utilities/piecewise_linear.py:extend_with_slope"]}
{"id": "C22", "title": "simplify keeps the function", "statement": "PiecewiseLinear.simplify and RightConstant.simplify return a function equal to the input at every t when dropped break points carry no change, keep only input break points, and keep the first break point and outer slopes.", "quantifier": "every function", "why_tests_cant": "every pattern of droppable break points.", "anchors": ["src/utilities/piecewise_linear.py:simplify", "src/utilities/right_constant.py:simplify"]}
{"id": "C23", "title": "ensure_monotone returns a monotone function above the input", "statement": "ensure_monotone returns a function that is non-decreasing on its whole domain, is >= the input at every break point and equals it if the input was already monotone with non-negative outer slopes.", "quantifier": "every function", "why_tests_cant": "running-maximum over unbounded lists.", "anchors": ["src/utilities/piecewise_linear.py:ensure_monotone"]}
{"id": "C24", "title": "smaller_equals decides pointwise order up to tolerance", "statement": "If f.smaller_equals(g) is true then f(t) <= g(t) + tolerance for every t of the domain of g; if f(t) <= g(t) everywhere then it is true.", "quantifier": "every pair of functions starting at the same point", "why_tests_cant": "merge of unbounded break point lists, and unbounded domains.", "anchors": ["src/utilities/piecewise_linear.py:smaller_equals"]}
{"id": "C25", "title": "FlowRatesCollection answers monotone queries with the rates in force", "statement": "get_values_at_time(t) returns the rates of the last extension at a time <= t ({} before the first), for any interleaving of extend and non-decreasing queries; a query before the already consumed part raises ValueError.", "quantifier": "every finite interleaving of extend and get_values_at_time calls", "why_tests_cant": "the read pointer is destructive state; correctness depends on the whole history.", "anchors": ["src/core/flow_rates_collection.py:get_values_at_time", "src/core/flow_rates_collection.py:extend"]}
{"id": "C26", "title": "per-commodity rates and cumulative amount follow the extensions", "statement": "After any sequence of extensions, the step function of commodity i takes at time t the rate given by the extension in force at t (0 if absent), and accumulative grows with slope equal to the given sum.", "quantifier": "every separated extension sequence, commodity and time", "why_tests_cant": "unbounded history.", "anchors": ["src/core/flow_rates_collection.py:extend"]}
{"id": "C27", "title": "pickling a FlowRatesCollection keeps its answers", "statement": "unpickle(pickle(c)) answers every later sequence of extend and get_values_at_time calls as c would.", "quantifier": "every reachable collection and every later call sequence", "why_tests_cant": "linked list is rebuilt from an unrolled list.", "anchors": ["src/core/flow_rates_collection.py:__getstate__", "src/core/flow_rates_collection.py:__setstate__"]}
{"id": "C28", "title": "extend advances time monotonically and never past the next event or the given bound", "statement": "If T >= phi, extend(new_inflow, T) that returns does not move the time back nor beyond T; unless it reaches T it stops exactly at a recorded outflow change of a reported edge; and no recorded outflow change lies strictly between the old and the new time.", "quantifier": "every reachable flow state and every extend call", "why_tests_cant": "event queues depend on the whole history.", "anchors": ["src/core/dynamic_flow.py:extend"]}
{"id": "C29", "title": "queues never become negative", "statement": "Every queue length is >= 0 at every time up to phi.", "quantifier": "every finite history of extend calls with positive rates whose event times and slopes on an edge are equal or more than eps apart", "why_tests_cant": "arbitrarily long simulations; a missed depletion shows up only in particular schedules.", "anchors": ["src/core/dynamic_flow.py:extend", "src/core/dynamic_flow.py:_process_depletions"]}
{"id": "C30", "title": "queue dynamics follow the fluid queue law", "statement": "The queue of an edge grows with slope inflow - capacity while it is positive or the inflow exceeds the capacity, and stays 0 otherwise; equivalently queue(t) = cumulative inflow(t) - cumulative outflow(t + travel time).", "quantifier": "every history as in C29, every edge, every t <= phi", "why_tests_cant": "as C29", "anchors": ["src/core/dynamic_flow.py:_extend_case_i", "src/core/dynamic_flow.py:_extend_case_ii", "src/core/dynamic_flow.py:_extend_case_iii"]}
{"id": "C31", "title": "outflow never exceeds capacity", "statement": "The total outflow rate of an edge is at most its capacity at every time.", "quantifier": "every history of extend calls", "why_tests_cant": "as C29", "anchors": ["src/core/dynamic_flow.py:extend"]}
{"id": "C32", "title": "first in, first out, and nothing is lost on an edge", "statement": "What has entered an edge up to t has left it exactly by t + travel time + queue(t)/capacity: cumulative outflow there equals cumulative inflow at t; and exit times are non-decreasing in t.", "quantifier": "every history as in C29, every edge, every t <= phi", "why_tests_cant": "as C29", "anchors": ["src/core/dynamic_flow.py:extend"]}
{"id": "C33", "title": "commodities leave an edge in the proportions in which they entered", "statement": "The inflow rates of all commodities at t are one and the same multiple k of their outflow rates at the exit time of t, and k is the rate at which exit times move just after t.", "quantifier": "every history as in C29, every edge, commodity and t", "why_tests_cant": "as C29", "anchors": ["src/core/dynamic_flow.py:_extend_case_ii", "src/core/dynamic_flow.py:_extend_case_iii"]}
{"id": "C34", "title": "extend reports exactly the edges whose outflow changes", "statement": "Between two calls no edge outflow changes strictly before the new phi, and every edge whose outflow rates at the new phi differ from those in force just before is in the returned set.", "quantifier": "every reachable flow state and extend call", "why_tests_cant": "a missed event would silently stop flow; depends on the whole history.", "anchors": ["src/core/dynamic_flow.py:extend"]}
{"id": "C35", "title": "valid simulations never fail an internal check", "statement": "No assertion, KeyError, IndexError or ValueError is raised by extend for valid inputs.", "quantifier": "every history as in C29", "why_tests_cant": "assertions deep in the call tree under all histories; production runs disable them.", "anchors": ["src/core/dynamic_flow.py:extend", "src/core/flow_rates_collection.py:extend", "src/utilities/piecewise_linear.py:extend_with_slope", "src/utilities/right_constant.py:extend"]}
{"id": "C36", "title": "edge loads are non-negative and zero before the start", "statement": "get_edge_loads()[e](t) equals cumulative inflow minus cumulative outflow, is >= 0 for 0 <= t <= phi and 0 for t <= 0.", "quantifier": "every history as in C29", "why_tests_cant": "as C29", "anchors": ["src/core/dynamic_flow.py:get_edge_loads"]}
{"id": "C37", "title": "reachability queries are exact", "statement": "get_reachable_nodes(s) is exactly the set of nodes reachable by a directed path from s, get_nodes_reaching(t) exactly the set of nodes from which t is reachable; both terminate.", "quantifier": "every finite graph including cycles, loops and parallel edges", "why_tests_cant": "all graphs.", "anchors": ["src/core/graph.py:get_reachable_nodes", "src/core/graph.py:get_nodes_reaching"]}
{"id": "C38", "title": "reverse swaps directions and is an involution", "statement": "reverse() exchanges node_from/node_to of every edge and incoming/outgoing of every node; applying it twice restores the graph; get_nodes_reaching on the reversed graph is get_reachable_nodes on the original.", "quantifier": "every graph", "why_tests_cant": "all graphs.", "anchors": ["src/core/graph.py:reverse"]}
{"id": "C39", "title": "reverse_dijkstra returns shortest distances up to the tolerance", "statement": "For non-negative costs reverse_dijkstra terminates; it labels exactly the nodes that can reach the sink inside the given node set; each label is the length of a real path and exceeds no path length by more than eps per edge.", "quantifier": "every finite graph, non-negative cost vector and node set", "why_tests_cant": "all graphs; the eps-relaxation accumulates along paths.", "anchors": ["src/core/dijkstra.py:reverse_dijkstra"]}
{"id": "C40", "title": "dynamic_dijkstra returns earliest arrival times", "statement": "For non-negative costs obeying FIFO, every returned arrival time is the earliest arrival over all walks inside the relevant nodes, the sink is returned whenever reachable, and every labelled node is at most as late as the sink.", "quantifier": "every finite graph, FIFO cost functions, departure time", "why_tests_cant": "all graphs and cost functions.", "anchors": ["src/core/dijkstra.py:dynamic_dijkstra"]}
{"id": "C41", "title": "active edges start shortest routes and exist", "statement": "get_active_edges_from_dijkstra returns only edges out of the source that start a route to the sink every edge of which is tight up to eps, returns all such edges that were explored, and never an empty list when the sink was reached.", "quantifier": "every dijkstra result", "why_tests_cant": "all graphs.", "anchors": ["src/core/dijkstra.py:get_active_edges_from_dijkstra"]}
{"id": "C42", "title": "bellman_ford returns earliest arrival functions", "statement": "bellman_ford terminates and returns, for every node of interest from which the sink can be reached, a function g_v such that g_v(t) is the earliest arrival at the sink when leaving v at t; other nodes get no function.", "quantifier": "every finite graph, non-negative FIFO cost functions, start time and horizon, all departure times", "why_tests_cant": "all graphs, cost functions and departure times; the number of rounds is not bounded in the code.", "anchors": ["src/core/bellman_ford.py:bellman_ford"]}
{"id": "C43", "title": "inflow of a node is split completely and evenly over active edges", "statement": "For every handled node v and commodity i not ending in v with node inflow >= eps, the new edge inflows of i over the outgoing edges of v sum to the outflow of i from incoming edges plus the network inflow of i at v, equal on every active edge and absent elsewhere.", "quantifier": "every network, builder state and time", "why_tests_cant": "all networks and histories.", "anchors": ["src/core/flow_builder.py:_determine_new_inflow"]}
{"id": "C44", "title": "flow of a commodity is routed only on active edges and is absorbed at its sink", "statement": "The builder never puts flow of commodity i on an edge leaving its sink nor on an edge that is not active for i at the routing time; with a constant predictor active edges satisfy cost(e)+dist(head) <= dist(tail)+eps.", "quantifier": "every network and builder state", "why_tests_cant": "all networks and histories.", "anchors": ["src/core/flow_builder.py:_get_active_edges", "src/core/flow_builder.py:_determine_new_inflow"]}
{"id": "C45", "title": "routing happens exactly at multiples of the reroute interval", "statement": "With interval d > 0 the builder recomputes routes exactly when phi reaches 0, d, 2d, ...; the routing time used equals phi, and phi never passes the next routing time.", "quantifier": "every simulation", "why_tests_cant": "event order depends on the whole history.", "anchors": ["src/core/flow_builder.py:build_flow"]}
{"id": "C46", "title": "reroute_interval=None reroutes at every outflow change", "statement": "As the constructor documents, None means rerouting every time some outflow changes.", "quantifier": "every network", "why_tests_cant": "no test uses None.", "anchors": ["src/core/flow_builder.py:__init__", "src/core/flow_builder.py:build_flow"]}
{"id": "C47", "title": "a builder can be run once", "statement": "The second build_flow generator raises RuntimeError on first use and does not touch the flow.", "quantifier": "every builder state", "why_tests_cant": "state machine.", "anchors": ["src/core/flow_builder.py:build_flow"]}
{"id": "C48", "title": "build_with_times returns a flow built at least up to the horizon", "statement": "If build_with_times returns, phi >= horizon and it stopped at the first such step.", "quantifier": "every event sequence", "why_tests_cant": "unbounded loop.", "anchors": ["src/utilities/build_with_times.py:build_with_times"]}
{"id": "C49", "title": "edge ids, capacities and travel times stay aligned", "statement": "After any sequence of add_edge and edge removals, edges[i].id = i and capacity[i], travel_time[i] are those given for that edge; node adjacency lists contain exactly the present edges.", "quantifier": "every operation sequence", "why_tests_cant": "renumbering after deletions.", "anchors": ["src/core/network.py:add_edge", "src/core/network.py:_remove_edge"]}
{"id": "C50", "title": "network clean-up functions work on networks with commodities", "statement": "compress_lonely_nodes, remove_unnecessary_nodes and remove_unnecessary_commodities return normally and remove only what they document.", "quantifier": "every network", "why_tests_cant": "untested code paths.", "anchors": ["src/core/network.py:compress_lonely_nodes", "src/core/network.py:remove_unnecessary_nodes", "src/core/network.py:remove_unnecessary_commodities"]}
{"id": "C51", "title": "pickling a network keeps it", "statement": "A network read back from a pickle has the same edges in the same order with the same attributes, adjacency orders, and commodities.", "quantifier": "every network", "why_tests_cant": "all networks.", "anchors": ["src/core/graph.py:__getstate__", "src/core/graph.py:__setstate__", "src/core/network.py:__getstate__", "src/core/network.py:__setstate__"]}
{"id": "C52", "title": "combining commodities preserves demand", "statement": "combine_commodities_with_same_sink leaves, for every predictor type, sink, source and time, the total inflow rate unchanged and leaves at most one commodity per (predictor, sink).", "quantifier": "every commodity list", "why_tests_cant": "all lists and groupings.", "anchors": ["src/utilities/combine_commodities.py:combine_commodities_with_same_sink"]}
{"id": "C53", "title": "merging commodities for visualisation preserves the flow", "statement": "merge_commodities leaves for every edge and time the total rate unchanged (up to the simplification tolerance of 1000 eps for every recorded break point; exactly, if the total never changes by less than that) and leaves unmerged commodities as they were.", "quantifier": "every flow and commodity set", "why_tests_cant": "all flows.", "anchors": ["src/visualization/to_json.py:merge_commodities"]}
{"id": "C54", "title": "zero and constant predictors", "statement": "ZeroPredictor predicts 0 and ConstantPredictor the current queue length, at every future time, for every edge; both declare is_constant and their predictions are constant.", "quantifier": "every flow, prediction time and future time", "why_tests_cant": "all flows.", "anchors": ["src/core/predictors/zero_predictor.py", "src/core/predictors/constant_predictor.py"]}
{"id": "C55", "title": "LinearPredictor never predicts a negative queue", "statement": "Every predicted queue is >= 0 at all times >= the prediction time, starts at the current queue length and follows the current slope until horizon or depletion.", "quantifier": "every flow with non-negative queues and every prediction time", "why_tests_cant": "fails only when the prediction time hits a depletion.", "anchors": ["src/core/predictors/linear_predictor.py"]}
{"id": "C56", "title": "RegularizedLinearPredictor never predicts a negative queue", "statement": "As C55 with the average slope over the last delta.", "quantifier": "every flow with non-negative queues and every prediction time", "why_tests_cant": "as C55", "anchors": ["src/core/predictors/reg_linear_predictor.py"]}
{"id": "C57", "title": "machine-learning predictions are made physical", "statement": "Whatever the model returns, predicted queues start at the current queue, are >= 0 and never drain faster than capacity; predict and batch_predict give the same prediction.", "quantifier": "every model output, flow, masks and prediction time", "why_tests_cant": "the model is an arbitrary function.", "anchors": ["src/core/predictors/sk_full_net_predictor.py", "src/core/predictors/sk_neighborhood_predictor.py", "src/core/predictors/tf_full_net_predictor.py", "src/core/predictors/tf_neighborhood_predictor.py"]}
{"id": "C58", "title": "predicted costs obey FIFO", "statement": "If a predicted queue never drains faster than capacity then leaving later on that edge never means arriving earlier, i.e. t + cost(t) is non-decreasing; and costs are at least the travel time if the predicted queue is >= 0.", "quantifier": "every prediction, capacity > 0, t <= t2", "why_tests_cant": "all functions.", "anchors": ["src/core/flow_builder.py:_get_costs", "src/eval/predicted_delay.py:costs_from_preds"]}
{"id": "C59", "title": "predictors do not look into the future", "statement": "predict(t, flow) depends only on the flow up to time t.", "quantifier": "every pair of flows agreeing up to t", "why_tests_cant": "relational property over two executions.", "anchors": ["src/core/predictors/constant_predictor.py", "src/core/predictors/linear_predictor.py", "src/core/predictors/reg_linear_predictor.py", "src/core/predictors/linear_regression_predictor.py", "src/core/predictors/per_edge_linear_regression_predictor.py", "src/core/predictors/full_net_linear_regression_predictor.py"]}
{"id": "C60", "title": "neighbouring edges are those within the distance", "statement": "get_neighboring_edges_forward/backward/undirected(edge, d) return exactly the edges reachable within d steps in the respective direction, plus the edge itself.", "quantifier": "every graph, edge and distance", "why_tests_cant": "all graphs and distances.", "anchors": ["src/ml/neighboring_edges.py"]}
{"id": "C61", "title": "training samples are aligned in time", "statement": "Sample k of a flow contains the queue and load values at the past_timesteps times phi-(p-1)D,...,phi and as target those at phi+D,...,phi+fD, with phi = k*reroute_interval; all indices are in range. A data set is made exactly if there are files and sampled times and every file has one value per road and sampled time; otherwise ValueError is raised.", "quantifier": "all interval, past, future and horizon settings and every sample index", "why_tests_cant": "index arithmetic over all settings.", "anchors": ["src/ml/QueueAndEdgeLoadsDataset.py:__getitem__", "src/ml/generate_queues.py:save_queues_and_edge_loads_for_flow"]}
{"id": "C62", "title": "is_positive_during is exact", "statement": "is_positive_during(f, a, b) is true iff f(t) > eps for some t in [a,b).", "quantifier": "every step function and a < b", "why_tests_cant": "rank arithmetic in all relative positions.", "anchors": ["src/eval/predicted_delay.py:is_positive_during"]}
{"id": "C63", "title": "predicted delays are non-negative and the reported maximum dominates them", "statement": "get_pred_edge_delay returns a value >= 0 for FIFO costs, and the reported delay of a commodity is >= every measured delay and is 0 or attained at the reported witness.", "quantifier": "every graph, costs and measurement grid", "why_tests_cant": "all graphs.", "anchors": ["src/eval/predicted_delay.py"]}
{"id": "C64", "title": "avg_travel_time is total time spent divided by demand", "statement": "avg_travel_time(i, h) = (integral over [0,h] of (cumulative inflow - cumulative arrivals) of commodity i) / total inflow up to h.", "quantifier": "every flow and horizon", "why_tests_cant": "all flows.", "anchors": ["src/core/dynamic_flow.py:avg_travel_time"]}
{"id": "C65", "title": "at most one process works on a locked task", "statement": "Among any number of processes calling with_file_lock on the same path, at most one runs the handler at a time and a finished task is not started again.", "quantifier": "every interleaving of any number of processes", "why_tests_cant": "race conditions.", "anchors": ["src/utilities/file_lock.py:with_file_lock"]}
{"id": "C66", "title": "the lock is released when the handler ends or fails", "statement": "After with_file_lock returns or raises, the lock file it created is gone, also if the handler raises; a call that found a lock or finished outputs does not touch the file system.", "quantifier": "every handler outcome", "why_tests_cant": "exception paths.", "anchors": ["src/utilities/file_lock.py:with_file_lock"]}
{"id": "C67", "title": "the recorded inflow is what was given", "statement": "At every time t >= 0 the recorded inflow rate of every commodity on an edge is that of the last extend call not later than t that names the edge, and the cumulative inflow is the total given up to t.", "quantifier": "every history as in C29, every edge, commodity and time", "why_tests_cant": "a skipped or misplaced extension shows up only after particular histories.", "anchors": ["src/core/dynamic_flow.py:extend", "src/core/flow_rates_collection.py:extend"]}
{"id": "C68", "title": "a collection made from functions answers with their values", "statement": "FlowRatesCollection(functions_dict) answers get_values_at_time at non-decreasing times >= 0 with the values of the functions; it raises AssertionError when no function starts at 0.", "quantifier": "every dict of non-negative step functions and every non-decreasing list of query times", "why_tests_cant": "all dicts and query sequences.", "anchors": ["src/core/flow_rates_collection.py:__init__", "src/core/flow_rates_collection.py:get_values_at_time"]}
{"id": "C69", "title": "the past is never rewritten", "statement": "Further extend calls never change anything the flow has recorded up to its current time: recorded inflow and outflow rates, cumulative functions and queue lengths at times <= phi stay what they were.", "quantifier": "every history as in C29, every continuation of it, every edge, commodity and time <= phi", "why_tests_cant": "a late extension that reaches back shows up only for particular histories.", "anchors": ["src/core/dynamic_flow.py:extend", "src/core/flow_rates_collection.py:extend"]}
{"id": "C70", "title": "LinearRegressionPredictor predicts physical queues", "statement": "The predicted queue starts at the current queue, is never negative and never drains faster than the capacity.", "quantifier": "every reachable flow and prediction time", "why_tests_cant": "all flows.", "anchors": ["src/core/predictors/linear_regression_predictor.py:predict"]}
{"id": "C71", "title": "PerEdgeLinearRegressionPredictor predicts physical queues", "statement": "Whatever the trained models return, the predicted queues start at the current queue, are never negative and never drain faster than the capacity; predict returns when the models answer with future_timesteps numbers.", "quantifier": "every reachable flow, prediction time, model output and masks", "why_tests_cant": "the model is an arbitrary function.", "anchors": ["src/core/predictors/per_edge_linear_regression_predictor.py:predict"]}
{"id": "C72", "title": "each commodity is carried through an edge", "statement": "On every edge and for every commodity, the amount that has left by t + travel time + queue(t)/capacity equals the amount that has entered by t, for every t up to the current time; nothing leaves before the travel time has passed, and never has more left than entered.", "quantifier": "every history as in C29, every edge, commodity and time", "why_tests_cant": "the outflow mixes of all past inflow pieces must add up for every history.", "anchors": ["src/core/dynamic_flow.py:extend"]}
{"id": "C73", "title": "no flow is made or lost in the network", "statement": "For every flow built by build_flow, commodity and time up to phi: what has arrived at the sink plus what is on the edges is at most what has entered the network, and equal to it when no source lies at the sink and no node inflow is positive but below the tolerance.", "quantifier": "every network, predictor assignment, number of rounds, commodity and time", "why_tests_cant": "a global balance over all edges, nodes and rounds.", "anchors": ["src/core/flow_builder.py:FlowBuilder", "src/core/dynamic_flow.py:extend"]}
{"id": "C74", "title": "a model that has learned the data predicts the true queues", "statement": "At every sampled time the full-net predictor asks its model about exactly the input of the training sample of that flow and time; if the model answers with the sample's target, the predicted queues of all edges equal the true queues at the sampled future times.", "quantifier": "all flows, settings, masks, samples and models", "why_tests_cant": "index arithmetic of generation, dataset and predictor must agree for all settings.", "anchors": ["src/ml/QueueAndEdgeLoadsDataset.py:__getitem__", "src/core/predictors/sk_full_net_predictor.py:predict", "src/core/predictors/tf_full_net_predictor.py:predict"]}
{"id": "C75", "title": "neighbourhood models that have learned the data predict the true queues", "statement": "The same for the neighbourhood predictors with one model per edge, each trained with the additional masks of its edge.", "quantifier": "all flows, settings, masks, neighbourhoods, samples and models", "why_tests_cant": "as C74.", "anchors": ["src/ml/SKNeighborhood.py", "src/core/predictors/sk_neighborhood_predictor.py:predict", "src/core/predictors/tf_neighborhood_predictor.py:predict"]}
{"id": "C76", "title": "wait_for_locks waits exactly for the locks", "statement": "wait_for_locks(dir) returns only at a time when dir contains no lock file; if from some time on there are none it returns, at most 30 seconds later; while there are some it does not return.", "quantifier": "every history of the directory contents", "why_tests_cant": "timing and history dependent.", "anchors": ["src/utilities/file_lock.py:wait_for_locks"]}
{"id": "C77", "title": "the optimal average travel time is the average of the earliest arrivals", "statement": "calculate_optimal_average_travel_time returns, for a commodity with one source, the average over all departures in [0, min(inflow_horizon, horizon)] of the time until the earliest arrival at the sink in the given flow, where those who cannot arrive by the horizon count as arriving at the horizon; other commodities are rejected.", "quantifier": "every network, flow, inflow horizon and horizon", "why_tests_cant": "the average is an integral of a function that depends on the whole flow.", "anchors": ["src/eval/evaluate.py:calculate_optimal_average_travel_time"]}
{"id": "C78", "title": "the mean absolute error compares predictions with the queues of the same moments", "statement": "evaluate_mean_absolute_error returns for every predictor the mean of |predicted queue - true queue| over all edges, all prediction times i * reroute_interval up to horizon - (future_timesteps + 1) * prediction_interval and all times prediction_interval, ..., future_timesteps * prediction_interval later, both taken at the same moment, whenever prediction_interval is a multiple of reroute_interval; it is 0 exactly for right predictions, and raises ValueError when there is no prediction time or the flow is too short.", "quantifier": "every flow, predictors, intervals, horizon and number of steps", "why_tests_cant": "index arithmetic (rounded strides against times) for all settings.", "anchors": ["src/eval/evaluate.py:evaluate_mean_absolute_error", "src/core/predictor.py:batch_predict"]}
{"id": "C79", "title": "an evaluation run compares the predictors on equal terms", "statement": "evaluate_single_run, on a valid network whose focused commodity has one source, adds one commodity per predictor with the same source and sink and the same demand: with split=True the focused commodity is replaced and each new one gets an equal share of its inflow, so that the total is unchanged; otherwise each gets max(min capacity / 256, first rate / 16 / number of predictors) until inflow_horizon. All other demand is unchanged per predictor and sink, the returned indices are those of the new commodities, and the network is valid again. A focused commodity with no or several sources is refused with ValueError.", "quantifier": "every valid network, list of predictors, focused commodity, order of set iteration and inflow horizon", "why_tests_cant": "all networks, inflow functions and iteration orders.", "anchors": ["src/eval/evaluate.py:evaluate_single_run", "src/utilities/combine_commodities.py"]}
{"id": "C80", "title": "the picture of an evaluation shows the evaluated commodities", "statement": "eval_network_demand merges the original commodities into one for the visualisation and keeps the rates of every evaluated commodity.", "quantifier": "every valid network, list of predictors, with and without split", "why_tests_cant": "all networks and flows.", "anchors": ["src/eval/evaluate_network.py:eval_network_demand", "src/core/dynamic_flow.py:merge_commodities", "src/eval/evaluate.py:evaluate_single_run"]}
{"id": "C81", "title": "building a flow ends", "statement": "On a valid network with positive travel times every round of build_flow moves the time strictly forward, and after finitely many rounds any given time is reached or a round has raised, whatever the predictors predict: event times cannot accumulate. build_with_times therefore returns a flow that reaches the horizon.", "quantifier": "every valid network with positive travel times, predictors, rerouting interval, horizon and order of set iteration", "why_tests_cant": "termination; infinitely many events in finite time cannot be excluded by running the program.", "anchors": ["src/core/flow_builder.py:build_flow", "src/core/dynamic_flow.py:extend", "src/utilities/build_with_times.py:build_with_times"]}
{"id": "C82", "title": "FullNetLinearRegressionPredictor asks its model about the masked edges", "statement": "predict feeds the trained model with the time and, for each edge of the mask, its queue and load at the last past_timesteps time steps; whatever the model answers, the predicted queues of the edges of the mask start at the current queue, are never negative and never drain faster than the capacity, and the other edges get 0. Predictions for another time than flow.phi raise ValueError.", "quantifier": "every reachable flow, mask, trained model and setting", "why_tests_cant": "the model is an arbitrary function and the arrays are rearranged silently; wrong inputs give plausible numbers.", "anchors": ["src/core/predictors/full_net_linear_regression_predictor.py:FullNetLinearRegressionPredictor.predict"]}
{"id": "C83", "title": "ExpandedLinearRegressionPredictor predicts", "statement": "The predictors made by from_weka_models and from_scikit_model return, for every edge, a function that starts at the current queue and then follows the values of the trained models.", "quantifier": "every reachable flow, prediction time, trained model and number of edges", "why_tests_cant": "the arguments of a closure and the lengths of lists are only checked at run time, and the class is used in a scenario that is never tested.", "anchors": ["src/core/predictors/expanded_linear_regression_predictor.py:ExpandedLinearRegressionPredictor.from_weka_models", "src/core/predictors/expanded_linear_regression_predictor.py:ExpandedLinearRegressionPredictor.from_scikit_model"]}
{"id": "C84", "title": "random demands are constant up to the inflow horizon and non-negative", "statement": "generate_network_demands gives every source of every commodity one inflow: the number drawn for it, or 0 if that is negative, up to the inflow horizon and 0 afterwards (for ever if the horizon is infinite). The mean is the first rate of the inflow before, the deviation the given one or half of the smallest capacity. Sources, sinks, predictors and the graph do not change and the network is valid for the flow builder.", "quantifier": "every valid network, random generator, inflow horizon and sigma", "why_tests_cant": "the drawn numbers are arbitrary and sources can be shared between commodities.", "anchors": ["src/ml/build_test_flows.py:generate_network_demands"]}
{"id": "C85", "title": "every training flow is built for the drawn demands and gets its own file", "statement": "build_flows builds for every index a flow up to the horizon: total demand per sink and source is the drawn one, there is one commodity per sink, and the flow is the one FlowBuilder makes with ConstantPredictor. The file names of different flows differ and sort in the order of the flows.", "quantifier": "every valid network with positive travel times, random generator, horizons, sigma, rerouting interval, order of set iteration, number of flows and index", "why_tests_cant": "composition of four modules with arbitrary random numbers; termination.", "anchors": ["src/ml/build_test_flows.py:build_flows", "src/ml/build_test_flows.py:generate_network_demands", "src/utilities/combine_commodities.py:combine_commodities_with_same_sink", "src/utilities/build_with_times.py:build_with_times"]}
{"id": "C86", "title": "evaluation demands are not those of the training data", "statement": "The flows on which predictors are evaluated are generated with other seeds than the flows the models were trained on, so that their demands are drawn independently.", "quantifier": "every network, random generator, horizon, sigma and index", "why_tests_cant": "numbers of two runs look equally random; that they are the same needs the seeds to be followed.", "anchors": ["src/ml/build_test_flows.py:build_flows", "src/eval/evaluate_network.py:eval_network_demand"]}
{"id": "C87", "title": "the reported slowdowns are averages over all runs", "statement": "The average slowdown saved for a predictor is the mean, over all evaluated runs, of its average travel time divided by the optimal one, minus 1, and is never negative; the printed mean travel times are means over all runs.", "quantifier": "every number of predictors and list of runs", "why_tests_cant": "which runs are dropped depends on equality of computed numbers.", "anchors": ["src/eval/evaluate_network.py:eval_jsons_to_avg_slowdowns", "src/eval/evaluate_network.py:eval_jsons_to_avg_eps", "src/eval/evaluate_network.py:generate_slowdown_boxplot"]}
{"id": "C88", "title": "an imported TNTP scenario has the roads and trips of its files and is a valid input", "statement": "import_network makes one edge per row with its travel time and capacity, in order. add_commodities reads every trip of the file, whatever header, blanks, semicolons and line breaks it has, and adds one commodity per trip, in order, with the demand of the trip up to the inflow horizon. Unknown places are refused. If capacities are positive, times and demands not negative and destinations reachable, the network is a valid input of the flow builder.", "quantifier": "every table of edges, every file in the format of trips, every inflow horizon", "why_tests_cant": "files are arbitrary texts; splitting on Origin, semicolons, colons and line breaks must be unambiguous for all of them.", "anchors": ["src/importer/tntp_importer.py:add_commodities", "src/importer/tntp_importer.py:import_network", "src/importer/sioux_falls_importer.py:add_od_pairs", "src/scenarios/scenario_utils.py:get_demand_with_inflow_horizon"]}
{"id": "C89", "title": "an imported CSV scenario has the arcs and demands of its files", "statement": "network_from_csv makes one edge per row that is no loop, with travel time length / speed, capacity lanes * speed and speed 20 if none is given; add_demands_to_network adds one commodity for every row whose sink can be reached from its source.", "quantifier": "every table of arcs and of demands, seed and flags", "why_tests_cant": "the defect hides behind the reachability of the rows.", "anchors": ["src/importer/csv_importer.py:network_from_csv", "src/importer/csv_importer.py:add_demands_to_network"]}
{"id": "C90", "title": "generated commodities can travel and are returned", "statement": "_generate_commodities fills the network up to the given number of commodities with drawn trips, each with a sink that can be reached from a different source, and returns them.", "quantifier": "every network, number, inflow horizon and sequence of random draws", "why_tests_cant": "random draws; the loop may be unlucky any number of times.", "anchors": ["src/importer/sioux_falls_importer.py:_generate_commodities"]}
{"id": "C91", "title": "the evaluation of a network evaluates every commodity", "statement": "eval_network_for_commodities, started by any number of processes one after the other, evaluates every commodity once, removes its locks and returns.", "quantifier": "every network with commodities, every content of the output directory, with and without random commodities", "why_tests_cant": "how files and locks develop over a history of processes.", "anchors": ["src/eval/evaluate_network.py:eval_network_for_commodities", "src/core/network.py:remove_unnecessary_commodities", "src/utilities/file_lock.py:wait_for_locks"]}
{"id": "C92", "title": "nobody arrives earlier than possible", "statement": "In every flow that FlowBuilder builds: if nobody who leaves the sources of a commodity at given times can be at its sink before time T, whatever way is taken through the network with the travel times and queues of the flow, then at most as much of the commodity arrives at the sink up to T as entered at the sources up to those times.", "quantifier": "every valid network, predictors, rerouting interval and number of rounds, every commodity, departure times and T up to the time built", "why_tests_cant": "a statement about all walks through the network and all flow of a commodity; the flow is only known after the simulation.", "anchors": ["src/core/dynamic_flow.py:extend", "src/core/flow_builder.py:_determine_new_inflow"]}
{"id": "C93", "title": "the reported optimal travel time is a lower bound, slowdowns are not negative", "statement": "For a commodity with one source and a constant inflow, calculate_optimal_average_travel_time on the built flow returns at most avg_travel_time of that commodity: nobody travels faster than the reported optimum on average.", "quantifier": "every valid network, predictors and rerouting interval, every horizon up to which the flow is built, every commodity with one source and constant inflow", "why_tests_cant": "compares two integrals over the whole flow, computed by different algorithms.", "anchors": ["src/eval/evaluate.py:calculate_optimal_average_travel_time", "src/core/bellman_ford.py:bellman_ford", "src/core/dynamic_flow.py:avg_travel_time"]}
{"id": "C94", "title": "a worker process goes on only when all files are made", "statement": "Several processes started with the same command share the work of build_flows, generate_queues_and_edge_loads, eval_network and the training functions through with_file_lock and wait_for_locks: when one of them goes on behind wait_for_locks, all outputs of all its tasks exist, whoever made them.", "quantifier": "any number of processes, every interleaving of their system calls, every point at which processes are killed, every contents of the disk at the beginning", "why_tests_cant": "a statement about all interleavings of processes.", "anchors": ["src/utilities/file_lock.py:wait_for_locks", "src/utilities/file_lock.py:with_file_lock", "src/ml/build_test_flows.py:build_flows", "src/ml/SKNeighborhood.py:train_sk_neighborhood_model", "src/eval/evaluate_network.py:eval_network"]}
{"id": "C95", "title": "get_active_edges returns the edges that start fastest trips", "statement": "get_active_edges(costs, theta, source, sink, relevant_nodes, graph, strong_fifo) returns exactly the edges out of the source from which the sink can be reached as early as possible when leaving at theta, and leaves the graph as it was.", "quantifier": "every graph, FIFO costs, departure time, source and sink, both values of strong_fifo", "why_tests_cant": "a statement about all walks with time-dependent costs.", "anchors": ["src/core/active_edges.py:get_active_edges", "src/core/active_edges.py:backward_search"]}
{"id": "C96", "title": "columns of training rows hold the queues of the labelled moments", "statement": "expanded_queues_from_flows and expanded_queues_from_flows_per_edge write one row for every flow, sampled time (and busy edge); the column labelled t holds the queue t steps after the sampled time, before it for negative t.", "quantifier": "every graph, all flows, step lengths, numbers of past and future steps and sample steps", "why_tests_cant": "a statement about all flows, times and columns.", "anchors": ["src/ml/generate_queues.py:expanded_queues_from_flows", "src/ml/generate_queues.py:expanded_queues_from_flows_per_edge"]}
{"id": "C97", "title": "every row of the training data with edge loads is written", "statement": "generate_training_data_with_edge_loads saves for every flow an array with one row for each prediction time 0, reroute_interval, ..., holding queues and loads of the past and queues of the future of that time.", "quantifier": "every flow, horizon, rerouting interval and prediction interval", "why_tests_cant": "a statement about all flows and horizons.", "anchors": ["src/ml/generate_queues.py:generate_training_data_with_edge_loads"]}
{"id": "C98", "title": "training data is made from the files of build_flows", "statement": "The generators of training data read the flow files that build_flows has written; expanded_queues_from_flows then writes its table and removes its lock, later calls leave the table as it is.", "quantifier": "all flow files, parameters and sequences of calls", "why_tests_cant": "a statement about all later runs after a failure.", "anchors": ["src/ml/generate_queues.py:expanded_queues_from_flows", "src/ml/generate_queues.py:generate_queues", "src/ml/build_test_flows.py:build_flows"]}
{"id": "C99", "title": "an evaluation run reports on the flow that it built", "statement": "evaluate_single_run builds a flow at least up to the horizon for the network with one new commodity per predictor; it reports the average travel times of these commodities in the order of the predictors, then the optimal average travel time (which is at most each of them), the errors in the same order, and one predicted delay per commodity. With the stored flow of an earlier run it reports the same.", "quantifier": "every valid network and focused commodity, with or without split, all predictors, intervals and horizons", "why_tests_cant": "composes all parts of the program over all inputs.", "anchors": ["src/eval/evaluate.py:evaluate_single_run", "src/utilities/build_with_times.py:build_with_times"]}
{"id": "C100", "title": "an interrupted evaluation can be resumed", "statement": "However often eval_network_demand was stopped by exceptions or kills, calling it again (after removing stale lock files) completes the flow, the report and the visualisation of each evaluation, and the three belong to one and the same flow, as if the evaluation had never been stopped.", "quantifier": "every number of attempts, each stopped at any point or not at all; every network, all predictors", "why_tests_cant": "all crash points and sequences of crashes.", "anchors": ["src/eval/evaluate_network.py:eval_network_demand", "src/eval/evaluate.py:evaluate_single_run", "src/utilities/file_lock.py:with_file_lock", "src/visualization/to_json.py:to_visualization_json"]}
{"id": "C101", "title": "interrupted generation of training data can be resumed", "statement": "However often build_flows (with a callback that saves queues and edge loads) was stopped, calling it again and then generate_queues_and_edge_loads completes the sample of every flow, and the sample is that of the saved flow.", "quantifier": "every number of attempts, each stopped at any point or not at all", "why_tests_cant": "all crash points and sequences of crashes.", "anchors": ["src/ml/build_test_flows.py:build_flows", "src/ml/generate_queues.py:generate_queues_and_edge_loads", "src/scenarios/anaheim_multi_com_scenario.py:on_flow_computed", "src/utilities/file_lock.py:with_file_lock"]}
{"id": "C102", "title": "labels in the plots belong to the data", "statement": "In the box plots of slowdowns and errors and in the comparison of errors and performance, each label and colour of visualization_config goes with the numbers of its predictor: slowdowns T_i / T_OPT - 1, errors, and pairs of error and excess travel time, over the evaluated runs.", "quantifier": "every list of predictors, configuration and list of runs", "why_tests_cant": "all runs and configurations.", "anchors": ["src/eval/evaluate_network.py:generate_slowdown_boxplot", "src/eval/evaluate_network.py:generate_mae_boxplot", "src/eval/evaluate_network.py:compare_mae_with_perf", "src/tokyo/tokyo_scenario.py:run_scenario"]}
{"id": "C103", "title": "a trained model is used with the masks of its training data", "statement": "The predictor that a training function returns, in the process that trained the model or in any other one that runs the same command, asks a model that was learned from the dataset whose input and output masks the predictor uses; at every sampled time of a training flow it asks about the very row the model was trained with.", "quantifier": "every list of samples, setting, learning algorithm, number of processes and history of trainings that were stopped anywhere", "why_tests_cant": "all histories and datasets.", "anchors": ["src/ml/SKFullNetworkModel.py:train_sk_full_net_model", "src/ml/TFFullNetworkModel.py:train_tf_full_net_model", "src/ml/SKNeighborhood.py:train_sk_neighborhood_model", "src/ml/TFNeighborhood.py:train_tf_neighborhood_model", "src/ml/QueueAndEdgeLoadsDataset.py:QueueAndEdgeLoadDataset.load_mask", "src/core/predictors/sk_full_net_predictor.py:SKFullNetPredictor.from_model", "src/core/predictors/sk_neighborhood_predictor.py:SKNeighborhoodPredictor.from_models"]}
{"id": "C104", "title": "interrupted training of models can be resumed", "statement": "After a training that raised or was stopped, the next attempt that does not raise leaves a complete model.", "quantifier": "every state of the files, setting, dataset and learning algorithm", "why_tests_cant": "all crash points and later histories.", "anchors": ["src/ml/SKFullNetworkModel.py:train_sk_full_net_model", "src/ml/TFFullNetworkModel.py:train_tf_full_net_model", "src/ml/SKNeighborhood.py:train_sk_neighborhood_model", "src/ml/TFNeighborhood.py:train_tf_neighborhood_model", "src/utilities/file_lock.py:with_file_lock"]}
{"id": "C105", "title": "the workers of a scenario share the network file", "statement": "A worker of a scenario that reads the network file is given the network of the scenario, whenever the other workers are started, write the file or are killed.", "quantifier": "every number of workers, network, sizes of the pieces in which Python writes and reads, and interleaving of the system calls", "why_tests_cant": "all schedules and crash points.", "anchors": ["src/core/network.py:Network.to_file", "src/core/network.py:Network.from_file", "src/scenarios/nguyen_scenario.py:run_scenario", "src/scenarios/sioux_falls_scenario.py:run_scenario", "src/ml/build_test_flows.py:build_flows", "src/eval/evaluate_network.py:eval_network_demand"]}
{"id": "C106", "title": "what the study of the sample network writes", "statement": "The study of the sample network writes, if it ends, one curve per predictor and one for the optimum over the demands 0.25, 0.5, ..., 30: each point is the average travel time of the commodity of that predictor (or the optimum) in the flow built for that demand, under the label and colour of its predictor, and the regrets are divided by the optimum of the same run. If one run raises, nothing is written.", "quantifier": "every tuple of predictors, order of sets, demand of the study and outcome of the runs", "why_tests_cant": "the flows depend on arbitrary predictors; every failing run must be covered.", "anchors": ["src/eval/evaluate_sample.py:eval_sample", "src/eval/evaluate_sample.py:sample_from_file_to_tikz", "src/eval/evaluate_sample.py:sample_regrets_from_file_to_tikz", "src/test/sample_network.py:build_sample_network", "src/eval/evaluate.py:evaluate_single_run"]}
{"id": "C107", "title": "the order of dict entries does not matter, nor does looking", "statement": "If a series of calls of extend on a new DynamicFlow returns, then so does every series with the same times and equal dicts, whatever the order of their entries and of the entries of the inner dicts, and whatever outflow rates are read in between: the flows then have the same time, rates, cumulative flows and queues on all edges, the same outflow rates are read off them, and a further call of extend reports the same set of changed edges.", "quantifier": "every network, series of calls, order of entries and readings in between", "why_tests_cant": "the number of orders is exponential, and the event queues store ties in different orders: all of them must lead to one record.", "anchors": ["src/core/dynamic_flow.py:DynamicFlow.extend", "src/core/flow_rates_collection.py:FlowRatesCollection.extend", "src/core/flow_rates_collection.py:FlowRatesCollection.get_values_at_time", "src/utilities/queues.py:PriorityQueue"]}
{"id": "C108", "title": "edges are independent", "statement": "What a flow records about an edge depends on nothing but the capacity and travel time of this edge and the inflows given to it: two series of calls of extend, on new flows of any two networks, that return, end at the same time and give the edge equal inflows at the same times leave the same rates, cumulative flows and queue of the edge, and the same outflow rates are read off it, whatever happened on other edges, whichever events the time stopped at, and whatever was read.", "quantifier": "every pair of networks and of series of calls that return, and every edge", "why_tests_cant": "all events of all other edges interleave with those of the edge; no test covers every interleaving.", "anchors": ["src/core/dynamic_flow.py:DynamicFlow.extend", "src/core/dynamic_flow.py:DynamicFlow._process_depletions", "src/core/dynamic_flow.py:DepletionQueue"]}
{"id": "C109", "title": "the flow that is built does not depend on the order of sets", "statement": "If building a flow touches no tolerance with one order of iterating over sets (the nodes to handle, the changed edges, the active edges), then building the same network with the same predictors in any other order runs as well, touches no tolerance either, and after each number of rounds leaves the same time, rates, cumulative flows and queues on all edges, the same stored predictions, the same nodes waiting to be handled and the same time of the next routing. The predictors of the project predict the same for flows with the same record.", "quantifier": "every valid network, every family of predictors that look only at the record, every number of rounds and every two orders of iteration", "why_tests_cant": "Python orders sets by hash and insertion history; a test sees one order, and the caches for commodities with a shared predictor fill in the order of iteration.", "anchors": ["src/core/flow_builder.py:FlowBuilder.build_flow", "src/core/flow_builder.py:FlowBuilder._determine_new_inflow", "src/core/flow_builder.py:FlowBuilder._get_active_edges"]}
{"id": "C110", "title": "caches of functions and lists shared between them cannot be seen", "statement": "For every series of calls on piecewise linear functions (constructor, methods, compose, extend_with_slope, and the in-place writes of src/core/dynamic_flow.py), in which no function is used after another function with the same list of times was extended, no result of compose is extended, a queue is set to 0 only while it falls, and loads start with value and slope 0: each call returns the number or raises the exception that plain values without caches and shared lists give, whatever the size of the caches. Flows meet the last two conditions. get_edge_loads returns what it would without its cache, for every series of calls on every number of flows.", "quantifier": "every series of calls of every length on any number of functions, every size of the caches, every body of a method", "why_tests_cant": "The caches are global to the class and keyed by identity; whether a stale entry is met depends on the whole history of calls, and tests use short ones.", "anchors": ["src/utilities/piecewise_linear.py:PiecewiseLinear.gradient", "src/utilities/piecewise_linear.py:PiecewiseLinear._eval_with_rank", "src/utilities/piecewise_linear.py:PiecewiseLinear.compose", "src/utilities/piecewise_linear.py:PiecewiseLinear.extend_with_slope", "src/core/dynamic_flow.py:DynamicFlow.get_edge_loads", "src/core/dynamic_flow.py:DynamicFlow._process_depletions"]}
{"id": "C111", "title": "builders in one process do not disturb each other", "statement": "If several flow builders are used in one process and the calls of next on their generators alternate in any way, each generator yields exactly the flows it yields when it is the only one in use, although every routing of one builder empties the cache of predicted costs of all of them. This holds for builders of valid inputs with predictors that only use the past; the other builders may be in any state, use any predictors and raise.", "quantifier": "every number of builders, every schedule of calls of next, every state of the other builders", "why_tests_cant": "The cache is global to the class; whether costs are computed again in the middle of a routing period depends on how the rounds of different builders alternate.", "anchors": ["src/core/flow_builder.py:FlowBuilder._get_costs", "src/core/flow_builder.py:FlowBuilder.build_flow", "src/core/predictors/full_net_linear_regression_predictor.py"]}
{"id": "C112", "title": "the flow builder does not look ahead", "statement": "If two networks differ only in what their network inflow rates are from a time T on (the steps and values before T, the sinks, source nodes, predictors, edges, capacities and travel times are the same) and both are built with the same predictors and the same routing interval, then at all times up to T that both flows have reached the recorded edge inflow and outflow rates, cumulative flows and queues are the same, however many rounds each builder has run and in whatever order sets are iterated.", "quantifier": "every pair of valid networks with the same demands before T, every T, all numbers of rounds, all set orders, all predictors that see the flow only", "why_tests_cant": "Demand changes after T are in the event queue from the start and bound how far each round extends the flow; that they leave no trace before T has to hold for every demand and every number of rounds.", "anchors": ["src/core/flow_builder.py:FlowBuilder.build_flow", "src/core/dynamic_flow.py:DynamicFlow.extend"]}
{"id": "C113", "title": "the order in which the commodities are listed does not matter", "statement": "If the same commodities are listed in another order in a network, the flow that FlowBuilder builds is the same up to the numbers of the commodities: after the same number of rounds the time, the cumulative flows and queues of all edges, the predictions in use and the nodes to be handled are the same, and the rates that the one flow has for a commodity the other has for it under its new number. No predictor of the project asks for the rates of single commodities.", "quantifier": "every valid network, every arrangement of its commodities, all numbers of rounds, all set orders, all predictors that do not ask for single commodities", "why_tests_cant": "Commodity numbers are the keys of every dict of rates, of the event queue and of the caches of active edges; that they leave no trace has to hold for every arrangement and history.", "anchors": ["src/core/flow_builder.py:FlowBuilder.build_flow", "src/core/dynamic_flow.py:DynamicFlow.extend", "src/core/flow_rates_collection.py:FlowRatesCollection"]}
{"id": "C114", "title": "commodities with the same demand are treated the same", "statement": "If two commodities of a network have the same sources with the same network inflow rates, the same sink and the same predictor, then in every flow built by FlowBuilder they have the same recorded inflow and outflow rates, as functions with the same break points and values, on all edges.", "quantifier": "every valid network with two equal commodities, all numbers of rounds, all set orders, all predictors that do not ask for single commodities", "why_tests_cant": "The commodities are handled one after the other in the order of a set, and the first one fills the cache of active edges for the others; that none has an advantage has to hold for every history.", "anchors": ["src/core/flow_builder.py:FlowBuilder._determine_new_inflow", "src/core/flow_builder.py:FlowBuilder._get_active_edges"]}
{"id": "C115", "title": "a visualisation file tells what the picture is", "statement": "to_visualization_json writes its file, as a text that follows the JSON grammar, whenever all nodes have positions and all commodities colours; and two files with the same text show the same nodes and positions, edges, capacities and travel times, colours, and flows with the same rates of all commodities and the same queues on all edges, with break points, values and domains.", "quantifier": "every valid network, all positions and colours, all flows; the text in the file character by character", "why_tests_cant": "Names of colours may hold quotes, line ends or letters outside ASCII, functions may have infinite domains, which JSON cannot express as numbers, and keys that are numbers become strings: that nothing of this makes texts invalid or lets different flows look the same has to hold for all of them.", "anchors": ["src/visualization/to_json.py:to_visualization_json", "src/utilities/json_encoder.py:JSONEncoder", "src/utilities/right_constant.py:RightConstant.__json__", "src/utilities/piecewise_linear.py:PiecewiseLinear.__json__"]}
{"id": "C116", "title": "functions and flows can be written as JSON", "statement": "JSONEncoder writes right-constant and piecewise linear functions, and the dicts of inflows, outflows and queues that the slide examples hand to it, as JSON texts from which the functions can be told.", "quantifier": "all functions, all flows", "why_tests_cant": "all functions and flows.", "anchors": ["src/utilities/json_encoder.py:JSONEncoder.default", "src/slide_examples/example2.py:build_example1", "src/slide_examples/example3.py:build_example3", "src/slide_examples/example4.py:build_example1"]}
{"id": "C117", "title": "a flow that was saved and loaded can be used like the original", "statement": "Whatever was done with a DynamicFlow before, it can be pickled as long as it has its network; loading succeeds, and once _network is assigned, the loaded copy answers all further calls (extend, current rates, edge loads, average travel times, further saves) as the original does. Until then it can be read, but extend and avg_travel_time raise AttributeError and it cannot be pickled again; assigning the attribute network does not change this.", "quantifier": "all sequences of uses before and after, with any number of saves and loads, all networks", "why_tests_cant": "Saving drops the network and takes the event lists apart, loading checks every item again: that no history leads to a state that is refused or goes on differently has to hold for all of them.", "anchors": ["src/core/dynamic_flow.py:DynamicFlow.__getstate__", "src/core/dynamic_flow.py:DynamicFlow.__setstate__", "src/core/flow_rates_collection.py:FlowRatesCollection.__setstate__", "src/eval/evaluate.py:evaluate_single_run", "src/ml/generate_queues.py:expanded_queues_from_flows"]}
{"id": "C118", "title": "an edge reacts only to its own total inflow, and monotonically", "statement": "Take two edges, of one flow or of two flows on different networks. If they have the same capacity and the same cumulative inflow up to t, they have the same queue at t and the same cumulative outflow at t plus their travel time, however the inflow was divided into calls and commodities and whatever the rest of the network does. If one receives at least as much in every period ending at t and has at most the capacity, its queue is at least as long and waiting takes at least as long. If one has received at least as much at every time up to t and has at least the capacity, at least as much has passed.", "quantifier": "all pairs of networks, histories of valid extend calls, edges and times", "why_tests_cant": "It compares two arbitrary runs; unit tests look at one run at a time.", "anchors": ["src/core/dynamic_flow.py:DynamicFlow.extend", "src/core/dynamic_flow.py:DynamicFlow._extend_case_i", "src/core/dynamic_flow.py:DynamicFlow._extend_case_ii", "src/core/dynamic_flow.py:DynamicFlow._extend_case_iii", "src/core/dynamic_flow.py:DynamicFlow._process_depletion"]}
{"id": "C119", "title": "results do not depend on the unit of flow or on the zero of the clock", "statement": "If an edge has c > 0 times the capacity and has received c times as much at every time up to t, then its queue at t is c times as long, c times as much has passed, and waiting takes as long. If an edge with the same capacity receives nothing up to time d and then what another edge receives d earlier, its queue at t + d is that of the other at t, and the same has passed.", "quantifier": "all pairs of networks, histories of valid extend calls, edges, times, factors and shifts", "why_tests_cant": "It compares two arbitrary runs; unit tests look at one run at a time.", "anchors": ["src/core/dynamic_flow.py:DynamicFlow.extend", "src/core/dynamic_flow.py:DynamicFlow._extend_case_i", "src/core/dynamic_flow.py:DynamicFlow._extend_case_ii", "src/core/dynamic_flow.py:DynamicFlow._extend_case_iii", "src/core/dynamic_flow.py:DynamicFlow._process_depletion"]}
{"id": "C120", "title": "queues depend continuously on inflow and capacity", "statement": "If the cumulative inflows of two edges differ by at most delta at every time up to t, and their capacities by at most kappa, then what has passed up to t differs by at most delta + kappa t and the queues at t by at most 2 delta + kappa t. So a small error in the inflow is not amplified, however long the history.", "quantifier": "all pairs of networks, histories of valid extend calls, edges, times and bounds", "why_tests_cant": "It bounds the difference of two arbitrary runs; unit tests look at one run at a time.", "anchors": ["src/core/dynamic_flow.py:DynamicFlow.extend", "src/core/dynamic_flow.py:DynamicFlow._extend_case_i", "src/core/dynamic_flow.py:DynamicFlow._extend_case_ii", "src/core/dynamic_flow.py:DynamicFlow._extend_case_iii", "src/core/dynamic_flow.py:DynamicFlow._process_depletion"]}
{"id": "C121", "title": "the flow builder accepts exactly the networks whose inflow starts at 0 and can arrive", "statement": "Take any network whose graph is consistent and whose inflow functions are non-negative step functions defined on [0, inf), with break points at one node that are equal or more than the tolerance apart. FlowBuilder(network, ...) returns exactly if every source can reach the sink of its commodity, no inflow function has a break point before 0, and at every source node some inflow function has a break point at 0; otherwise it raises AssertionError. In particular the slide examples 2, 3 and 4, whose inflow starts at -1, raise before any flow is built.", "quantifier": "all such networks with any number of nodes, edges and commodities, all reroute intervals", "why_tests_cant": "Which inputs are refused has to be known for all networks: a single refused example shows neither why nor what else is refused.", "anchors": ["src/core/flow_builder.py:FlowBuilder.__init__", "src/core/flow_rates_collection.py:FlowRatesCollection.__init__", "src/utilities/right_constant.py:RightConstant.sum", "src/utilities/right_constant.py:RightConstant.integral", "src/slide_examples/example2.py:build_example1", "src/slide_examples/example3.py:build_example3", "src/slide_examples/example4.py:build_example1"]}
{"id": "C122", "title": "the flow builder ignores the domains of the inflow functions, avg_travel_time does not", "statement": "Take a valid network and a second one that differs only in the domains of its inflow functions, which contain [0, inf) (for example the default domain of RightConstant, the whole line). FlowBuilder accepts the second as well, and for every predictor, every iteration order of the sets and every number of rounds both builders yield the same flow or raise the same exception. But avg_travel_time(i, horizon) raises AssertionError for every horizon if an inflow function of commodity i has a domain that does not start at 0.", "quantifier": "all valid networks, all larger domains, predictors, set orders, numbers of rounds, reached flows and horizons", "why_tests_cant": "That nothing in the builder reads the domains has to hold for all runs; comparing two runs of one network says nothing of others.", "anchors": ["src/core/flow_builder.py:FlowBuilder", "src/core/flow_rates_collection.py:FlowRatesCollection.__init__", "src/core/dynamic_flow.py:DynamicFlow.avg_travel_time", "src/utilities/right_constant.py:RightConstant.__radd__", "src/utilities/right_constant.py:RightConstant.sum"]}
{"id": "C123", "title": "the networks of the Nguyen scenario and of slide example 1 are valid and their flows are built to the end", "statement": "For every demand that is not negative and every inflow horizon larger than the tolerance, the network of the Nguyen scenario has exactly the 19 roads of its file, with positive travel times, carries the demand from 1 to 2, 1 to 3, 4 to 2 and 4 to 3 up to the inflow horizon and is a valid input of the flow builder, which accepts it. With the constant predictor and any reroute interval and horizon build_with_times then ends and returns a flow that reaches the horizon, provided that no round touches a tolerance. The network of slide example 1 is a valid input as well.", "quantifier": "all demands, inflow horizons, reroute intervals, horizons and set orders", "why_tests_cant": "The demand and the intervals are parameters; running the script once settles one choice only.", "anchors": ["src/scenarios/nguyen_scenario.py:build_nguyen_network", "src/scenarios/nguyen_scenario.py:run_scenario", "src/scenarios/nguyen_network.csv", "src/scenarios/scenario_utils.py:get_demand_with_inflow_horizon", "src/slide_examples/example1.py:build_example1"]}
{"id": "C124", "title": "the names of the nodes of a network do not matter", "statement": "Giving the nodes other, different names when roads and commodities are added gives the same network with the other names, or the same exception. The searches for shortest routes and earliest arrivals then give every node the same label and the same active edges, and the flow builder builds the same flow: the same record of every edge after every number of rounds, the same predictions and routing times, or the same exception in the same round. If no round touches a tolerance this holds for any order in which sets of nodes are iterated over.", "quantifier": "all injective renamings, roads, commodities, networks, predictors, reroute intervals, numbers of rounds and set orders", "why_tests_cant": "Compares two runs for every network and every renaming.", "anchors": ["src/core/network.py:Network", "src/core/graph.py:DirectedGraph", "src/core/dijkstra.py", "src/core/flow_builder.py:FlowBuilder", "src/core/dynamic_flow.py:avg_travel_time"]}
{"id": "C125", "title": "arg_min, equals and reversal answer what their names say", "statement": "arg_min returns the first of the items with the least key, None when there are none, and passes the first exception of the key on. equals answers True exactly for a function of the same class with the same break points, values, slopes and domain; for step functions on the same domain whose values change at every break point but a common first one this is the same as having the same values everywhere. reversal of an increasing function is its inverse on the values that it takes.", "quantifier": "all lists, keys, step functions and piecewise linear functions", "why_tests_cant": "Functions have infinitely many arguments; two functions that agree at all tested points may differ elsewhere.", "anchors": ["src/utilities/arrays.py:arg_min", "src/utilities/right_constant.py:RightConstant.equals", "src/utilities/piecewise_linear.py:PiecewiseLinear.equals", "src/utilities/piecewise_linear.py:PiecewiseLinear.reversal"]}
{"id": "C126", "title": "print_info prints true numbers", "statement": "For a network with at least one road, print_info prints the numbers of nodes, roads and commodities, the least, average and greatest capacity and travel time, the greatest number of roads into a node, out of a node and at a node, and the average of the first inflow rates of all sources (nan if there is none). Without roads it raises ValueError.", "quantifier": "all networks made by add_edge, remove_edge and reverse, and all commodities", "why_tests_cant": "Tests look at a few networks.", "anchors": ["src/core/network.py:Network.print_info"]}
{"id": "C127", "title": "Trained models get the right inputs and their answers become the prediction", "statement": "A full-net predictor asks its model one row: the time, then the queues and then the loads of the input roads at the last past times, road by road; a neighbourhood predictor asks the model of every output road the same about the input roads of its neighbourhood; a per edge regression predictor asks about the roads into the tail, the roads out of the head and the road itself, time by time; the closure of from_scikit_model asks about the roads into the tail, zeros up to five blocks and the road itself, unless all of these are 0. The predicted queue of every output road starts at the current queue and then takes the answers of the model that belong to this road one by one, raised to 0 and to what is left after draining at capacity.", "quantifier": "all reachable flows, times, setups, neighbourhoods and models", "why_tests_cant": "A model answers some number for every input; a swapped row goes unnoticed in tests.", "anchors": ["src/core/predictors/sk_full_net_predictor.py:SKFullNetPredictor.predict", "src/core/predictors/sk_neighborhood_predictor.py:SKNeighborhoodPredictor.predict", "src/core/predictors/per_edge_linear_regression_predictor.py:PerEdgeLinearRegressionPredictor.predict"]}
{"id": "C128", "title": "generate_queues writes every table once and survives being stopped", "statement": "For flow files that can be read, generate_queues writes, for every listed flow without an output file, the queues of all roads at -past, -past + step, … up to the horizon, and touches nothing else; a second call writes nothing; at the first flow without a file that cannot be read it raises; after being stopped at any point, a second call ends with the same files as a call that was not stopped.", "quantifier": "all folders, flows, contents of the output folder and crash points", "why_tests_cant": "A test cannot stop the process at every point.", "anchors": ["src/ml/generate_queues.py:generate_queues"]}
{"id": "C129", "title": "DepletionQueue is a map from edges to planned depletions", "statement": "After any history of calls, every answer of a DepletionQueue is that of a map from edges to planned depletions with optional changes: set replaces what was planned for the edge, pop_by_depletion returns and removes an earliest one together with its own change, min_depletion and min_change_time are the smallest times (infinity if there are none), len counts the edges, and only remove of a missing edge and pop_by_depletion of an empty queue raise.", "quantifier": "all histories of calls", "why_tests_cant": "Three containers have to agree after every history; tests follow a few.", "anchors": ["src/core/dynamic_flow.py:DepletionQueue"]}
