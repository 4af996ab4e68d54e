{"id": "C01", "title": "Graph operations behave like an abstract node map and edge map", "statement": "After any history of add_node, add_edge (incl. bidirectional and rejected container values), del_edge, del_node and degree reads, `n in g`, g.node(n), g.edge(a,b) and g.reverse_edge(b,a) return exactly what a plain pair of maps (node -> object, (a,b) -> value) updated by the same history would return.", "quantifier": "all finite sequences of public operations, all node/value/object types, all lookups", "why_tests_cant": "The set of operation histories is infinite; the forward and reverse dictionaries can drift apart only after particular interleavings of adds and deletes.", "anchors": ["graph/base.py:BasicGraph.add_edge", "graph/base.py:BasicGraph.del_edge", "graph/base.py:BasicGraph.add_node", "graph/base.py:BasicGraph.del_node", "graph/base.py:BasicGraph.edge", "graph/base.py:BasicGraph.reverse_edge", "graph/base.py:BasicGraph.node", "graph/base.py:BasicGraph.__contains__"]}
{"id": "C02", "title": "Enumerations are exact", "statement": "In every reachable graph nodes() lists every node exactly once and nothing else; edges() lists (a,b,v) exactly once for every edge(a,b)=v; nodes(from_node), nodes(to_node), edges(from_node), edges(to_node) list exactly the matching neighbours/edges once; the edge counter shown by str(g) and used by == equals len(edges()).", "quantifier": "all histories, all graphs, all query nodes", "why_tests_cant": "Duplicates or omissions would only appear after specific histories (re-adding, deleting last edge of a node).", "anchors": ["graph/base.py:BasicGraph.nodes", "graph/base.py:BasicGraph.edges", "graph/base.py:BasicGraph.__str__"]}
{"id": "C03", "title": "Degrees are exact and degree filters return graph nodes", "statement": "In every reachable graph in_degree(n)/out_degree(n) equal the number of edges entering/leaving n, and nodes(in_degree=k)/nodes(out_degree=k) return exactly the nodes of the graph with that degree.", "quantifier": "all histories (including histories that call in_degree/out_degree), all nodes, all k >= 0", "why_tests_cant": "Degree counters are maintained incrementally through every mutation; an error shows only after the wrong history.", "anchors": ["graph/base.py:BasicGraph.in_degree", "graph/base.py:BasicGraph.out_degree", "graph/base.py:BasicGraph.nodes"]}
{"id": "C04", "title": "Mutators never fail internally", "statement": "On every reachable graph add_node, del_edge, del_node never raise, and add_edge raises (ValueError) only for a dict/list/tuple value and then leaves the graph unchanged; no internal dictionary lookup fails.", "quantifier": "all histories followed by any operation", "why_tests_cant": "The unguarded subscripts `_reverse_edges[node2][node1]` are safe only because of an invariant over the whole history.", "anchors": ["graph/base.py:BasicGraph.add_edge", "graph/base.py:BasicGraph.del_edge", "graph/base.py:BasicGraph.del_node"]}
{"id": "C05", "title": "Copies are equal and independent", "statement": "g.copy() == g, has the same nodes, objects, edges, and no later operation on the copy changes the original (and vice versa).", "quantifier": "all reachable graphs, all later histories on either graph", "why_tests_cant": "Equality of the copy must hold for every history of the original.", "anchors": ["graph/base.py:BasicGraph.copy", "graph/base.py:BasicGraph.__eq__", "graph/core.py:Graph3D.copy"]}
{"id": "C06", "title": "Graph equality is extensional", "statement": "g1 == g2 exactly when both graphs have the same nodes with the same objects and the same edges with the same values; hence == is an equivalence and independent of insertion order.", "quantifier": "all pairs of reachable graphs", "why_tests_cant": "Equality compares three internal structures; agreement with observable content is a statement about all pairs of histories.", "anchors": ["graph/base.py:BasicGraph.__eq__", "graph/base.py:BasicGraph.__ne__"]}
{"id": "C07", "title": "Serialisation round trips", "statement": "Graph(from_dict=g.to_dict()) and Graph(from_list=g.to_list()) have exactly the nodes and edges of g (and == g if no node carries an object); from_dict(d).to_dict() returns d plus empty entries for sink nodes.", "quantifier": "all reachable graphs / all nested dictionaries", "why_tests_cant": "Round trips must hold for every graph, incl. isolated nodes, self loops, sinks.", "anchors": ["graph/base.py:BasicGraph.to_dict", "graph/base.py:BasicGraph.from_dict", "graph/base.py:BasicGraph.to_list", "graph/base.py:BasicGraph.from_list"]}
{"id": "C08", "title": "subgraph is the induced subgraph", "statement": "subgraph(g, ns) contains exactly the nodes ns with the objects they have in g, and exactly the edges of g with both ends in ns, with their values; it is a subgraph of g whenever ns are nodes of g.", "quantifier": "all reachable graphs, all node lists/sets in any iteration order", "why_tests_cant": "Nodes are inserted first through add_edge and re-inserted with objects; the result must not depend on the order of ns.", "anchors": ["graph/base.py:subgraph"]}
{"id": "C09", "title": "is_subgraph is inclusion", "statement": "is_subgraph(g1,g2) is True exactly when every node of g1 is a node of g2 and every edge (with value) of g1 is an edge of g2; it is reflexive and transitive, and mutual inclusion gives the same nodes and edges.", "quantifier": "all pairs/triples of reachable graphs", "why_tests_cant": "Order-theoretic laws quantify over all graphs.", "anchors": ["graph/base.py:is_subgraph"]}
{"id": "C10", "title": "has_path and edges(path=...) recognise walks", "statement": "For non-empty paths has_path(g,p) is True exactly when every consecutive pair of p is an edge; edges(path=p) returns those edges with their values in order exactly when they all exist (len(p)>=2) and raises KeyError otherwise.", "quantifier": "all reachable graphs, all node sequences", "why_tests_cant": "Unbounded path lengths.", "anchors": ["graph/base.py:has_path", "graph/base.py:BasicGraph.edges"]}
{"id": "C11", "title": "same_path recognises rotations", "statement": "same_path(p1,p2) is True exactly when p2 is a rotation of p1; hence it is reflexive, symmetric and transitive.", "quantifier": "all pairs of node lists, repeated nodes allowed", "why_tests_cant": "All list lengths and all offsets, incl. repeated nodes where the first match is not the right offset.", "anchors": ["graph/base.py:same_path"]}
{"id": "C12", "title": "is_connected decides reachability", "statement": "is_connected(n1,n2) terminates and is True exactly when there is a directed walk with at least one edge from n1 to n2.", "quantifier": "all reachable graphs (cycles included), all pairs", "why_tests_cant": "Termination and completeness on arbitrary cyclic graphs.", "anchors": ["graph/base.py:BasicGraph.is_connected"]}
{"id": "C13", "title": "breadth_first_search returns a path with fewest nodes", "statement": "For nodes of the graph breadth_first_search terminates; it returns a walk from start to end with the minimum number of nodes if end is reachable and [] otherwise; it raises ValueError exactly when start or end is not in the graph.", "quantifier": "all reachable graphs, all start/end", "why_tests_cant": "Optimality against all walks.", "anchors": ["graph/bfs.py:breadth_first_search"]}
{"id": "C14", "title": "breadth_first_walk visits every reachable node once, nearest first", "statement": "With end=None the walk yields every node reachable from start (backwards if reversed_walk) exactly once, in order of non-decreasing hop distance; with an end it yields a prefix of that order stopping at end.", "quantifier": "all reachable graphs, all starts/ends, both directions", "why_tests_cant": "Completeness/order over all graphs.", "anchors": ["graph/bfs.py:breadth_first_walk"]}
{"id": "C15", "title": "degree_of_separation is the hop distance", "statement": "degree_of_separation(n1,n2) is the least number of edges on a walk from n1 to n2 (and -1 exactly if there is none).", "quantifier": "all reachable graphs, all pairs", "why_tests_cant": "Minimum over all walks.", "anchors": ["graph/degree_of_separation.py:degree_of_separation"]}
{"id": "C16", "title": "depth_first_search finds a simple path iff one exists", "statement": "depth_first_search terminates; returns a simple path from start to end whenever end is reachable and None exactly when it is not.", "quantifier": "all reachable graphs, all start/end", "why_tests_cant": "Backtracking correctness depends on the whole search history.", "anchors": ["graph/dfs.py:depth_first_search"]}
{"id": "C17", "title": "depth_scan collects the criteria-bounded descendants", "statement": "depth_scan(start, criteria) terminates and returns exactly the nodes reachable from start through nodes that satisfy criteria (boundary nodes that fail it included), and the empty set if start fails it.", "quantifier": "all reachable graphs, all starts, all boolean criteria", "why_tests_cant": "All predicates and graphs.", "anchors": ["graph/dfs.py:depth_scan"]}
{"id": "C18", "title": "network_size is the ball of the given radius", "statement": "network_size(g,n,k) terminates and returns exactly the nodes reachable from n by walks of at most k edges (all reachable nodes for k=None), whatever the iteration order of sets.", "quantifier": "all reachable graphs, all n, all integer k or None, all set iteration orders", "why_tests_cant": "Set iteration order is not controlled by tests.", "anchors": ["graph/base.py:network_size"]}
{"id": "C19", "title": "components partitions the nodes into weakly connected components", "statement": "components(g) terminates and returns non-empty pairwise disjoint sets covering all nodes, two nodes sharing a set exactly when they are linked by an undirected path, whatever element set.pop selects.", "quantifier": "all reachable graphs, all pop/iteration orders", "why_tests_cant": "set.pop is non-deterministic across runs.", "anchors": ["graph/base.py:components"]}
{"id": "C20", "title": "all_simple_paths is exact", "statement": "all_simple_paths(start,end) terminates and returns every simple path from start to end exactly once and nothing else; ValueError exactly if a node is missing or start==end.", "quantifier": "all reachable graphs, all start/end", "why_tests_cant": "Soundness, completeness and uniqueness over all graphs.", "anchors": ["graph/all_simple_paths.py:all_simple_paths"]}
{"id": "C21", "title": "all_paths returns distinct genuine paths", "statement": "Every list returned by all_paths(start,end) is a walk from start to end in the graph, and no walk is returned twice; every simple path is found on acyclic graphs; the call does not crash.", "quantifier": "all reachable graphs, all start/end", "why_tests_cant": "Behaviour around cycles and forks is history dependent.", "anchors": ["graph/all_paths.py:all_paths"]}
{"id": "C22", "title": "sources returns all ancestors", "statement": "sources(n) terminates and returns exactly the nodes other than n from which n can be reached.", "quantifier": "all DAGs, all nodes (and what happens on cyclic graphs)", "why_tests_cant": "Termination and completeness over all graphs.", "anchors": ["graph/dag.py:sources"]}
{"id": "C23", "title": "topological_sort orders every DAG and rejects every cycle", "statement": "On an acyclic graph topological_sort yields every node exactly once, each node after all its predecessors, for any key; on a graph with a cycle it raises AttributeError, after yielding only nodes that are not on or behind a cycle; it always terminates and does not modify the graph.", "quantifier": "all reachable graphs, all sort keys", "why_tests_cant": "All DAGs / all cyclic graphs.", "anchors": ["graph/topological_sort.py:topological_sort"]}
{"id": "C24", "title": "has_cycles decides acyclicity", "statement": "has_cycles(g) is True exactly when the graph contains a directed cycle (self loops included).", "quantifier": "all reachable graphs", "why_tests_cant": "A decision procedure must be right on every graph.", "anchors": ["graph/cycle.py:has_cycles"]}
{"id": "C25", "title": "phase_lines gives the longest-chain level of each task", "statement": "On a non-empty DAG phase_lines maps every node to the number of edges on the longest chain leading to it, so every edge goes to a strictly later phase; on a graph with a cycle it raises AttributeError.", "quantifier": "all reachable graphs, all set iteration orders", "why_tests_cant": "Holds for every DAG and every iteration order of the work set.", "anchors": ["graph/dag.py:phase_lines"]}
{"id": "C26", "title": "critical_path computes the earliest/latest schedule", "statement": "For a DAG with numeric durations the schedule satisfies: earliest_start is the maximal total duration of a chain of predecessors, the critical path length is the maximal total duration of any chain, no task starts before its predecessors finish, latest times respect all successors, slack is never negative and some task has zero slack; non-numeric durations raise ValueError and cycles AttributeError.", "quantifier": "all DAGs, all non-negative durations", "why_tests_cant": "Optimality against all chains and all feasible schedules.", "anchors": ["graph/critical_path.py:critical_path", "graph/critical_path.py:Task"]}
{"id": "C27", "title": "critical_path_minimize_for_slack preserves the project", "statement": "On a DAG the result contains all nodes, objects and edges of the input, only adds dependencies, stays acyclic, keeps the critical path length and does not increase total slack; it does not fail.", "quantifier": "all DAGs with numeric durations", "why_tests_cant": "A heuristic with re-insertion: safety must hold for every DAG.", "anchors": ["graph/critical_path.py:critical_path_minimize_for_slack"]}
{"id": "C28", "title": "shortest_path is optimal", "statement": "With non-negative edge values shortest_path(start,end,avoids) terminates and returns (d,p) where p is a path from start to end avoiding `avoids`, d is the sum of its edge values and no such path is shorter; (inf,[]) exactly when there is no such path; ValueError exactly when start or end is missing.", "quantifier": "all reachable graphs with non-negative values, all start/end, all avoid sets", "why_tests_cant": "Optimality over all paths.", "anchors": ["graph/shortest_path.py:shortest_path"]}
{"id": "C29", "title": "shortest_path_bidirectional is optimal and agrees with shortest_path", "statement": "With non-negative edge values the bidirectional search terminates, never raises 'Bad logic!', and returns the same distance as shortest_path with a path of that length (inf,[] if none).", "quantifier": "all reachable graphs with non-negative values, all start/end, all avoid sets", "why_tests_cant": "The lower-bound pruning is only sound by a global argument about both frontiers.", "anchors": ["graph/shortest_path.py:shortest_path_bidirectional", "graph/shortest_path.py:BiDirectionalSearch.search"]}
{"id": "C30", "title": "Memoised shortest paths equal unmemoised ones", "statement": "For any sequence of queries (and graph changes in between) shortest_path(..., memoize=True) returns the same distance as shortest_path(...) on the current graph, with a path of that length.", "quantifier": "all query histories, with and without avoids, with and without interleaved mutations", "why_tests_cant": "Cache state depends on the whole history of queries and mutations.", "anchors": ["graph/shortest_path.py:ShortestPathCache", "graph/core.py:Graph.shortest_path"]}
{"id": "C31", "title": "distance_from_path sums the legs", "statement": "distance_from_path(p) is the sum over consecutive pairs of the edge value if that edge exists (and is non-zero) and of the shortest distance otherwise; inf exactly when some leg has no path.", "quantifier": "all reachable graphs with non-negative values, all node sequences of graph nodes", "why_tests_cant": "Unbounded sequences and fallback searches.", "anchors": ["graph/shortest_path.py:distance_from_path"]}
{"id": "C32", "title": "adjacency_matrix is exact", "statement": "adjacency_matrix()[a][b] is 0 if a==b, edge(a,b) if it exists and inf otherwise, for exactly the nodes of the graph.", "quantifier": "all reachable graphs, all pairs", "why_tests_cant": "All graphs.", "anchors": ["graph/adjacency_matrix.py:adjacency_matrix"]}
{"id": "C33", "title": "all_pairs_shortest_paths is exact without negative cycles", "statement": "If the graph has no cycle of negative total value (negative edges allowed), the result maps every pair (a,b) to the minimum total value of a walk from a to b (0 on the diagonal), inf exactly if there is none.", "quantifier": "all reachable graphs without negative cycles, all pairs, any vertex order", "why_tests_cant": "Minimum over infinitely many walks.", "anchors": ["graph/all_pairs_shortest_path.py:all_pairs_shortest_paths"]}
{"id": "C34", "title": "minmax and minsum return exactly the optimal nodes", "statement": "minmax/minsum return exactly the nodes whose largest / total shortest distance to the nodes is minimal.", "quantifier": "all non-empty reachable graphs without negative cycles", "why_tests_cant": "All graphs; ties and infinities.", "anchors": ["graph/minmax.py:minmax", "graph/minsum.py:minsum"]}
{"id": "C35", "title": "shortest_tree_all_pairs starts from the best node", "statement": "shortest_tree_all_pairs returns every node exactly once in order of non-decreasing distance from a node with the smallest total distance.", "quantifier": "all reachable graphs", "why_tests_cant": "All graphs.", "anchors": ["graph/shortest_tree_all_pairs.py:shortest_tree_all_pairs"]}
{"id": "C36", "title": "distance_map gives shortest distances", "statement": "distance_map(starts, ends, reverse) maps every reached node to its shortest distance from any start (to any end if reverse) and, when exhaustive, contains exactly the reachable nodes.", "quantifier": "all reachable graphs with non-negative values, all start/end sets, all set iteration orders", "why_tests_cant": "Correct values must not depend on the traversal order.", "anchors": ["graph/distance_map.py:distance_map"]}
{"id": "C37", "title": "cycle/loop returns a walk through the mid-point with disjoint return", "statement": "If both legs exist, loop(start,mid,end) is a walk from start through mid to end (or back to start) whose return leg does not touch the intermediate nodes of the outward leg, and each leg is shortest among those allowed.", "quantifier": "all reachable graphs with non-negative values, all nodes", "why_tests_cant": "All graphs.", "anchors": ["graph/cycle.py:cycle"]}
{"id": "C38", "title": "is_partite decides n-colourability and returns a valid partition", "statement": "is_partite(g,n) returns True with a partition of the nodes into n classes without internal edges exactly if one exists, False otherwise.", "quantifier": "all reachable graphs, all n >= 1, all set.pop choices", "why_tests_cant": "Correctness on all graphs; set.pop is non-deterministic.", "anchors": ["graph/partite.py:is_partite"]}
{"id": "C39", "title": "maximum_flow returns a maximum feasible flow", "statement": "With positive capacities maximum_flow terminates and returns (value, flow graph) where the flow respects capacities, is conserved at inner nodes, has that value, and no feasible flow has a larger value.", "quantifier": "all reachable graphs with non-negative capacities, all start != end", "why_tests_cant": "Optimality over all flows (max-flow/min-cut).", "anchors": ["graph/max_flow.py:maximum_flow"]}
{"id": "C40", "title": "maximum_flow_min_cut returns a minimum cut", "statement": "maximum_flow_min_cut returns edges whose removal separates end from start and whose total capacity equals the maximum flow.", "quantifier": "all reachable graphs with non-negative capacities", "why_tests_cant": "All cuts of all graphs.", "anchors": ["graph/max_flow_min_cut.py:maximum_flow_min_cut", "graph/maximum_flow_min_cut.py:maximum_flow_min_cut"]}
{"id": "C41", "title": "minimum_cost_flow returns a feasible flow of minimum cost", "statement": "The returned flows respect the capacities, ship only available supply to existing demand, the returned cost is the cost of the returned flows, and it is minimal.", "quantifier": "all cost graphs, inventories and capacities", "why_tests_cant": "All feasible flows.", "anchors": ["graph/min_cost_flow.py:minimum_cost_flow_using_successive_shortest_path"]}
{"id": "C42", "title": "ap_solver returns an optimal one-to-one assignment", "statement": "ap_solver terminates; every agent appears at most once and every task at most once in the returned assignment, every returned (agent, task, value) is an edge of the graph, and the total value is maximal; the input graph is not modified.", "quantifier": "all bipartite reachable graphs", "why_tests_cant": "All assignments.", "anchors": ["graph/assignment_problem.py:ap_solver"]}
{"id": "C43", "title": "wtap_solver returns a consistent assignment", "statement": "wtap_solver terminates; the returned value is the expected surviving value of the returned assignment, each weapon is assigned to at most one target, and no reassignment of a single weapon improves the value.", "quantifier": "all probability graphs with rational probabilities, all weapon lists, all target values", "why_tests_cant": "All inputs; tie-breaking in the final round.", "anchors": ["graph/assignment_problem.py:wtap_solver", "graph/assignment_problem.py:_damages"]}
{"id": "C44", "title": "FiniteStateMachine follows the declared transitions", "statement": "After any sequence of add_transition/set_initial_state/next calls, options() lists exactly the actions declared for the current state and next(action) moves to the target of the first declared transition with that action, raising ValueError/StopIteration otherwise.", "quantifier": "all histories, all hashable states and actions", "why_tests_cant": "All histories; action ids share the node namespace with states.", "anchors": ["graph/finite_state_machine.py:FiniteStateMachine"]}
{"id": "C45", "title": "merkle_tree binds the data blocks", "statement": "With a collision-free hash, merkle_tree(blocks) for n>0 blocks has a single root, and two block lists of the same length with the same root are equal; the root determines the data.", "quantifier": "all block lists, every collision-free hash", "why_tests_cant": "All block lists.", "anchors": ["graph/hash_methods.py:merkle_tree"]}
{"id": "C46", "title": "graph_hash depends only on the content", "statement": "Graphs with the same nodes and edges have the same graph_hash whatever the construction history, and graphs with different content have different hashes (collision-free hash).", "quantifier": "all pairs of reachable graphs", "why_tests_cant": "All histories.", "anchors": ["graph/hash_methods.py:graph_hash"]}
{"id": "C47", "title": "flow_graph_hash propagates upstream changes", "statement": "On a DAG flow_graph_hash terminates and gives every node a hash of its own id and the hashes of all its suppliers.", "quantifier": "all DAGs", "why_tests_cant": "All DAGs; processing order.", "anchors": ["graph/hash_methods.py:flow_graph_hash"]}
{"id": "C48", "title": "tsp_branch_and_bound is optimal", "statement": "For a complete graph with positive values tsp_branch_and_bound returns a tour of minimum length.", "quantifier": "all complete graphs", "why_tests_cant": "All tours.", "anchors": ["graph/tsp.py:tsp_branch_and_bound"]}
{"id": "C49", "title": "tsp_greedy returns a tour and its true length", "statement": "tsp_greedy returns (d,t) where t visits every node exactly once and d is the closed length of t, never worse than the greedy start tour.", "quantifier": "all complete graphs with positive values and at least two nodes (a single node has no round trip)", "why_tests_cant": "All graphs.", "anchors": ["graph/tsp.py:tsp_greedy", "graph/tsp.py:_greedy", "graph/tsp.py:_opt2"]}
{"id": "C50", "title": "tsp_2023 returns a tour, optimal below 7 nodes", "statement": "solve_tsp returns (d,t) where t visits every node exactly once and d is its length; for fewer than 7 nodes no tour is shorter; otherwise it is no longer than the greedy tour.", "quantifier": "all complete graphs", "why_tests_cant": "All tours of all graphs.", "anchors": ["graph/tsp.py:tsp_2023", "graph/tsp.py:brute_force", "graph/tsp.py:_opt1", "graph/tsp.py:_opt3"]}
{"id": "C51", "title": "is_ap_solvable decides assignability", "statement": "is_ap_solvable(assignments) is True exactly if every load can get its own end, whatever set.pop selects.", "quantifier": "all assignment option tables, all pop orders", "why_tests_cant": "All tables; set.pop is non-deterministic.", "anchors": ["graph/traffic_scheduling_problem.py:is_ap_solvable"]}
{"id": "C52", "title": "Traffic moves describe the state path", "statement": "path_to_moves lists exactly the position changes along the state path; moves_to_synchronous_moves of a valid serial plan terminates, keeps all moves in order, never moves a load twice in a step nor into an occupied location. For any other list of moves it either returns every move once, in an order in which each leads from an occupied to a free location, or raises KeyError because a move starts where no load is, or runs forever because all remaining moves are blocked.", "quantifier": "all state paths, all valid serial plans, all lists of moves and occupied locations", "why_tests_cant": "Unbounded plans.", "anchors": ["graph/traffic_scheduling_problem.py:path_to_moves", "graph/traffic_scheduling_problem.py:moves_to_synchronous_moves"]}
{"id": "C53", "title": "jam_solver plans are valid and found whenever they exist", "statement": "Every plan returned by the jam solver starts at the loads' start positions, moves one load at a time along an edge into a free, non-prohibited location and ends with every load at one of its ends; without timeout a plan is returned whenever one exists; return_on_first stops at the first solution.", "quantifier": "all graphs, all load sets, all search orders", "why_tests_cant": "All schedules of the search queues.", "anchors": ["graph/traffic_scheduling_problem.py:JamSolver", "graph/traffic_scheduling_problem.py:jam_solver"]}
{"id": "C54", "title": "random_xy_graph has the requested shape", "statement": "random_xy_graph(n, x_max, y_max, edges) returns a graph with exactly n distinct nodes inside the frame and exactly `edges` (n*n if None) edges carrying the distance of their end points, for every random sequence.", "quantifier": "all parameters accepted by the guard, all random number streams", "why_tests_cant": "All random streams.", "anchors": ["graph/random.py:random_xy_graph"]}
{"id": "C55", "title": "n_nearest_neighbours returns the nearest nodes", "statement": "Graph3D.n_nearest_neighbours(p,n) returns min(n, available) other nodes sorted by distance such that no other node is nearer; None if there are none; invalid inputs raise.", "quantifier": "all Graph3D graphs, all points, all n", "why_tests_cant": "All point sets.", "anchors": ["graph/core.py:Graph3D.n_nearest_neighbours", "graph/core.py:Graph3D._check_tuples"]}
{"id": "C56", "title": "Rail schedules contain every job exactly once", "statement": "schedule(graph,start,jobs) terminates and returns a permutation of the jobs; find_perfect_circuit finds a circuit when one exists.", "quantifier": "all job lists, all rail networks", "why_tests_cant": "All job lists.", "anchors": ["graph/transshipment_problem.py:schedule", "graph/transshipment_problem.py:find_perfect_circuit", "graph/transshipment_problem.py:path_from_schedule"]}
{"id": "C57", "title": "distance(tour) is the tour length", "statement": "g.distance(nodes) is the sum of the edge values along the list and, only with return_to_start=True, of the closing edge.", "quantifier": "all reachable graphs, all node lists whose edges exist", "why_tests_cant": "Unbounded tours.", "anchors": ["graph/base.py:BasicGraph.distance"]}
{"id": "C58", "title": "Trains serve the accessible section of every job", "statement": "find(rail_network, stops, jobs) maps every job, in order, to the first and last stop on a shortest route; jobs with unknown ends or whose accessible part is not a path raise ValueError, without any accessible stop IndexError; Train.schedule plans exactly these sections, each once; schedule_rail_system schedules train by train, and if one train raises the trains before it have their new schedules and the others are unchanged.", "quantifier": "all networks with non-negative values, all stop sets, all job lists", "why_tests_cant": "All networks and job lists.", "anchors": ["graph/transshipment_problem.py:find", "graph/transshipment_problem.py:Train.schedule", "graph/transshipment_problem.py:schedule_rail_system"]}
{"id": "C59", "title": "jam_solver plans have minimum distance", "statement": "The plan returned by jam_solver without timeout has the smallest total edge distance of all plans that solve the jam.", "quantifier": "all graphs with non-negative edges, all load sets", "why_tests_cant": "All plans have to be compared, in every network.", "anchors": ["graph/traffic_scheduling_problem.py:jam_solver", "graph/traffic_scheduling_problem.py:JamSolver.solve", "graph/traffic_scheduling_problem.py:JamSolver._search"]}
{"id": "C60", "title": "Graph3D only ever holds points", "statement": "Whatever is passed to add_node and add_edge of a Graph3D, every node of the graph is a tuple of three numbers; a call with anything else (or an edge without value) raises TypeError, ValueError or AssertionError and changes nothing; the accepted calls act as on a Graph.", "quantifier": "all histories of calls with arbitrary arguments", "why_tests_cant": "All histories, all kinds of wrong arguments.", "anchors": ["graph/core.py:Graph3D.add_node", "graph/core.py:Graph3D.add_edge", "graph/core.py:Graph3D._check_tuples"]}
{"id": "C61", "title": "Timer expires", "statement": "Timer(timeout) raises ValueError exactly for negative timeouts; expired() answers True only after the clock showed more than timeout milliseconds, at the latest 102 calls after that, and for ever after; without timeout never.", "quantifier": "all timeouts, all clocks, all numbers of calls", "why_tests_cant": "Unbounded sequences of calls and clock readings.", "anchors": ["graph/traffic_scheduling_problem.py:Timer"]}
{"id": "C62", "title": "solve_tsp dispatches to a tour", "statement": "solve_tsp(), solve_tsp('2023') and solve_tsp('greedy') return a round trip through all nodes and its length; solve_tsp('bnb') a round trip with its length or AssertionError; any other method raises TypeError.", "quantifier": "all symmetric complete graphs with positive values, all method names, all set orders", "why_tests_cant": "All graphs.", "anchors": ["graph/core.py:Graph.solve_tsp"]}
{"id": "C63", "title": "check_user_input accepts exactly the plausible jams", "statement": "check_user_input returns the given loads in order exactly if no collection of ends is empty, all starts and ends are nodes, ends can be assigned (is_ap_solvable) and every load has a way from its start to one of its ends that avoids its prohibited nodes; otherwise UnSolvable or ValueError.", "quantifier": "all graphs, all lists of loads with distinct ids", "why_tests_cant": "All networks and load lists.", "anchors": ["graph/traffic_scheduling_problem.py:check_user_input", "graph/traffic_scheduling_problem.py:Load"]}
{"id": "C64", "title": "shortest_path_bidirectional agrees with shortest_path", "statement": "g.shortest_path_bidirectional(start,end) returns, for nodes of the graph, the distance that shortest_path returns and a path of that length, which is minimal over all walks; missing nodes raise ValueError.", "quantifier": "all reachable graphs with non-negative values, all node pairs, all orders of equal entries", "why_tests_cant": "All weighted graphs.", "anchors": ["graph/core.py:Graph.shortest_path_bidirectional", "graph/shortest_path.py:shortest_path_bidirectional"]}
{"id": "C65", "title": "all_paths is exact on DAGs", "statement": "On acyclic graphs all_paths(start,end), for two different nodes, returns every path from start to end exactly once and nothing else.", "quantifier": "all acyclic graphs, all node pairs", "why_tests_cant": "Exponentially many paths, unbounded graphs.", "anchors": ["graph/core.py:Graph.all_paths"]}
{"id": "C66", "title": "phase_lines is exact on DAGs", "statement": "On acyclic graphs with at least one node phase_lines numbers every node with the length of the longest path that ends there, so that every edge leads to a higher phase.", "quantifier": "all acyclic graphs, all set orders", "why_tests_cant": "All DAGs.", "anchors": ["graph/core.py:Graph.phase_lines"]}
{"id": "C67", "title": "loop(start, mid) is a shortest round trip", "statement": "If mid can be reached from start, and start from mid without touching the inner nodes of the outward path, g.loop(start,mid) is a shortest path from start to mid followed by a shortest way back that avoids those nodes.", "quantifier": "all reachable graphs with non-negative values, all node pairs", "why_tests_cant": "All weighted graphs.", "anchors": ["graph/core.py:Graph.loop"]}
{"id": "C68", "title": "maximum_flow is feasible and below every cut", "statement": "The value maximum_flow returns is that of a feasible flow, at most the capacity of every cut separating start from end, and either the maximum or leaves every path saturated; it is the maximum on networks in which, apart from the ends, no node is entered (or no node is left) by two edges.", "quantifier": "all reachable graphs with non-negative capacities, all pairs of different nodes, all cuts", "why_tests_cant": "All networks, exponentially many cuts.", "anchors": ["graph/core.py:Graph.maximum_flow"]}
{"id": "C69", "title": "minimum_cost_flow is optimal for one customer", "statement": "With one node in demand and no capacities minimum_cost_flow returns a shipment of smallest cost among all that meet the demand or use up the supply, and raises only if there is none.", "quantifier": "all reachable graphs with non-negative costs, all inventories with one negative entry", "why_tests_cant": "Infinitely many competing shipments.", "anchors": ["graph/core.py:Graph.minimum_cost_flow"]}
{"id": "C70", "title": "is_partite is exact for n = 2 on connected undirected graphs", "statement": "On a connected graph whose edges run both ways is_partite(2) is true exactly if the graph can be coloured with two colours, and the returned parts are such a colouring.", "quantifier": "all such graphs, all set orders", "why_tests_cant": "All graphs, all colourings.", "anchors": ["graph/core.py:Graph.is_partite"]}
{"id": "C71", "title": "jam_solver plans are valid", "statement": "Whatever the clock, timeouts and set orders, a plan returned by jam_solver for loads with distinct ids and starts, none of whose ends is prohibited for it, starts at the loads' positions, moves along edges into free places that are not prohibited and ends with every load at one of its ends.", "quantifier": "all graphs, all load lists, all clocks, all search orders", "why_tests_cant": "All schedules of the search queues, all clocks.", "anchors": ["graph/traffic_scheduling_problem.py:jam_solver", "graph/traffic_scheduling_problem.py:JamSolver.solve"]}
{"id": "C72", "title": "jam_solver finds a plan if there is one", "statement": "Without timeout, for well-formed loads with distinct ids and starts whose sets of ends are pairwise disjoint or nested, jam_solver returns a plan whenever one exists.", "quantifier": "all graphs, all such load lists, all search orders", "why_tests_cant": "All plans have to be excluded.", "anchors": ["graph/traffic_scheduling_problem.py:jam_solver", "graph/traffic_scheduling_problem.py:JamSolver.solve"]}
{"id": "C73", "title": "tsp_2023 terminates with a good tour on symmetric graphs", "statement": "On complete symmetric graphs with positive values tsp_2023 terminates with a tour through all nodes and its length, optimal up to six nodes and otherwise not longer than the greedy tour.", "quantifier": "all such graphs, all set orders", "why_tests_cant": "All distance matrices; termination.", "anchors": ["graph/tsp.py:tsp_2023", "graph/core.py:Graph.solve_tsp"]}
{"id": "C74", "title": "in_degree and out_degree are exact", "statement": "in_degree(n) and out_degree(n) are the numbers of edges that enter and leave n, for every node and after every history.", "quantifier": "all histories of mutations and queries, all nodes", "why_tests_cant": "Unbounded histories.", "anchors": ["graph/base.py:BasicGraph.in_degree", "graph/base.py:BasicGraph.out_degree"]}
{"id": "C75", "title": "graph_hash depends on the content only", "statement": "Graphs with the same nodes and edges have the same graph_hash, in whatever order they were built.", "quantifier": "all pairs of histories with the same content", "why_tests_cant": "All insertion orders.", "anchors": ["graph/hash_methods.py:graph_hash"]}
{"id": "C76", "title": "flow_graph_hash never raises on layered DAGs", "statement": "On DAGs in which all paths from the sources to a node have the same length flow_graph_hash returns the hash chain of every node.", "quantifier": "all such graphs, all hash functions", "why_tests_cant": "All layered DAGs.", "anchors": ["graph/hash_methods.py:flow_graph_hash"]}
{"id": "C77", "title": "from_list: the last item about an edge counts", "statement": "After g.from_list(links) every edge has the value of the last item that mentions it (1 for pairs, both directions for bidirectional items) or its old one; the nodes are the old ones and those mentioned.", "quantifier": "all graphs, all lists of links", "why_tests_cant": "Unbounded lists.", "anchors": ["graph/base.py:BasicGraph.from_list", "graph/base.py:BasicGraph.add_edge"]}
{"id": "C78", "title": "the reachability functions agree", "statement": "For two different nodes is_connected, breadth_first_search, depth_first_search, degree_of_separation, breadth_first_walk, network_size and all_simple_paths give the same answer to whether the second can be reached from the first.", "quantifier": "all reachable graphs, all pairs of different nodes, all set orders", "why_tests_cant": "Seven implementations have to agree on all graphs.", "anchors": ["graph/base.py:BasicGraph.is_connected", "graph/core.py:Graph.breadth_first_search", "graph/core.py:Graph.depth_first_search", "graph/core.py:Graph.degree_of_separation", "graph/core.py:Graph.breadth_first_walk", "graph/core.py:Graph.network_size", "graph/core.py:Graph.all_simple_paths"]}
{"id": "C79", "title": "the hop counts agree", "statement": "If n2 can be reached from n1, degree_of_separation is one less than the number of nodes of the path breadth_first_search returns, is the smallest k for which network_size(n1, k) contains n2, and no path depth_first_search or all_simple_paths returns has fewer edges.", "quantifier": "all reachable graphs, all pairs of different nodes, all set orders", "why_tests_cant": "All graphs, all paths.", "anchors": ["graph/core.py:Graph.degree_of_separation", "graph/core.py:Graph.breadth_first_search", "graph/core.py:Graph.network_size"]}
{"id": "C80", "title": "the answers about cycles agree", "statement": "has_cycles is true exactly if topological_sort raises, exactly if some node is connected to itself, and exactly if critical_path raises AttributeError.", "quantifier": "all reachable graphs, all orders of sorting", "why_tests_cant": "All graphs.", "anchors": ["graph/core.py:Graph.has_cycles", "graph/core.py:Graph.topological_sort", "graph/base.py:BasicGraph.is_connected", "graph/core.py:Graph.critical_path"]}
{"id": "C81", "title": "the distance functions agree", "statement": "With non-negative values shortest_path, shortest_path_bidirectional and all_pairs_shortest_paths give the same distances, and these satisfy the triangle inequality.", "quantifier": "all reachable graphs with non-negative values, all triples of nodes", "why_tests_cant": "Three algorithms have to agree on all weighted graphs.", "anchors": ["graph/core.py:Graph.shortest_path", "graph/core.py:Graph.shortest_path_bidirectional", "graph/core.py:Graph.all_pairs_shortest_paths"]}
{"id": "C82", "title": "more edges never make a distance longer", "statement": "If a graph has all edges of another one, no distance shortest_path reports is longer in it; graphs with the same edges have the same distances, in whatever order they were built.", "quantifier": "all pairs of reachable graphs with non-negative values, all node pairs", "why_tests_cant": "All pairs of graphs and histories.", "anchors": ["graph/core.py:Graph.shortest_path"]}
{"id": "C83", "title": "undirected graphs: distances are symmetric, components are connectivity classes", "statement": "If every edge runs both ways with the same value, shortest_path(a, b) and shortest_path(b, a) report the same distance, and two different nodes are in the same component exactly if they are connected.", "quantifier": "all such graphs, all set orders", "why_tests_cant": "All graphs.", "anchors": ["graph/core.py:Graph.shortest_path", "graph/core.py:Graph.components", "graph/base.py:BasicGraph.is_connected"]}
{"id": "C84", "title": "ap_solver assigns many pairs", "statement": "The assignment ap_solver returns has at least half as many pairs as any other; if every agent can do every task, no assignment has more pairs.", "quantifier": "all bipartite graphs, all competing assignments", "why_tests_cant": "Exponentially many assignments.", "anchors": ["graph/assignment_problem.py:ap_solver"]}
{"id": "C85", "title": "maximum_flow is positive exactly if the sink can be reached", "statement": "maximum_flow(start, end) is positive exactly if end can be reached from start along edges with positive capacity; otherwise it is 0 and the returned graph has no edges.", "quantifier": "all reachable graphs with non-negative capacities, all pairs of different nodes", "why_tests_cant": "All networks.", "anchors": ["graph/core.py:Graph.maximum_flow"]}
{"id": "C86", "title": "critical_path_minimize_for_slack adds no superfluous dependency", "statement": "With non-negative durations, every dependency in the graph critical_path_minimize_for_slack returns that was not in the project is needed: without it the critical path has the same length but the total slack is larger.", "quantifier": "all projects (non-empty DAGs with numeric non-negative durations) on which the call returns, all inserted edges, all orders of sorting and iteration", "why_tests_cant": "All projects; each inserted edge has to be tested after all later removals.", "anchors": ["graph/critical_path.py:critical_path_minimize_for_slack", "graph/critical_path.py:critical_path"]}
{"id": "C87", "title": "more dependencies never shorten a project", "statement": "If a project has all tasks and dependencies of another one (and non-negative durations), critical_path reports no smaller length and no earlier start for any task; if the length is the same, no later latest finish and no larger total slack.", "quantifier": "all pairs of projects with the same tasks", "why_tests_cant": "All pairs of DAGs.", "anchors": ["graph/critical_path.py:critical_path"]}
{"id": "C88", "title": "enumerations follow insertion order", "statement": "After any history, nodes() lists the nodes in the order in which they were added (since they were last absent); nodes/edges(from_node=n) and nodes/edges(to_node=n) list the edges at n in the order in which they were added; edges() groups them by source. Updating a node or edge, a rejected call and reading degrees move nothing; deleting and re-adding moves to the end.", "quantifier": "all histories of public operations", "why_tests_cant": "All histories; the order comes from three dictionaries whose keys are created and deleted independently.", "anchors": ["graph/base.py:BasicGraph.add_edge", "graph/base.py:BasicGraph.del_edge", "graph/base.py:BasicGraph.del_node", "graph/base.py:BasicGraph.nodes", "graph/base.py:BasicGraph.edges"]}
{"id": "C89", "title": "plot_2d shows the graph", "statement": "plot_2d raises ValueError exactly if some node is not a pair of numbers; otherwise it draws each edge exactly once between its ends (if edges) and one line through the nodes in order (if nodes), and nothing else.", "quantifier": "all reachable graphs with arbitrary node ids, all flags", "why_tests_cant": "All graphs and node values; drawings are not compared by tests.", "anchors": ["graph/visuals.py:plot_2d"]}
{"id": "C90", "title": "Graph3D.plot shows the graph, rotated", "statement": "Graph3D.plot raises ValueError exactly if the rotation is not an order of x, y, z or the aspect ratio of a graph without nodes is to be maintained; otherwise it draws each edge exactly once between its ends and each node once, all points with their i-th coordinate on the axis the rotation names i-th.", "quantifier": "all Graph3D graphs, rotations (all strings) and flags", "why_tests_cant": "All graphs and rotations; drawings are not compared by tests.", "anchors": ["graph/visuals.py:plot_3d", "graph/core.py:Graph3D.plot"]}
{"id": "C91", "title": "Graph3D.plot with maintain_aspect_ratio shows all nodes in a cube", "statement": "With maintain_aspect_ratio the limits of the three axes have the same length, the largest extent of the nodes, and all nodes are drawn inside the limits; each axis shows the coordinate it is labelled with.", "quantifier": "all non-empty Graph3D graphs, all six rotations", "why_tests_cant": "All graphs; the bug for cyclic rotations depends on the coordinates.", "anchors": ["graph/visuals.py:plot_3d", "graph/core.py:Graph3D.plot"]}
{"id": "C92", "title": "tsp_greedy returns a 2-optimal tour", "statement": "On a symmetric complete graph with positive values tsp_greedy always returns, and no section of the returned tour can be travelled backwards to make the round trip shorter.", "quantifier": "all symmetric complete graphs with at least two nodes, all node orders", "why_tests_cant": "All graphs; the exchanges are repeated an unbounded number of times and a stop rule based on counting tours could end them early.", "anchors": ["graph/tsp.py:tsp_greedy", "graph/tsp.py:_opt2"]}
{"id": "C93", "title": "tsp_2023 returns a local optimum", "statement": "On a symmetric complete graph with positive values and seven nodes or more the tour of tsp_2023 can be shortened neither by travelling a section backwards nor by exchanging two adjacent sections of at least two nodes.", "quantifier": "all symmetric complete graphs with at least seven nodes, all node orders", "why_tests_cant": "All graphs; the four improvement steps are chained and repeated an unbounded number of times.", "anchors": ["graph/tsp.py:tsp_2023", "graph/tsp.py:_opt1", "graph/tsp.py:_opt2", "graph/tsp.py:_opt3"]}
{"id": "C94", "title": "shortest_path is optimal in floating point arithmetic", "statement": "With non-negative edge values, whatever the rounding of sums (monotone, without overflow), shortest_path returns a simple path together with its length as the machine computes it from left to right, no path has a smaller computed length, and inf is returned exactly if there is no path; if one rounding has the relative error e, the returned path is longer than any other path by at most the accumulated errors ((1-e)^edges * length <= (1+e)^edges * other length).", "quantifier": "all graphs, nodes, avoids, rounding functions and relative errors up to 1", "why_tests_cant": "All rounding modes and number formats; rounding changes comparisons only on rare inputs.", "anchors": ["graph/shortest_path.py:shortest_path"]}
{"id": "C95", "title": "node names do not matter", "statement": "Renaming the nodes of a graph one-to-one (and building it in another order) changes neither is_connected, degree_of_separation and has_cycles nor the distances of shortest_path.", "quantifier": "all graphs, one-to-one renamings, histories of both graphs, sort orders", "why_tests_cant": "All renamings and histories; dictionary order and tie-breaking differ between the two graphs.", "anchors": ["graph/base.py:is_connected", "graph/degree_of_separation.py:degree_of_separation", "graph/dag.py", "graph/shortest_path.py:shortest_path"]}
{"id": "C96", "title": "reversing all edges mirrors the answers", "statement": "If all edges are turned round, is_connected, degree_of_separation and the distances of shortest_path of (b, a) are those of (a, b) before, has_cycles is unchanged, the critical path has the same length, and earliest start and latest finish of every task are mirrored.", "quantifier": "all graphs with non-negative values / all DAGs with non-negative durations, histories and sort orders", "why_tests_cant": "All graphs and histories.", "anchors": ["graph/shortest_path.py:shortest_path", "graph/critical_path.py:critical_path", "graph/base.py:is_connected"]}
{"id": "C97", "title": "the unit of values does not matter", "statement": "Multiplying all edge values by k > 0 multiplies the distances of shortest_path by k; multiplying all durations by k > 0 multiplies critical path length and all times of critical_path by k and leaves the tasks without slack the same.", "quantifier": "all graphs with non-negative values / all DAGs with non-negative durations, all k > 0, histories and sort orders", "why_tests_cant": "All graphs and factors.", "anchors": ["graph/shortest_path.py:shortest_path", "graph/critical_path.py:critical_path"]}
{"id": "C98", "title": "maximum_flow keeps its guarantees with floating point reciprocals", "statement": "maximum_flow picks its paths by sums of 1 / capacity, which are rounded floats even for integer capacities. Whatever the rounding, with non-negative exact (e.g. integer) capacities and start != end it returns a feasible flow of the reported value that is maximal or blocks every path, the value is the maximum on networks without merges or without forks, and maximum_flow_min_cut returns exactly the edges described in C40.", "quantifier": "all graphs with non-negative capacities, all start/end pairs, all monotone rounding functions", "why_tests_cant": "All rounding modes: a wrong tie or order of paths shows only on rare capacities.", "anchors": ["graph/max_flow.py:maximum_flow", "graph/max_flow_min_cut.py:maximum_flow_min_cut"]}
{"id": "C99", "title": "integer data give integer flows", "statement": "If all capacities are integers, all flows and the value returned by maximum_flow are integers; if all costs, stocks and capacities are integers, the shipments and the total cost returned by minimum_cost_flow are integers.", "quantifier": "all graphs, start/end pairs, inventories and capacities, whenever the call returns", "why_tests_cant": "All networks and numbers of iterations.", "anchors": ["graph/max_flow.py:maximum_flow", "graph/min_cost_flow.py:minimum_cost_flow_using_successive_shortest_path"]}
{"id": "C100", "title": "graph objects share no dictionary", "statement": "In any program with any number of graph objects, copies, subgraphs, to_dict results and dictionaries of its own (aliased and modified in any way), every operation on a graph has the same effect as if graphs were values, changes no other graph and no dictionary of the caller; copy, subgraph and to_dict return objects made of new dictionaries; from_dict keeps no reference to its argument; and nothing the caller does to a dictionary it passed in or received changes a graph.", "quantifier": "all programs over graph objects and caller dictionaries, all interleavings", "why_tests_cant": "Sharing shows only when one of two aliased objects is modified later; all programs and alias patterns.", "anchors": ["graph/base.py:BasicGraph", "graph/base.py:copy", "graph/base.py:subgraph", "graph/base.py:to_dict", "graph/base.py:from_dict"]}
{"id": "C101", "title": "equal graphs get equal answers", "statement": "Two graphs that compare equal with ==, however they were built, get the same answers: is_connected, has_path, has_cycles, degree_of_separation, lengths of breadth_first_search, node sets of depth_scan, network_size and breadth_first_walk, components, all_simple_paths, distances of shortest_path, shortest_path_bidirectional, distance_from_path and all_pairs_shortest_paths, the selections of minmax and minsum, topological_sort (nodes), phase_lines, sources and critical_path. (maximum_flow is not such a function: its value can depend on the order in which edges were added.)", "quantifier": "all pairs of equal graphs with arbitrary histories, all arguments, all set orders", "why_tests_cant": "All pairs of histories that lead to equal content, in any dictionary order.", "anchors": ["graph/base.py:__eq__", "graph/shortest_path.py:shortest_path", "graph/critical_path.py:critical_path", "graph/max_flow.py:maximum_flow"]}
{"id": "C102", "title": "shortest_path with arbitrary values", "statement": "With arbitrary edge values, negative ones and negative cycles included, shortest_path(start, end, avoids) returns (never loops forever): a walk from start to end without repeated nodes outside avoids together with its total value, or (inf, []) exactly if there is no such walk. (With negative values it need not be the shortest.)", "quantifier": "all graphs with arbitrary rational values, all start/end/avoids", "why_tests_cant": "All values and graphs; termination on negative cycles.", "anchors": ["graph/shortest_path.py:shortest_path"]}
{"id": "C103", "title": "avoiding nodes is deleting them; parts of shortest paths are shortest", "statement": "shortest_path(a, b, avoids) has the same distance as shortest_path(a, b) on the graph after deleting the nodes in avoids, and as on the subgraph of the other nodes. A section of a path returned by shortest_path has the length that shortest_path returns for its two ends.", "quantifier": "all graphs with non-negative values, all avoids, all pairs of nodes, all sections of the returned path", "why_tests_cant": "All graphs, avoid sets and sections.", "anchors": ["graph/shortest_path.py:shortest_path", "graph/base.py:del_node", "graph/base.py:subgraph"]}
{"id": "C104", "title": "all_pairs_shortest_paths with arbitrary values", "statement": "On every graph, negative cycles included: an entry (a, b) is inf exactly if there is no walk, otherwise it is the value of some walk and at most the value of every path without repeated nodes; some diagonal entry is negative exactly if there is a negative cycle along edges between different nodes; if no diagonal entry and no loop is negative every entry is the distance.", "quantifier": "all graphs with arbitrary rational values, all pairs of nodes", "why_tests_cant": "All values and graphs.", "anchors": ["graph/all_pairs_shortest_path.py:all_pairs_shortest_paths", "graph/adjacency_matrix.py:adjacency_matrix"]}
{"id": "C105", "title": "shortest_path_bidirectional with arbitrary values", "statement": "With arbitrary edge values, whenever shortest_path_bidirectional(start, end, avoids) returns, it returns a walk from start to end (through no node of avoids other than its ends) with its total value, or (inf, []) only if no walk avoids avoids; it never raises for nodes of the graph; it returns whenever there is no negative cycle. (With a negative cycle it may run forever, and with negative values the walk need not be the shortest.)", "quantifier": "all graphs with arbitrary rational values, all start/end/avoids, all edge orders", "why_tests_cant": "All values and graphs; termination.", "anchors": ["graph/shortest_path.py:shortest_path_bidirectional", "graph/shortest_path.py:BiDirectionalSearch"]}
{"id": "C106", "title": "from_list and from_dict stop at the first bad item", "statement": "from_list raises the exception of the first item that is not a list or tuple (AssertionError), is empty (IndexError), has more than four elements (TypeError) or has a container as value (ValueError), and nothing otherwise; the graph then holds exactly what the items before it give, and stays usable. from_dict raises ValueError at the first entry whose value is a container, after having added exactly the entries before it.", "quantifier": "all argument lists and dictionaries, all graphs the method is called on", "why_tests_cant": "All positions and kinds of bad items, all prefixes.", "anchors": ["graph/base.py:from_list", "graph/base.py:from_dict", "graph/base.py:add_edge"]}
{"id": "C107", "title": "iterators while the graph changes", "statement": "A program may change the graph between two calls of next() on an iterator. topological_sort answers for the graph at the first next(): later changes have no effect on what it yields or raises. breadth_first_walk follows the graph as it is: it yields start first, no node twice, only nodes that were neighbours of a node yielded before when that node was left, stops after end, raises only ValueError and only at the first call (start or end missing then); if it stops and edges were only added, every node reachable at the beginning has been yielded. Without changes it yields the list of breadth_first_walk.", "quantifier": "all graphs, all interleavings of arbitrary operations of the graph with calls of next()", "why_tests_cant": "All interleavings of mutations and iteration.", "anchors": ["graph/topological_sort.py:topological_sort", "graph/bfs.py:breadth_first_walk"]}
{"id": "C108", "title": "Graph3D inherits the methods of Graph", "statement": "Every method that Graph3D inherits from Graph answers on a Graph3D as on a Graph with the same nodes, objects and edges, although Graph3D overrides copy, distance and add_edge: topological_sort, has_cycles, phase_lines, critical_path, loop, solve_tsp, critical_path_minimize_for_slack and flow_graph_hash.", "quantifier": "all histories of public operations on a Graph3D, all arguments", "why_tests_cant": "All histories and all graphs; the interaction is between code in different modules.", "anchors": ["graph/core.py:Graph3D.copy", "graph/core.py:Graph3D.distance", "graph/core.py:Graph3D.add_edge", "graph/topological_sort.py:topological_sort", "graph/dag.py:phase_lines", "graph/cycle.py:cycle", "graph/critical_path.py:critical_path_minimize_for_slack", "graph/tsp.py:tsp_greedy", "graph/hash_methods.py:flow_graph_hash"]}
{"id": "C109", "title": "critical_path in floating point arithmetic", "statement": "Computed with floats, critical_path returns for every DAG with non-negative durations; earliest_start is the largest computed total of a chain of predecessors, the length the largest of any chain, latest_finish the smallest result of subtracting a chain of successors from it; both schedules respect all dependencies; some task finishes last in both. Every number is within 2 n 2^-52 times the project length of the exact one; with integer durations it is exact; it raises when the exact computation does.", "quantifier": "all reachable DAGs, all non-negative durations, all sort orders, all monotone roundings (and IEEE doubles in particular)", "why_tests_cant": "Rounding errors depend on all durations and all chains; tests use small integers.", "anchors": ["graph/critical_path.py:critical_path"]}
{"id": "C110", "title": "slack is a reliable sign of critical tasks in floating point arithmetic", "statement": "Computed with floats, the slack of a task is never negative, is zero for the tasks of the critical path, and differs from the exact slack only by rounding errors.", "quantifier": "all reachable DAGs, all non-negative durations, all sort orders", "why_tests_cant": "Rounding errors depend on all durations and all chains.", "anchors": ["graph/critical_path.py:critical_path", "graph/critical_path.py:Task.slack"]}
{"id": "C111", "title": "shortest_path with any number type, float(inf) and overflow", "statement": "shortest_path uses nothing of the edge values but cost + value and <. (1) For values of any number type whose sums are ordered by < and ==, where adding respects the order and no value makes a sum smaller, it returns a simple walk avoiding avoids whose values added from left to right are not more than those of any other such walk, and (inf, []) exactly when there is none, whichever of several smallest entries the heap hands out. (2) This covers values float(inf): a finite shortest walk if there is one, else (inf, some walk), else (inf, []); and Python floats with rounding and overflow to inf. (3) With no assumption on the values (negative, nan, any class) and any heap order it still returns a simple walk with the sum of its values if a walk exists, (inf, []) otherwise, and ValueError exactly for missing nodes.", "quantifier": "all graphs reachable by public operations, all number types, all values, all start/end/avoids, all heap orders", "why_tests_cant": "Ranges over all number types and all walks; ties and heap layout are not visible to tests.", "anchors": ["graph/shortest_path.py:shortest_path"]}
{"id": "C112", "title": "jam_solver and equal hashes", "statement": "jam_solver takes two states to be equal if their hashes are equal. If no two placements of the loads on nodes of the network have the same hash, this changes nothing: the result is that of the solver that compares the placements, so the guarantees of C52, C53 and C59 hold. In general it should hold too.", "quantifier": "all networks, all sets of loads, all hash functions, all timeouts and clocks, all iteration orders", "why_tests_cant": "Collisions depend on the values of nodes and identifiers; no test set covers the hash function.", "anchors": ["graph/traffic_scheduling_problem.py:State, JamSolver, jam_solver"]}
{"id": "C113", "title": "minimum_cost_flow with one supplier is optimal", "statement": "minimum_cost_flow(costs, inventory) without capacities, with non-negative costs, one node with a positive inventory and enough of it: if every node with a negative inventory can be reached from it, the result meets every demand and no shipment that does costs less; if not, Exception is raised, and no shipment meets all demand. (Without enough supply the result need not be the cheapest.)", "quantifier": "all cost graphs, all inventories with one positive entry and a non-negative sum, all node orders", "why_tests_cant": "Optimality compares with all shipments; tests compare with a few totals.", "anchors": ["graph/min_cost_flow.py:minimum_cost_flow_using_successive_shortest_path"]}
{"id": "C114", "title": "wtap_solver in floating point", "statement": "Whatever rounding the arithmetic uses, wtap_solver(probabilities, weapons, target_values) on valid input comes to an end and returns an engagement of every weapon with one of its targets, together with its (rounded) surviving value, which moving the last weapon does not lower. (False: it can run forever. It holds if the order in which the success rates at a target are multiplied does not change the rounded product, in particular if at most two weapons can engage the same target; and whenever it does come to an end the result is an engagement of all weapons.)", "quantifier": "all probability graphs, weapons, target values, all monotone roundings, all node orders", "why_tests_cant": "The hang needs probabilities whose rounded products depend on the order of the factors; the tests use instances where they do not.", "anchors": ["graph/assignment_problem.py:wtap_solver", "graph/assignment_problem.py:_damages"]}
{"id": "C115", "title": "all_pairs_shortest_paths, minmax, minsum and shortest_tree_all_pairs in floating point", "statement": "With non-negative edge values and rounded arithmetic, every entry of all_pairs_shortest_paths() is the exact distance up to as many relative rounding errors as there are nodes (inf exactly if there is no walk), and it is the value of an actual walk added up in some order of brackets. minmax and minsum return nodes that are best up to rounding errors, and every node that is clearly the best; shortest_tree_all_pairs returns all nodes sorted by distance up to rounding errors, or raises KeyError if no node reaches all. With integers in 0..M and 2*M*(number of nodes) <= 2**53 the answers are the exact ones. (The entries need not be the value shortest_path returns, and ties that exist in exact arithmetic may be lost.)", "quantifier": "all built graphs with non-negative values, all roundings with a bounded relative error (in particular IEEE doubles)", "why_tests_cant": "Rounding depends on the order in which the nodes are processed; tests use integers.", "anchors": ["graph/all_pairs_shortest_path.py:all_pairs_shortest_paths", "graph/minmax.py:minmax", "graph/minsum.py:minsum", "graph/shortest_tree_all_pairs.py:shortest_tree_all_pairs"]}
{"id": "C116", "title": "topological_sort, has_cycles and critical_path with nodes that cannot be compared", "statement": "topological_sort yields the nodes layer by layer (by the length of the longest walk to them), each layer sorted; it raises TypeError when it reaches a layer with nodes that cannot be compared (1 < \"a\"), after yielding all layers before it, and never for another reason than that or a cycle. has_cycles finds self-loops in any case; otherwise it raises TypeError exactly if some layer has incomparable nodes, and else tells whether there is a cycle. critical_path raises TypeError exactly in the same case.", "quantifier": "all built graphs, all comparability relations on the nodes, all sorting functions that raise exactly on incomparable elements", "why_tests_cant": "Tests use nodes of one type; which comparisons are made depends on the longest walks in the graph.", "anchors": ["graph/topological_sort.py:topological_sort", "graph/cycle.py:has_cycles", "graph/critical_path.py:critical_path"]}
{"id": "C117", "title": "shortest_path_bidirectional with nodes that cannot be compared", "statement": "shortest_path_bidirectional sorts tuples (value, node). It returns what it should, or it raises TypeError; it raises TypeError only if two edges with the same value, both leaving or both entering one node, have other ends that cannot be compared; it always raises TypeError if this is the case for the edges leaving start or for those entering end.", "quantifier": "all built graphs with non-negative values, all comparability relations, all start, end and avoids", "why_tests_cant": "Whether the ties are met depends on how far both searches get.", "anchors": ["graph/shortest_path.py:shortest_path_bidirectional", "graph/shortest_path.py:BiDirectionalSearch"]}
{"id": "C118", "title": "ap_solver with nodes that cannot be compared", "statement": "ap_solver raises TypeError exactly if an agent has two tasks with the same value that cannot be compared; the dummy tasks it added are then left in the graph. Otherwise it returns a stable assignment as it does for comparable nodes.", "quantifier": "all built bipartite graphs with an edge, all comparability relations of the nodes", "why_tests_cant": "Tests use strings only, and do not look at the graph after an exception.", "anchors": ["graph/assignment_problem.py:ap_solver"]}
{"id": "C119", "title": "graph_hash with nodes that cannot be compared", "statement": "graph_hash sorts the nodes and the edges. It raises TypeError exactly if two nodes of the graph cannot be compared (1 < \"a\"), whatever the edges and their values are; otherwise it returns the hash of the content. Edge values are never compared.", "quantifier": "all built graphs, all symmetric comparability relations of the nodes, all comparability relations of the values", "why_tests_cant": "Tests hash graphs whose nodes have one type.", "anchors": ["graph/hash_methods.py:graph_hash"]}
{"id": "C120", "title": "wtap_solver with targets that cannot be compared", "statement": "wtap_solver sorts (surviving value, target). It does what it does on comparable nodes, or it raises TypeError; it raises TypeError only if some weapon has two targets that cannot be compared, and always if the first weapon has two such targets that leave the same surviving value.", "quantifier": "all built graphs and inputs that pass the checks, all comparability relations of the nodes", "why_tests_cant": "Whether a tie is met depends on all the engagements made before.", "anchors": ["graph/assignment_problem.py:wtap_solver"]}
{"id": "C121", "title": "minimum_cost_flow with nodes that cannot be compared", "statement": "minimum_cost_flow_using_successive_shortest_path sorts (stock, node) and (distance, stock, node), and inserts (stock, node) by binary search. It does what it does on comparable nodes, or it raises TypeError; it raises TypeError only if two nodes that cannot be compared both have supply or both have demand, and always if their supplies or demands are equal.", "quantifier": "all built graphs of non-negative costs, all inventories and capacities that pass the checks, all comparability relations of the nodes", "why_tests_cant": "The stocks change while the search runs, so ties can appear that are not in the input.", "anchors": ["graph/min_cost_flow.py:minimum_cost_flow_using_successive_shortest_path"]}
{"id": "C122", "title": "jam_solver with nodes that cannot be compared", "statement": "jam_solver sorts the moves of a load by (distance, node). It does what it does on comparable nodes, or it raises TypeError; it raises TypeError only if two connections of the same length, both leaving or both entering one node, have other ends that cannot be compared, and where a plan would be found it does so if this is the case for two free, not prohibited neighbours of the start of a load.", "quantifier": "all built networks with non-negative distances, all loads, timeouts, clocks and set orders, all comparability relations of the nodes", "why_tests_cant": "Whether a tie is met depends on how far both searches get.", "anchors": ["graph/traffic_scheduling_problem.py:jam_solver"]}
{"id": "C123", "title": "The queues kept with bisect.insort are always sorted", "statement": "bisect.insort finds the place of an element by binary search, which is right only in a sorted list. In shortest_path_bidirectional, tsp_branch_and_bound, jam_solver and minimum_cost_flow_using_successive_shortest_path the queues are sorted whenever insort is called, although elements are removed and replaced in between; so the results are those of a queue in which every element is put behind all that are not greater.", "quantifier": "all graphs, also with negative values, all loads, inventories, set orders and clocks; all total orders of the nodes", "why_tests_cant": "A queue out of order shows only in some later iteration of some search.", "anchors": ["graph/shortest_path.py:BiDirectionalSearch", "graph/tsp.py:tsp_branch_and_bound", "graph/traffic_scheduling_problem.py:JamSolver", "graph/min_cost_flow.py:minimum_cost_flow_using_successive_shortest_path"]}
{"id": "C124", "title": "shortest_path with the binary heap of heapq; nodes are never compared", "statement": "shortest_path keeps its queue in a list with heapq.heappush and heapq.heappop. On this binary heap it returns what it returns with a queue that always hands out the smallest entry, also with negative values; comparing two entries never gets past the cost and the counter, so the nodes need no order. With values that are not ordered (nan) the list is no heap any more, and still a walk is returned if there is one.", "quantifier": "all graphs, number types, starts, ends and sets to avoid; all contents of the heap", "why_tests_cant": "The order inside the heap depends on all pushes and pops before; a wrong sift shows only in some later pop.", "anchors": ["graph/shortest_path.py:shortest_path"]}
{"id": "C125", "title": "None as a node", "statement": "None may be added as a node like any other hashable value, but nodes(from_node=None) and edges(from_node=None) are the calls without arguments. breadth_first_search, depth_first_search, all_simple_paths and shortest_path are right as long as None cannot be reached from the start; depth_first_search, all_simple_paths and shortest_path also with None as the end. In general the searches treat None as a node with an edge to every node, and they always end.", "quantifier": "all graphs with or without the node None, starts, ends and sets to avoid", "why_tests_cant": "The default argument matters only if the search gets to the node None; this depends on the whole graph.", "anchors": ["graph/base.py:nodes", "graph/base.py:edges", "graph/bfs.py:breadth_first_search", "graph/dfs.py:depth_first_search", "graph/all_simple_paths.py:all_simple_paths", "graph/shortest_path.py:shortest_path"]}
{"id": "C126", "title": "How many passes the searches need", "statement": "The while loops of breadth_first_search, breadth_first_walk, depth_first_search, depth_scan, network_size, topological_sort, phase_lines and distance_map and each loop of components run at most once per node and a last time; the loop of shortest_path at most once per edge and two more times, that of sources at most N*N+1 times if no cycle lies upstream. is_connected has no such bound: there are graphs with 2k+2 nodes for which it takes more than 2**k passes.", "quantifier": "all graphs, starts, ends, iteration orders of sets, edge values of any sign", "why_tests_cant": "The number of passes is a worst case over all graphs of every size.", "anchors": ["graph/bfs.py:breadth_first_search", "graph/bfs.py:breadth_first_walk", "graph/dfs.py:depth_first_search", "graph/dfs.py:depth_scan", "graph/base.py:network_size", "graph/base.py:is_connected", "graph/topological_sort.py:topological_sort", "graph/dag.py:sources", "graph/shortest_path.py:shortest_path", "graph/distance_map.py:distance_map"]}
{"id": "C127", "title": "The searches do not look at edge values", "statement": "Two graphs built by the same calls up to the values given to add_edge (which may be numbers in one and None or strings in the other; only whether a value is a rejected container must agree) give the same nodes, degrees and edges without their values, and the same results, element by element and in the same order, from is_connected, breadth_first_search, breadth_first_walk, degree_of_separation, depth_first_search, depth_scan, network_size, components, all_simple_paths, all_paths, sources, topological_sort, has_cycles, phase_lines, critical_path and is_partite.", "quantifier": "all pairs of construction histories that agree up to values (values of any type), all arguments, all iteration orders of sets", "why_tests_cant": "A relation between two runs over all histories and all value types.", "anchors": ["graph/base.py:BasicGraph", "graph/bfs.py:breadth_first_search", "graph/dfs.py:depth_first_search", "graph/all_simple_paths.py:all_simple_paths", "graph/all_paths.py:all_paths", "graph/topological_sort.py:topological_sort", "graph/critical_path.py:critical_path", "graph/dag.py:phase_lines", "graph/partite.py:is_partite"]}
{"id": "C128", "title": "Edge values that are no numbers", "statement": "add_edge accepts None (or any object that is not a dict, list or tuple) as value. On a graph with such values shortest_path always ends. If it returns a path, all its edges carry numbers, it avoids the avoided nodes and its length is the sum (and, with non-negative numbers, no path along numbers is shorter); it returns (inf, []) only if the end cannot be reached at all, whatever the values. Otherwise it raises TypeError, and then an edge without a number leaves a node reached along numbers before the end; it does so whenever the end can be reached but not along numbers. With numbers only it is the shortest_path of the other properties. has_path([..]) should say whether all edges of the path are there: it says False on an edge whose value is None.", "quantifier": "all graphs with values that are numbers or None, all starts, ends and avoided nodes, all paths", "why_tests_cant": "Whether the search meets an edge without a number depends on the whole graph.", "anchors": ["graph/shortest_path.py:shortest_path", "graph/base.py:has_path", "graph/base.py:BasicGraph.add_edge"]}
{"id": "C129", "title": "How far maximum_flow can be from the maximum", "statement": "With non-negative capacities and start != end the value that maximum_flow returns is at least 1/(n-1) of every feasible flow, n being the number of nodes; if no path from start to end has more than L edges it is at least 1/L of every feasible flow (so it is the maximum if all paths are single edges). The share can be small: there is a network where 1 is returned and 3 is possible.", "quantifier": "all graphs with non-negative capacities, all start != end, all feasible flows, all L", "why_tests_cant": "A guarantee against every feasible flow of every network.", "anchors": ["graph/max_flow.py:maximum_flow"]}
{"id": "C130", "title": "What an exception of a graph method leaves behind", "statement": "Whatever objects are handed to add_node, add_edge, del_edge, del_node, in_degree, out_degree and from_list, hashable or not, a call raises exactly if the value is a container (ValueError) or a node is unhashable (TypeError; del_edge whose first node has no outgoing edge returns instead). A call that raises changes no edge, no object and removes no node; the graph is as before, except that add_edge(a, unhashable) with a new node a leaves a behind. from_list stops at the first bad item. Whatever history of calls and caught exceptions, the graph is one that proper calls could have made. edge and reverse_edge with an unhashable second node raise only if the first has an edge in that direction; edges(path) raises TypeError or KeyError, whichever lookup fails first.", "quantifier": "all graphs, all calls with hashable and unhashable nodes and any values, all histories, all lists of items, all paths", "why_tests_cant": "Every crash point of every history; the state after the exception is the point.", "anchors": ["graph/base.py:BasicGraph.add_edge", "graph/base.py:BasicGraph.add_node", "graph/base.py:BasicGraph.del_edge", "graph/base.py:BasicGraph.del_node", "graph/base.py:BasicGraph.from_list", "graph/base.py:BasicGraph.edge"]}
{"id": "C131", "title": "ap_solver on floating point values", "statement": "With float values and any rounding ap_solver terminates without exception on every bipartite graph with an edge and returns a one-to-one assignment along edges. For doubles whose smallest is above -2^53 and at most 2^53 the assignment is stable and, for non-negative values, worth at least half of every other one, as in exact arithmetic. Where the smallest value minus 1 is rounded to that value itself, edges of that value are never assigned.", "quantifier": "all bipartite graphs, all rounding functions, all doubles, all orders of equal values", "why_tests_cant": "Every rounding of every input; the threshold comes from the number format.", "anchors": ["graph/assignment_problem.py:ap_solver"]}
{"id": "C132", "title": "The travelling salesman functions on floating point values", "statement": "On a complete graph with positive values, whatever the rounding of an addition and whichever algorithm the builtin sum uses: tsp_greedy terminates without exception and returns a tour together with the sum of the values along it, and that is at most the sum for its greedy start; tsp_2023 (two to six nodes) returns the round trip whose rounded length is smallest; tsp_2023 (seven nodes or more) terminates and returns a tour with its sum, at most the sum for the greedy start. The sum is the exact length of the tour up to one relative error per node. On integers small enough to be exact doubles the functions compute what they compute in exact arithmetic.", "quantifier": "all complete positively weighted graphs, all rounding functions, all sum functions, all tie orders of the nodes", "why_tests_cant": "Local search loops compare rounded sums; whether they can cycle depends on every combination of rounding errors.", "anchors": ["graph/tsp.py:tsp_greedy", "graph/tsp.py:tsp_2023", "graph/tsp.py:brute_force", "graph/tsp.py:_opt3"]}
{"id": "C133", "title": "distance_from_path on floating point values", "statement": "With any monotone rounding and non-negative values distance_from_path terminates and returns the rounded lengths of the legs (the edge, or the smallest rounded length of a detour) added from left to right, on a walk just the left to right sum of its values; the cache of detours does not influence the result. The result differs from the exact length of the route by at most one relative error per leg and per node and is infinite exactly if that is.", "quantifier": "all graphs, all rounding functions, all paths of nodes of the graph", "why_tests_cant": "Every rounding of every input.", "anchors": ["graph/core.py:Graph.distance_from_path", "graph/shortest_path.py:distance_from_path"]}
{"id": "C134", "title": "minimum_cost_flow on floating point values", "statement": "With float costs, stocks and capacities and any symmetric rounding of relative error e < 1, minimum_cost_flow terminates. With n the number of edges plus the number of stocks there is an exact shipment that exceeds capacities, supplies and demands by at most the factor (1+e)^n; the returned flows are this shipment up to n relative errors and all demand or all supply is used up to the factor (1-e)^n, or Exception is raised and the shipment is stuck; the returned total is the cost of the returned flows up to one relative error per edge and one more.", "quantifier": "all cost graphs, inventories and capacities, all rounding functions", "why_tests_cant": "Every rounding of every input and every number of iterations; the errors add up.", "anchors": ["graph/min_cost_flow.py:minimum_cost_flow_using_successive_shortest_path"]}
{"id": "C135", "title": "shortest_path_bidirectional on floating point values", "statement": "With non-negative float values and any rounding, shortest_path_bidirectional terminates without exception (ValueError for missing nodes). If a walk outside avoids exists it returns such a walk with its length as added up from both ends to one of its nodes, and every such walk has a node for which this length is not smaller; otherwise (inf, []). The number returned is the true length of the path up to one relative error per node, and the path is no longer than any other up to the accumulated errors. On integers small enough it is the exact distance of shortest_path.", "quantifier": "all graphs with non-negative values, all start, end outside avoids, all orders of the edges of a node, all rounding functions", "why_tests_cant": "The two searches prune with rounded sums that depend on the meeting point; no finite set of floats covers this.", "anchors": ["graph/shortest_path.py:shortest_path_bidirectional, graph/shortest_path.py:BiDirectionalSearch"]}
{"id": "C136", "title": "Bidirectional and memoised paths are simple", "statement": "The path that shortest_path_bidirectional returns visits no node twice, whatever avoids is and whatever the rounding, also with edges of value 0. The path in every answer of shortest_path(memoize=True), after any history of queries and changes of the graph and with any hash collisions, visits no node twice and leads from start to end, unless it is empty.", "quantifier": "all graphs with non-negative values, all avoids, all rounding functions; all histories of memoised queries and changes", "why_tests_cant": "Two searches that meet could share nodes; the cache keeps sections of old answers across changes.", "anchors": ["graph/shortest_path.py:shortest_path_bidirectional, graph/shortest_path.py:ShortestPathCache"]}
{"id": "C137", "title": "shortest_path(memoize=True) on floating point values", "statement": "With non-negative float values, any rounding and any history of memoised queries on an unchanged graph, every query terminates; it raises ValueError exactly if a node is missing. Without avoids it returns (inf, []) if there is no walk, and otherwise a simple walk from start to end with its length added from left to right; the walk is a section of the path that the bidirectional search finds for this or an earlier query, so its excess over the shortest walk is bounded by the accumulated relative errors of the length of that path (not of the distance between start and end: an earlier query can spoil a later one). With avoids it returns what the bidirectional search returns for this or an earlier query with the same hash. On integers small enough the answers are exact.", "quantifier": "all graphs with non-negative values, all histories of memoised queries, all hashes, all rounding functions", "why_tests_cant": "The answer depends on the whole history of queries through the cached sections, and on the rounding of the paths of earlier queries.", "anchors": ["graph/shortest_path.py:ShortestPathCache, graph/core.py:BasicGraph.shortest_path"]}
{"id": "C138", "title": "maximum_flow on floating point capacities", "statement": "With non-negative float capacities (flows, remaining capacities, the total, the reciprocals and the path lengths all rounded to nearest), maximum_flow terminates after at most two paths per edge. The flow is put together from simple paths from start to end along edges with capacity: recorded flows and total are the rounded sums of the positive amounts sent along these paths, no flow exceeds its capacity by more than one rounding of (1 + eps) times the capacity, and the search stops only when the rounded rest of min(inflow, outflow) is 0 or every path has an edge whose flow is at least its capacity. Up to accumulated relative errors the recorded flow is an exact, conserved flow and no larger than any cut. On integers with sums up to 2^53 nothing but the reciprocals and path lengths is rounded.", "quantifier": "all graphs with non-negative capacities, all pairs of nodes, all rounding functions with small relative error that satisfy the lemma of Sterbenz", "why_tests_cant": "Termination depends on how the rounded remaining capacities reach zero: a single rounding that leaves a tiny positive rest on every round would loop; tests only see a few networks.", "anchors": ["graph/max_flow.py:maximum_flow"]}
{"id": "C139", "title": "distance_map on floating point values", "statement": "With float values and any rounding, distance_map terminates and reaches the same nodes in the same order as with exact values; starts have the value 0, every other value is the rounded length (added in the direction of the search) of a walk with at most as many edges as there are nodes, hence never smaller than the distance up to one relative error per edge; with one common edge value it is the smallest rounded length. On integers small enough nothing is rounded. The two directions can disagree on one path.", "quantifier": "all graphs with non-negative values, all start/end sets, both directions, all set iteration orders, all rounding functions", "why_tests_cant": "The traversal must not depend on how sums are rounded; tests compare a few maps with literal numbers.", "anchors": ["graph/distance_map.py:distance_map"]}
{"id": "C140", "title": "maximum_flow_min_cut on floating point capacities", "statement": "With float capacities, maximum_flow_min_cut terminates and returns nothing if the total of maximum_flow is 0, and otherwise edges without duplicates whose flow, like that of every other edge the flow uses out of the same node, is exactly the capacity and whose node the flow reaches in at most as many steps as end; all such edges reached in fewer steps than end are returned. When the returned edges separate start from end, the total is at most their capacity up to rounding error. An edge that rounding overfills is missed. On integers small enough nothing is rounded.", "quantifier": "all graphs with non-negative capacities, all pairs of different nodes of the graph, all rounding functions with bounded relative error and exact close differences", "why_tests_cant": "Which edges count as full depends on exact comparisons of rounded sums; tests use small integer capacities.", "anchors": ["graph/max_flow_min_cut.py:maximum_flow_min_cut"]}
{"id": "C141", "title": "How many passes the flow and assignment algorithms need", "statement": "Whatever the numbers are, the loop of maximum_flow runs at most once per edge and a last time (with float capacities: twice per edge and a last time), that of minimum_cost_flow_using_successive_shortest_path at most once per edge and once per entry of the inventory and a last time, that of ap_solver at most once per agent, per edge and per edge to a dummy task and a last time, and that of wtap_solver at most as often as there are ways to engage the weapons and two more times (with floats: if the order in which the weapons of a target are multiplied does not matter).", "quantifier": "all graphs, capacities, costs, inventories and values that the functions accept, all node orders, all rounding functions with bounded relative error and exact close differences", "why_tests_cant": "An augmenting path algorithm can take a number of passes that depends on the capacities; no set of examples shows that it never does.", "anchors": ["graph/max_flow.py:maximum_flow", "graph/min_cost_flow.py:minimum_cost_flow_using_successive_shortest_path", "graph/assignment_problem.py:ap_solver", "graph/assignment_problem.py:wtap_solver"]}
