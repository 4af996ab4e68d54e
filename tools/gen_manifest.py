"""Regenerates /verif/MANIFEST.json.  Theorem names are fully qualified (namespace GT)."""
import json, os, re, glob
C = {}
def c(pid, status, note, *thms):
    C[pid] = dict(property=pid, status=status, theorems=["GT." + t for t in thms], note=note)

c("C01", "proved", "Refinement to a pair of maps for every history.", "C01_history_refines_maps")
c("C02", "proved", "Every reachable graph; argument dispatch of nodes() and edges() included.", "C02_enumerations_exact", "C02_nodes_dispatch", "C02_edges_dispatch")
c("C03", "partial", "Degrees exact for all histories; filters exact unless the history reads the degree of a foreign node (defaultdict phantom key; counterexample proved).", "C03_degrees_exact", "C03_degree_filter_partial", "C03_degree_filter_any_history", "C03_phantom_counterexample")
c("C04", "proved", "Literal layer with KeyError as a value.", "C04_mutators_never_fail", "C04_rejected_call_changes_nothing")
c("C05", "partial", "Proved for BasicGraph/Graph; Graph3D.copy loses node objects (counterexample). Independence is proved in a store of graph values; that objects share no dictionary is C100.", "C05_copy_equal", "C05_copies_independent", "C05_graph3D_copy_loses_objects")
c("C06", "proved", "", "C06_eq_extensional", "C06_eq_equivalence")
c("C07", "proved", "", "C07_dict_round_trip", "C07_list_round_trip", "C07_dict_of_graph_of_dict")
c("C08", "proved", "Any list of nodes (any iteration order of a set, duplicates allowed).", "C08_subgraph_induced")
c("C09", "proved", "", "C09_is_subgraph_inclusion", "C09_is_subgraph_order")
c("C10", "proved", "", "C10_has_path", "C10_edges_of_path")
c("C11", "partial", "Exact for non-empty lists; two distinct empty lists are reported different (counterexample).", "C11_same_path_rotation_partial", "C11_same_path_equivalence_partial", "C11_empty_counterexample")
c("C57", "partial", "The code always adds the closing edge (and twice with return_to_start): exact value proved, claim refuted by a witness.", "C57_distance_closed_partial", "C57_errors", "C57_counterexample")
c("C12", "proved", "Cycles included; termination proved (possibly exponential in time).", "C12_is_connected")
c("C13", "proved", "Node ids are not None.", "C13_breadth_first_search")
c("C14", "proved", "", "C14_breadth_first_walk", "C14_breadth_first_walk_end", "C14_errors")
c("C15", "proved", "", "C15_degree_of_separation", "C15_errors")
c("C16", "proved", "", "C16_depth_first_search")
c("C17", "proved", "", "C17_depth_scan", "C17_errors")
c("C18", "proved", "", "C18_network_size", "C18_errors")
c("C19", "proved", "", "C19_components")
c("C20", "proved", "", "C20_all_simple_paths", "C20_errors")
c("C21", "partial", "Sound on all graphs and exact on DAGs; on cyclic graphs the code may raise IndexError, never return, miss simple paths or repeat nodes (all proved).", "C21_all_paths_sound_partial", "C21_all_paths_dag", "C21_errors", "C21_index_error_counterexample", "C21_divergence_counterexample", "C21_missing_path_counterexample", "C21_repeated_nodes_counterexample")
c("C22", "proved", "Exact whenever no cycle is upstream of n; never returns otherwise.", "C22_sources", "C22_sources_diverges", "C22_errors")
c("C23", "proved", "Any key (any permutation oracle for the sort).", "C23_topological_sort")
c("C24", "proved", "", "C24_has_cycles")
c("C25", "partial", "Full claim proved for every non-empty DAG; exact behaviour on all graphs; a cycle no source reaches is missed (counterexample) and the empty graph raises.", "C25_phase_lines_dag", "C25_phase_lines_partial", "C25_hidden_cycle_counterexample", "C25_empty_graph")
c("C26", "proved", "Exact rationals instead of floats.", "C26_critical_path", "C26_errors")
c("C27", "partial", "All safety claims proved for every DAG when the call returns; it may raise AttributeError (counterexample).", "C27_minimize_for_slack_partial", "C27_attribute_error_counterexample")
c("C28", "proved", "Also: the path is simple.", "C28_shortest_path")
c("C29", "partial", "Full claim proved when start and end are not in avoids; fails otherwise (counterexample); general bound proved for all avoids.", "C29_bidirectional_partial", "C29_bidirectional_any_avoids", "C29_counterexample")
c("C30", "partial", "All query histories without graph changes and with a hash that separates the avoid sets; stale answers after a change and after a frozenset hash collision are proved.", "C30_memoize_partial", "C30_stale_counterexample", "C30_collision_counterexample")
c("C31", "proved", "", "C31_distance_from_path", "C31_distance_of_walk", "C31_errors")
c("C32", "proved", "", "C32_adjacency_matrix")
c("C33", "proved", "Negative edges allowed.", "C33_all_pairs", "C33_diagonal")
c("C34", "proved", "", "C34_minmax", "C34_minsum", "C34_empty")
c("C35", "partial", "Exact behaviour on all graphs; the start node is the last one reaching all nodes, not the best (counterexample).", "C35_shortest_tree_partial", "C35_counterexample")
c("C36", "partial", "Key sets exact, values are lengths of real walks, shortest when all edges have the same value; not shortest in general (counterexample).", "C36_distance_map_partial", "C36_distance_map_reverse_partial", "C36_stops_at_ends", "C36_errors", "C36_counterexample")
c("C37", "partial", "Full claim for the loop back to start and for an end outside the outward path; end=start raises ValueError (proved).", "C37_loop_back_to_start", "C37_loop_with_end_partial", "C37_end_on_outward_path", "C37_errors")
c("C38","partial","False is right for n <= 2, classes disjoint; exact on connected graphs with edges in both directions; directed, disconnected and n >= 3 fail (counterexamples).",
  "C38_is_partite_partial","C38_is_partite_connected","C38_errors","C38_directed_counterexample","C38_three_counterexample","C38_disconnected_counterexample")
c("C39","partial","Feasible, conserved, value right, blocking; not always maximal (counterexample).",
  "C39_maximum_flow_partial","C39_value_bounds","C39_errors","C39_counterexample")
c("C40","partial","Returned edges are exactly the edges leaving nodes with saturated outgoing flow that are nearer to start than end (C40_returned_edges); they are a minimum cut if they separate and add up to the flow (C40_certificate); in general they need not be a cut, and need not be minimal (counterexamples).","C40_returned_edges","C40_certificate",
  "C40_min_cut_partial","C40_errors","C40_too_large_counterexample","C40_no_cut_counterexample")
c("C41","partial","Feasible, complete, cost right, or Exception when stuck; not always minimal, Exception on feasible instances (counterexamples).",
  "C41_min_cost_flow_partial","C41_errors","C41_not_minimal_counterexample","C41_exception_counterexample")
c("C42","partial","One-to-one, along edges, stable, at least half of the optimum; not always optimal, and the graph is modified with more agents than tasks (counterexamples).",
  "C42_ap_solver_partial","C42_empty","C42_not_optimal_counterexample","C42_modified_counterexample")
c("C43","partial","Terminates, consistent, value right, last weapon cannot improve; single-weapon optimal without ties; ties and empty weapon lists fail (counterexamples).",
  "C43_wtap_solver_partial","C43_one_opt","C43_errors","C43_ties_counterexample","C43_no_weapons_counterexample","C43_unarmed_counterexample")
c("C44","partial","For every history whose states are not the integers used as action ids, a FiniteStateMachine answers exactly like the specification machine. Missing: integer states (C44_integer_states_counterexample: options() lists foreign actions).","C44_fsm_partial","C44_integer_states_counterexample")
c("C45","proved","Single root and binding for every fixed-length hash without collisions on the hashed strings, blocks of other lengths than two digests. Side results: [] gives None; without 'same length' the claim is false for every hash (no domain separation).","C45_merkle_single_root","C45_merkle_binding","C45_merkle_empty","C45_no_domain_separation_counterexample")
c("C46","partial","Same content gives the same hash: proved in full. The converse is proved for collision-free hashes and nodes whose texts are distinct, non-empty and contain neither | nor (. Missing: other texts (C46_bar_counterexample).","C46_graph_hash_content","C46_graph_hash_separates_partial","C46_bar_counterexample")
c("C47","partial","On every graph flow_graph_hash terminates and gives the stated hashes (a supplier on a common cycle is left out, a node no source supplies gets none) or raises TypeError; never raises on layered DAGs; raises on every DAG with an edge to a node nearer to the sources; changes propagate. Missing: on DAGs it should never raise (C47_type_error_counterexample), and the DAGs with an edge inside one level depend on the order of the edges.","C47_flow_graph_hash_partial","C47_any_graph_partial","C47_type_error","C47_flow_graph_hash_layered","C47_changes_propagate","C47_type_error_counterexample","C47_order_counterexample","C47_raise_order_counterexample")
c("C51","partial","True is always right; equivalence for families of ends that are pairwise disjoint or nested, for every pop order. Missing: False can be wrong for overlapping ends (C51_greedy_counterexample).","C51_is_ap_solvable_true_partial","C51_is_ap_solvable_laminar","C51_greedy_counterexample")
c("C54","partial","Shape proved for every random stream and all shuffles whenever the call returns, termination for every fair stream; guard. Missing: termination for unfair streams (C54_stuck_counterexample), negative edge counts (C54_negative_edges_counterexample).","C54_random_xy_graph_partial","C54_guard","C54_stuck_counterexample","C54_negative_edges_counterexample")
c("C55","proved","Full claim on exact coordinates.","C55_n_nearest_neighbours","C55_invalid_raises","C55_errors")
c("C48","partial","Complete graphs, four nodes or more: terminates with a tour and its length, or AssertionError, for all set orders. Missing (false): optimality (C48_suboptimal_counterexample, a metric with values 1 and 2), no exception (C48_assertion_counterexample, a square), fewer than four nodes (C48_few_nodes_counterexample).","C48_branch_and_bound_partial","C48_assertion_counterexample","C48_suboptimal_counterexample","C48_few_nodes_counterexample")
c("C49","proved","All complete graphs with positive values and at least two nodes; _greedy on any graph gives a permutation or ValueError; one node raises ValueError.","C49_tsp_greedy","C49_greedy_any_graph","C49_one_node_counterexample")
c("C50","partial","Two to six nodes: optimal. Seven or more: tour, length, not longer than greedy whenever it returns; returns on symmetric graphs. Missing: termination on asymmetric graphs, which is false (C50_asymmetric_counterexample: _opt3 loops forever).","C50_tsp_2023_small","C50_no_short_tour","C50_tsp_2023_large_partial","C50_tsp_2023_symmetric","C50_asymmetric_counterexample")
c("C56", "partial", "schedule returns a permutation of the jobs (and a shortest order if no edge is longer than a detour) whenever some order can be travelled; it loops forever otherwise; find_perfect_circuit never finds a circuit (counterexamples)",
  "C56_schedule_partial", "C56_impossible_jobs_loop", "C56_loops_counterexample", "C56_perfect_circuit_never_found", "C56_circuit_counterexample")
c("C58", "proved", "", "C58_find_job", "C58_find_each", "C58_train", "C58_train_schedule", "C58_rail_system", "C58_rail_system_error")
c("C52","proved","","C52_path_to_moves","C52_synchronous_moves","C52_blocked_move_loops","C52_any_moves","C52_overtaking_counterexample")
c("C53","partial","All outcomes characterised: a returned plan is a valid plan (a load may also enter prohibited nodes that are ends), the synchronous form keeps it, NoSolution/UnSolvable only if no plan exists provided ends are pairwise disjoint or nested. Missing (false): prohibited ends avoided, overlapping ends, two loads on one start, return_on_first (counterexamples/refutations). Timeouts and every clock included.",
  "C53_jam_solver_partial","C53_jam_solver_sound","C53_jam_solver_complete","C53_return_on_first_has_no_effect","C53_prohibited_end_counterexample","C53_greedy_ends_counterexample","C53_equal_starts_counterexample")
c("C59","partial","The claim is false (C59_not_minimum_counterexample: 6 instead of 5); what holds is validity (C53) and that no placement is visited twice.","C59_no_repetition_partial","C59_not_minimum_counterexample")
c("C60","proved","","C60_graph3D_only_points","C60_exceptions")
c("C61","proved","Times are exact rationals.","C61_timer","C61_timer_latency")
c("C62","proved","For '2023' some tour must be shorter than sys.maxsize; 'bnb' needs four nodes and no self loops.","C62_solve_tsp")
c("C63","proved","","C63_check_user_input")
c("C64","proved","","C64_bidirectional_agrees")
c("C65","proved","","C21_all_paths_dag")
c("C66","proved","","C25_phase_lines_dag")
c("C67","proved","","C37_loop_back_to_start")
c("C68","proved","","C68_flow_below_every_cut","C68_maximal_without_merges_or_forks")
c("C69","proved","Exact rationals.","C69_one_demand_optimal")
c("C70","proved","","C38_is_partite_connected")
c("C71","proved","A load may enter prohibited nodes that are among its ends; the loads have distinct ids.","C53_jam_solver_sound")
c("C72","proved","","C53_jam_solver_complete")
c("C73","proved","Some tour must be shorter than sys.maxsize.","C50_tsp_2023_small","C50_tsp_2023_symmetric")
c("C74","proved","","C03_degrees_exact")
c("C75","proved","","C46_graph_hash_content")
c("C76","proved","","C47_flow_graph_hash_layered")
c("C77","proved","","C77_from_list")
c("C78","proved","","C78_reachability_answers_agree")
c("C79","proved","","C79_hop_counts_agree")
c("C80","proved","","C80_cycle_answers_agree")
c("C81","proved","","C81_distances_agree")
c("C82","proved","","C82_more_edges_never_longer")
c("C83","proved","","C83_undirected")
c("C84","proved","","C84_ap_solver_pairs")
c("C85","proved","","C85_positive_flow_iff_reachable")
c("C86","proved","","C86_no_superfluous_dependency")
c("C87","proved","","C87_more_dependencies")
c("C88","proved","Specification: three lists (Spec/Order).","C88_insertion_order")
c("C89","proved","","C89_plot_2d","C89_errors")
c("C90","proved","","C90_plot_3d","C90_bad_rotation","C90_empty_graph")
c("C91","partial","The limits are a cube of the right size for every rotation; all nodes inside and labels right for the four rotations that swap at most two axes. Missing (false): the cyclic rotations yzx and zxy (C91_rotation_counterexample).","C91_aspect_ratio_partial","C91_cube","C91_rotation_counterexample")
c("C92","proved","Every symmetric complete graph with positive values.","C92_greedy_two_optimal")
c("C93","partial","The tour is 2-optimal and section-swap optimal unless it is the tour of _greedy. Missing (false): the tour of _greedy is sometimes returned although a reversal shortens it, so tsp_2023 may be worse than tsp_greedy (C93_greedy_tour_counterexample).","C93_local_optimum_partial","C93_greedy_tour_counterexample")
c("C94","proved","For every monotone rounding function (Spec/Round); with fl = id the model is the one of C28 (C94_exact). C94_double instantiates it with IEEE doubles (Spec/Double: round to nearest even, proved to be a Rounding with relative error 2^-53); C94_integers: exact on integers. Not covered: overflow to inf and subnormals.","C94_shortest_path_rounded","C94_accuracy","C94_exact","C94_double","C94_integers")
c("C95","proved","Reachability, hop counts, cycles and distances.","C95_renaming")
c("C96","proved","","C96_reversal","C96_mirrored_schedule")
c("C97","proved","","C97_scaling","C97_scaled_schedule")
c("C98","proved","","C98_maximum_flow_rounded","C98_maximal_without_merges_or_forks","C98_min_cut_rounded","C98_exact","C98_min_cut_exact","C98_errors")
c("C99","proved","","C99_maximum_flow_integral","C99_minimum_cost_flow_integral")
c("C100","proved","","C100_operation","C100_new_objects","C100_to_dict","C100_from_dict","C100_caller_cannot_reach_graphs","C100_unchanged","C100_every_object_built")
c("C101", "proved", "maximum_flow is excluded in the statement: kernel checked counterexample", "C101_searches", "C101_distances", "C101_projects", "C101_maximum_flow_counterexample")
c("C102", "proved", "the counterexample shows that the answer need not be shortest with negative values", "C102_shortest_path_any_values", "C102_not_shortest_counterexample")
c("C103", "proved", "", "C103_avoiding_is_deleting", "C103_avoiding_is_subgraph", "C103_parts_of_shortest_paths")
c("C104", "proved", "the counterexample shows that a negative loop does not show on the diagonal", "C104_all_pairs_any_values", "C104_negative_cycles", "C104_certificate", "C104_loop_counterexample")
c("C105", "proved", "the counterexamples show the two remarks in parentheses", "C105_bidirectional_any_values", "C105_diverges_counterexample", "C105_not_shortest_counterexample")
c("C106", "proved", "", "C106_from_list_stops", "C106_from_dict_stops")
c("C107", "proved", "the counterexample shows that deleting nodes during a breadth_first_walk cuts it off", "C107_topological_sort_snapshot", "C107_breadth_first_walk_live", "C107_walk_reaches", "C107_walk_unchanged", "C107_deleting_counterexample")
c("C108", "partial", "full for the methods that copy (topological_sort, has_cycles, phase_lines, critical_path, loop); false for solve_tsp (always TypeError/ValueError with greedy, and with 2023 from seven nodes on), critical_path_minimize_for_slack and flow_graph_hash (AssertionError): exact theorems about when they raise", "C108_copy_methods_partial", "C108_loop", "C108_solve_tsp_raises", "C108_solve_tsp_same", "C108_minimize_slack_raises", "C108_flow_graph_hash_raises")
c("C109", "proved", "For every monotone rounding function; C109_accuracy and C109_integers for IEEE doubles (Spec/Double). Not covered: overflow to inf, subnormals.", "C109_critical_path_rounded", "C109_errors", "C109_accuracy", "C109_integers", "C109_exact")
c("C110", "partial", "false as stated: with durations 0.1, 0.2 the first critical task has slack 2^-55 > 0, with 0.1, 0.4 it has slack -2^-55 (C110_slack_sign); proved: some task has slack 0 and the computed slack is within (3n+1) 2^-52 cpl of the exact, non-negative one", "C110_slack_partial", "C110_slack_sign")
c("C111", "proved", "for any number type given by its operations; nan (which breaks the laws) gives a genuine but possibly not shortest walk: C111_nan", "C111_any_number_type", "C111_whatever_values", "C111_heap", "C111_infinite_values", "C111_float", "C111_rationals", "C111_nan")
c("C112", "partial", "true if the hashes of the placements differ; false in CPython for nodes -1 and -2, whose hashes are equal: the plan is empty, uses a connection that does not exist, or KeyError is raised", "C112_states_by_hash_partial", "C112_no_move_counterexample", "C112_illegal_move_counterexample", "C112_key_error_counterexample")
c("C113", "proved", "exact rationals; C113_short_supply_counterexample shows that the supply must be enough", "C113_one_supply_optimal", "C113_short_supply_counterexample")
c("C114", "partial", "false in general: C114_hang_counterexample (IEEE doubles, three weapons, probabilities 0.1 and 0.2) runs forever; proved if products do not depend on the order of the factors, in particular with at most two weapons per target", "C114_result", "C114_terminates_partial", "C114_two_weapons", "C114_hang_counterexample")
c("C115", "proved", "two counterexamples show what does not hold: the entries can differ from the value of shortest_path in the last digit, and minmax can lose ties", "C115_accuracy", "C115_bracket", "C115_minmax", "C115_minsum", "C115_left_to_right", "C115_tree", "C115_integers", "C115_exact", "C115_disagree_counterexample", "C115_tie_counterexample")
c("C116", "proved", "an acyclic graph on which has_cycles raises TypeError is exhibited", "C116_topological_sort", "C116_has_cycles", "C116_critical_path", "C116_type_error_counterexample")
c("C117", "proved", "a graph is exhibited on which shortest_path works and the bidirectional search raises TypeError", "C117_bidirectional", "C117_type_error_counterexample")
c("C118", "proved", "a graph on which the call fails and changes the graph is exhibited", "C118_ap_solver", "C118_type_error_counterexample")
c("C119", "proved", "a graph that has no hash is exhibited", "C119_graph_hash", "C119_type_error_counterexample")
c("C120", "proved", "an input on which the call raises TypeError is exhibited", "C120_wtap_solver", "C120_type_error_counterexample")
c("C121", "proved", "an input on which the call raises TypeError is exhibited", "C121_min_cost_flow", "C121_type_error_counterexample")
c("C122", "proved", "a network with a plan of one move on which the call raises TypeError is exhibited", "C122_jam_solver", "C122_type_error_counterexample")
c("C123", "proved", "what the binary search does with a list that is not sorted is exhibited", "C123_insort", "C123_bidirectional", "C123_branch_and_bound", "C123_jam_solver", "C123_min_cost_flow", "C123_unsorted_counterexample")
c("C124", "proved", "heappush and heappop as in Python's Lib/heapq.py", "C124_heap", "C124_any_number_type", "C124_shortest_path", "C124_whatever_values", "C124_counter_needed_counterexample")
c("C125", "proved", "the two counterexamples show that None as the start or on the way is not right", "C125_none_unreachable", "C125_none_unreachable_shortest_path", "C125_none_absent", "C125_none_as_end", "C125_none_as_end_shortest_path", "C125_none_leads_everywhere", "C125_always_ends", "C125_shortest_path_always_ends", "C125_none_as_start_counterexample", "C125_none_on_the_way_counterexample")
c("C126", "proved", "with the exponential worst case of is_connected proved for every k", "C126_one_pass_per_node", "C126_distance_map", "C126_shortest_path", "C126_sources", "C126_phase_lines_and_components", "C126_is_connected_counterexample", "C126_is_connected_cut")
c("C127", "proved", "", "C127_values_do_not_matter")
c("C128", "partial", "shortest_path fully; has_path is proved to be right on edges whose value is not None, and the claim for edges with value None is false: C128_has_path_counterexample", "C128_shortest_path_returns", "C128_shortest_path_ends", "C128_shortest_path_type_error", "C128_shortest_path_numbers", "C128_has_path_partial", "C128_has_path_counterexample")
c("C129", "proved", "", "C129_short_routes", "C129_at_least_share", "C129_a_third")
c("C130", "proved", "add_edge is not atomic: C130_not_atomic", "C130_raises_iff", "C130_after_exception", "C130_no_edge_touched", "C130_always_a_graph", "C130_queries", "C130_from_list", "C130_path_query", "C130_proper_calls", "C130_not_atomic")
c("C131", "proved", "", "C131_ap_solver_rounded", "C131_doubles", "C131_cheapest_ignored", "C131_big_value_counterexample")
c("C132", "partial", "tsp_2023 need not terminate on doubles: on a symmetric complete graph with the values 0.1, 0.2, 0.3 _opt3 exchanges edges for ever (C132_hang_counterexample); everything else is proved", "C132_tsp_greedy_rounded", "C132_tsp_2023_rounded_partial", "C132_tsp_2023_small", "C132_accuracy", "C132_integers", "C132_hang_counterexample")
c("C133", "proved", "", "C133_distance_from_path_rounded", "C133_walk", "C133_accuracy", "C133_exact")
c("C134", "proved", "", "C134_min_cost_flow_rounded", "C134_total", "C134_exact")
c("C135", "proved", "", "C135_bidirectional_rounded", "C135_accuracy", "C135_integers", "C135_exact", "C135_error", "C135_not_same_distance_counterexample")
c("C136", "proved", "", "C136_simple_path", "C136_memoize")
c("C137", "proved", "", "C137_memoize_rounded", "C137_accuracy", "C137_integers", "C137_exact", "C137_cached_section_counterexample")
c("C138", "proved", "", "C138_maximum_flow_float", "C138_accuracy", "C138_cuts", "C138_doubles", "C138_integers", "C138_exact", "C138_errors", "C138_capacity_counterexample", "C138_conservation_counterexample")
c("C139", "proved", "", "C139_distance_map_rounded", "C139_distance_map_reverse_rounded", "C139_same_nodes", "C139_accuracy", "C139_doubles", "C139_integers", "C139_exact", "C139_errors", "C139_direction_counterexample")
c("C140", "proved", "", "C140_min_cut_float", "C140_overfull", "C140_certificate", "C140_doubles", "C140_integers", "C140_exact", "C140_errors", "C140_missed_cut_counterexample")
c("C141", "proved", "", "C141_maximum_flow", "C141_maximum_flow_float", "C141_min_cost_flow", "C141_ap_solver", "C141_wtap_solver", "C141_wtap_solver_float", "C141_wtap_float_counterexample", "C141_every_cut", "C141_cut", "C141_bound_reached")
#APPEND
here = os.path.dirname(os.path.dirname(os.path.abspath(__file__)))
ids = [json.loads(l)["id"] for l in open(os.path.join(here, "properties.jsonl"))]
src = "".join(open(f).read() for f in glob.glob(os.path.join(here, "lean/Verif/**/*.lean"), recursive=True))
names = set(re.findall(r"^theorem\s+(\S+)", src, re.M))
for pid in C:
    assert pid in ids, pid
    for t in C[pid]["theorems"]:
        assert t[3:] in names, t
used = {t[3:] for p in C.values() for t in p["theorems"]}
print("unlisted property theorems:", sorted(n for n in names if re.match(r"C\d+_", n) and n not in used))
print("uncovered:", [i for i in ids if i not in C])
json.dump({"claims": [C[i] for i in ids if i in C]}, open(os.path.join(here, "MANIFEST.json"), "w"), indent=1)
