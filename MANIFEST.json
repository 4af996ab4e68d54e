{
 "claims": [
  {
   "property": "C01",
   "status": "proved",
   "theorems": [
    "GT.C01_history_refines_maps"
   ],
   "note": "Refinement to a pair of maps for every history."
  },
  {
   "property": "C02",
   "status": "proved",
   "theorems": [
    "GT.C02_enumerations_exact",
    "GT.C02_nodes_dispatch",
    "GT.C02_edges_dispatch"
   ],
   "note": "Every reachable graph; argument dispatch of nodes() and edges() included."
  },
  {
   "property": "C03",
   "status": "partial",
   "theorems": [
    "GT.C03_degrees_exact",
    "GT.C03_degree_filter_partial",
    "GT.C03_degree_filter_any_history",
    "GT.C03_phantom_counterexample"
   ],
   "note": "Degrees exact for all histories; filters exact unless the history reads the degree of a foreign node (defaultdict phantom key; counterexample proved)."
  },
  {
   "property": "C04",
   "status": "proved",
   "theorems": [
    "GT.C04_mutators_never_fail",
    "GT.C04_rejected_call_changes_nothing"
   ],
   "note": "Literal layer with KeyError as a value."
  },
  {
   "property": "C05",
   "status": "partial",
   "theorems": [
    "GT.C05_copy_equal",
    "GT.C05_copies_independent",
    "GT.C05_graph3D_copy_loses_objects"
   ],
   "note": "Proved for BasicGraph/Graph; Graph3D.copy loses node objects (counterexample). Independence is proved in a store of graph values; that objects share no dictionary is C100."
  },
  {
   "property": "C06",
   "status": "proved",
   "theorems": [
    "GT.C06_eq_extensional",
    "GT.C06_eq_equivalence"
   ],
   "note": ""
  },
  {
   "property": "C07",
   "status": "proved",
   "theorems": [
    "GT.C07_dict_round_trip",
    "GT.C07_list_round_trip",
    "GT.C07_dict_of_graph_of_dict"
   ],
   "note": ""
  },
  {
   "property": "C08",
   "status": "proved",
   "theorems": [
    "GT.C08_subgraph_induced"
   ],
   "note": "Any list of nodes (any iteration order of a set, duplicates allowed)."
  },
  {
   "property": "C09",
   "status": "proved",
   "theorems": [
    "GT.C09_is_subgraph_inclusion",
    "GT.C09_is_subgraph_order"
   ],
   "note": ""
  },
  {
   "property": "C10",
   "status": "proved",
   "theorems": [
    "GT.C10_has_path",
    "GT.C10_edges_of_path"
   ],
   "note": ""
  },
  {
   "property": "C11",
   "status": "partial",
   "theorems": [
    "GT.C11_same_path_rotation_partial",
    "GT.C11_same_path_equivalence_partial",
    "GT.C11_empty_counterexample"
   ],
   "note": "Exact for non-empty lists; two distinct empty lists are reported different (counterexample)."
  },
  {
   "property": "C12",
   "status": "proved",
   "theorems": [
    "GT.C12_is_connected"
   ],
   "note": "Cycles included; termination proved (possibly exponential in time)."
  },
  {
   "property": "C13",
   "status": "proved",
   "theorems": [
    "GT.C13_breadth_first_search"
   ],
   "note": "Node ids are not None."
  },
  {
   "property": "C14",
   "status": "proved",
   "theorems": [
    "GT.C14_breadth_first_walk",
    "GT.C14_breadth_first_walk_end",
    "GT.C14_errors"
   ],
   "note": ""
  },
  {
   "property": "C15",
   "status": "proved",
   "theorems": [
    "GT.C15_degree_of_separation",
    "GT.C15_errors"
   ],
   "note": ""
  },
  {
   "property": "C16",
   "status": "proved",
   "theorems": [
    "GT.C16_depth_first_search"
   ],
   "note": ""
  },
  {
   "property": "C17",
   "status": "proved",
   "theorems": [
    "GT.C17_depth_scan",
    "GT.C17_errors"
   ],
   "note": ""
  },
  {
   "property": "C18",
   "status": "proved",
   "theorems": [
    "GT.C18_network_size",
    "GT.C18_errors"
   ],
   "note": ""
  },
  {
   "property": "C19",
   "status": "proved",
   "theorems": [
    "GT.C19_components"
   ],
   "note": ""
  },
  {
   "property": "C20",
   "status": "proved",
   "theorems": [
    "GT.C20_all_simple_paths",
    "GT.C20_errors"
   ],
   "note": ""
  },
  {
   "property": "C21",
   "status": "partial",
   "theorems": [
    "GT.C21_all_paths_sound_partial",
    "GT.C21_all_paths_dag",
    "GT.C21_errors",
    "GT.C21_index_error_counterexample",
    "GT.C21_divergence_counterexample",
    "GT.C21_missing_path_counterexample",
    "GT.C21_repeated_nodes_counterexample"
   ],
   "note": "Sound on all graphs and exact on DAGs; on cyclic graphs the code may raise IndexError, never return, miss simple paths or repeat nodes (all proved)."
  },
  {
   "property": "C22",
   "status": "proved",
   "theorems": [
    "GT.C22_sources",
    "GT.C22_sources_diverges",
    "GT.C22_errors"
   ],
   "note": "Exact whenever no cycle is upstream of n; never returns otherwise."
  },
  {
   "property": "C23",
   "status": "proved",
   "theorems": [
    "GT.C23_topological_sort"
   ],
   "note": "Any key (any permutation oracle for the sort)."
  },
  {
   "property": "C24",
   "status": "proved",
   "theorems": [
    "GT.C24_has_cycles"
   ],
   "note": ""
  },
  {
   "property": "C25",
   "status": "partial",
   "theorems": [
    "GT.C25_phase_lines_dag",
    "GT.C25_phase_lines_partial",
    "GT.C25_hidden_cycle_counterexample",
    "GT.C25_empty_graph"
   ],
   "note": "Full claim proved for every non-empty DAG; exact behaviour on all graphs; a cycle no source reaches is missed (counterexample) and the empty graph raises."
  },
  {
   "property": "C26",
   "status": "proved",
   "theorems": [
    "GT.C26_critical_path",
    "GT.C26_errors"
   ],
   "note": "Exact rationals instead of floats."
  },
  {
   "property": "C27",
   "status": "partial",
   "theorems": [
    "GT.C27_minimize_for_slack_partial",
    "GT.C27_attribute_error_counterexample"
   ],
   "note": "All safety claims proved for every DAG when the call returns; it may raise AttributeError (counterexample)."
  },
  {
   "property": "C28",
   "status": "proved",
   "theorems": [
    "GT.C28_shortest_path"
   ],
   "note": "Also: the path is simple."
  },
  {
   "property": "C29",
   "status": "partial",
   "theorems": [
    "GT.C29_bidirectional_partial",
    "GT.C29_bidirectional_any_avoids",
    "GT.C29_counterexample"
   ],
   "note": "Full claim proved when start and end are not in avoids; fails otherwise (counterexample); general bound proved for all avoids."
  },
  {
   "property": "C30",
   "status": "partial",
   "theorems": [
    "GT.C30_memoize_partial",
    "GT.C30_stale_counterexample",
    "GT.C30_collision_counterexample"
   ],
   "note": "All query histories without graph changes and with a hash that separates the avoid sets; stale answers after a change and after a frozenset hash collision are proved."
  },
  {
   "property": "C31",
   "status": "proved",
   "theorems": [
    "GT.C31_distance_from_path",
    "GT.C31_distance_of_walk",
    "GT.C31_errors"
   ],
   "note": ""
  },
  {
   "property": "C32",
   "status": "proved",
   "theorems": [
    "GT.C32_adjacency_matrix"
   ],
   "note": ""
  },
  {
   "property": "C33",
   "status": "proved",
   "theorems": [
    "GT.C33_all_pairs",
    "GT.C33_diagonal"
   ],
   "note": "Negative edges allowed."
  },
  {
   "property": "C34",
   "status": "proved",
   "theorems": [
    "GT.C34_minmax",
    "GT.C34_minsum",
    "GT.C34_empty"
   ],
   "note": ""
  },
  {
   "property": "C35",
   "status": "partial",
   "theorems": [
    "GT.C35_shortest_tree_partial",
    "GT.C35_counterexample"
   ],
   "note": "Exact behaviour on all graphs; the start node is the last one reaching all nodes, not the best (counterexample)."
  },
  {
   "property": "C36",
   "status": "partial",
   "theorems": [
    "GT.C36_distance_map_partial",
    "GT.C36_distance_map_reverse_partial",
    "GT.C36_stops_at_ends",
    "GT.C36_errors",
    "GT.C36_counterexample"
   ],
   "note": "Key sets exact, values are lengths of real walks, shortest when all edges have the same value; not shortest in general (counterexample)."
  },
  {
   "property": "C37",
   "status": "partial",
   "theorems": [
    "GT.C37_loop_back_to_start",
    "GT.C37_loop_with_end_partial",
    "GT.C37_end_on_outward_path",
    "GT.C37_errors"
   ],
   "note": "Full claim for the loop back to start and for an end outside the outward path; end=start raises ValueError (proved)."
  },
  {
   "property": "C38",
   "status": "partial",
   "theorems": [
    "GT.C38_is_partite_partial",
    "GT.C38_is_partite_connected",
    "GT.C38_errors",
    "GT.C38_directed_counterexample",
    "GT.C38_three_counterexample",
    "GT.C38_disconnected_counterexample"
   ],
   "note": "False is right for n <= 2, classes disjoint; exact on connected graphs with edges in both directions; directed, disconnected and n >= 3 fail (counterexamples)."
  },
  {
   "property": "C39",
   "status": "partial",
   "theorems": [
    "GT.C39_maximum_flow_partial",
    "GT.C39_value_bounds",
    "GT.C39_errors",
    "GT.C39_counterexample"
   ],
   "note": "Feasible, conserved, value right, blocking; not always maximal (counterexample)."
  },
  {
   "property": "C40",
   "status": "partial",
   "theorems": [
    "GT.C40_returned_edges",
    "GT.C40_certificate",
    "GT.C40_min_cut_partial",
    "GT.C40_errors",
    "GT.C40_too_large_counterexample",
    "GT.C40_no_cut_counterexample"
   ],
   "note": "Returned edges are exactly the edges leaving nodes with saturated outgoing flow that are nearer to start than end (C40_returned_edges); they are a minimum cut if they separate and add up to the flow (C40_certificate); in general they need not be a cut, and need not be minimal (counterexamples)."
  },
  {
   "property": "C41",
   "status": "partial",
   "theorems": [
    "GT.C41_min_cost_flow_partial",
    "GT.C41_errors",
    "GT.C41_not_minimal_counterexample",
    "GT.C41_exception_counterexample"
   ],
   "note": "Feasible, complete, cost right, or Exception when stuck; not always minimal, Exception on feasible instances (counterexamples)."
  },
  {
   "property": "C42",
   "status": "partial",
   "theorems": [
    "GT.C42_ap_solver_partial",
    "GT.C42_empty",
    "GT.C42_not_optimal_counterexample",
    "GT.C42_modified_counterexample"
   ],
   "note": "One-to-one, along edges, stable, at least half of the optimum; not always optimal, and the graph is modified with more agents than tasks (counterexamples)."
  },
  {
   "property": "C43",
   "status": "partial",
   "theorems": [
    "GT.C43_wtap_solver_partial",
    "GT.C43_one_opt",
    "GT.C43_errors",
    "GT.C43_ties_counterexample",
    "GT.C43_no_weapons_counterexample",
    "GT.C43_unarmed_counterexample"
   ],
   "note": "Terminates, consistent, value right, last weapon cannot improve; single-weapon optimal without ties; ties and empty weapon lists fail (counterexamples)."
  },
  {
   "property": "C44",
   "status": "partial",
   "theorems": [
    "GT.C44_fsm_partial",
    "GT.C44_integer_states_counterexample"
   ],
   "note": "For every history whose states are not the integers used as action ids, a FiniteStateMachine answers exactly like the specification machine. Missing: integer states (C44_integer_states_counterexample: options() lists foreign actions)."
  },
  {
   "property": "C45",
   "status": "proved",
   "theorems": [
    "GT.C45_merkle_single_root",
    "GT.C45_merkle_binding",
    "GT.C45_merkle_empty",
    "GT.C45_no_domain_separation_counterexample"
   ],
   "note": "Single root and binding for every fixed-length hash without collisions on the hashed strings, blocks of other lengths than two digests. Side results: [] gives None; without 'same length' the claim is false for every hash (no domain separation)."
  },
  {
   "property": "C46",
   "status": "partial",
   "theorems": [
    "GT.C46_graph_hash_content",
    "GT.C46_graph_hash_separates_partial",
    "GT.C46_bar_counterexample"
   ],
   "note": "Same content gives the same hash: proved in full. The converse is proved for collision-free hashes and nodes whose texts are distinct, non-empty and contain neither | nor (. Missing: other texts (C46_bar_counterexample)."
  },
  {
   "property": "C47",
   "status": "partial",
   "theorems": [
    "GT.C47_flow_graph_hash_partial",
    "GT.C47_any_graph_partial",
    "GT.C47_type_error",
    "GT.C47_flow_graph_hash_layered",
    "GT.C47_changes_propagate",
    "GT.C47_type_error_counterexample",
    "GT.C47_order_counterexample",
    "GT.C47_raise_order_counterexample"
   ],
   "note": "On every graph flow_graph_hash terminates and gives the stated hashes (a supplier on a common cycle is left out, a node no source supplies gets none) or raises TypeError; never raises on layered DAGs; raises on every DAG with an edge to a node nearer to the sources; changes propagate. Missing: on DAGs it should never raise (C47_type_error_counterexample), and the DAGs with an edge inside one level depend on the order of the edges."
  },
  {
   "property": "C48",
   "status": "partial",
   "theorems": [
    "GT.C48_branch_and_bound_partial",
    "GT.C48_assertion_counterexample",
    "GT.C48_suboptimal_counterexample",
    "GT.C48_few_nodes_counterexample"
   ],
   "note": "Complete graphs, four nodes or more: terminates with a tour and its length, or AssertionError, for all set orders. Missing (false): optimality (C48_suboptimal_counterexample, a metric with values 1 and 2), no exception (C48_assertion_counterexample, a square), fewer than four nodes (C48_few_nodes_counterexample)."
  },
  {
   "property": "C49",
   "status": "proved",
   "theorems": [
    "GT.C49_tsp_greedy",
    "GT.C49_greedy_any_graph",
    "GT.C49_one_node_counterexample"
   ],
   "note": "All complete graphs with positive values and at least two nodes; _greedy on any graph gives a permutation or ValueError; one node raises ValueError."
  },
  {
   "property": "C50",
   "status": "partial",
   "theorems": [
    "GT.C50_tsp_2023_small",
    "GT.C50_no_short_tour",
    "GT.C50_tsp_2023_large_partial",
    "GT.C50_tsp_2023_symmetric",
    "GT.C50_asymmetric_counterexample"
   ],
   "note": "Two to six nodes: optimal. Seven or more: tour, length, not longer than greedy whenever it returns; returns on symmetric graphs. Missing: termination on asymmetric graphs, which is false (C50_asymmetric_counterexample: _opt3 loops forever)."
  },
  {
   "property": "C51",
   "status": "partial",
   "theorems": [
    "GT.C51_is_ap_solvable_true_partial",
    "GT.C51_is_ap_solvable_laminar",
    "GT.C51_greedy_counterexample"
   ],
   "note": "True is always right; equivalence for families of ends that are pairwise disjoint or nested, for every pop order. Missing: False can be wrong for overlapping ends (C51_greedy_counterexample)."
  },
  {
   "property": "C52",
   "status": "proved",
   "theorems": [
    "GT.C52_path_to_moves",
    "GT.C52_synchronous_moves",
    "GT.C52_blocked_move_loops",
    "GT.C52_any_moves",
    "GT.C52_overtaking_counterexample"
   ],
   "note": ""
  },
  {
   "property": "C53",
   "status": "partial",
   "theorems": [
    "GT.C53_jam_solver_partial",
    "GT.C53_jam_solver_sound",
    "GT.C53_jam_solver_complete",
    "GT.C53_return_on_first_has_no_effect",
    "GT.C53_prohibited_end_counterexample",
    "GT.C53_greedy_ends_counterexample",
    "GT.C53_equal_starts_counterexample"
   ],
   "note": "All outcomes characterised: a returned plan is a valid plan (a load may also enter prohibited nodes that are ends), the synchronous form keeps it, NoSolution/UnSolvable only if no plan exists provided ends are pairwise disjoint or nested. Missing (false): prohibited ends avoided, overlapping ends, two loads on one start, return_on_first (counterexamples/refutations). Timeouts and every clock included."
  },
  {
   "property": "C54",
   "status": "partial",
   "theorems": [
    "GT.C54_random_xy_graph_partial",
    "GT.C54_guard",
    "GT.C54_stuck_counterexample",
    "GT.C54_negative_edges_counterexample"
   ],
   "note": "Shape proved for every random stream and all shuffles whenever the call returns, termination for every fair stream; guard. Missing: termination for unfair streams (C54_stuck_counterexample), negative edge counts (C54_negative_edges_counterexample)."
  },
  {
   "property": "C55",
   "status": "proved",
   "theorems": [
    "GT.C55_n_nearest_neighbours",
    "GT.C55_invalid_raises",
    "GT.C55_errors"
   ],
   "note": "Full claim on exact coordinates."
  },
  {
   "property": "C56",
   "status": "partial",
   "theorems": [
    "GT.C56_schedule_partial",
    "GT.C56_impossible_jobs_loop",
    "GT.C56_loops_counterexample",
    "GT.C56_perfect_circuit_never_found",
    "GT.C56_circuit_counterexample"
   ],
   "note": "schedule returns a permutation of the jobs (and a shortest order if no edge is longer than a detour) whenever some order can be travelled; it loops forever otherwise; find_perfect_circuit never finds a circuit (counterexamples)"
  },
  {
   "property": "C57",
   "status": "partial",
   "theorems": [
    "GT.C57_distance_closed_partial",
    "GT.C57_errors",
    "GT.C57_counterexample"
   ],
   "note": "The code always adds the closing edge (and twice with return_to_start): exact value proved, claim refuted by a witness."
  },
  {
   "property": "C58",
   "status": "proved",
   "theorems": [
    "GT.C58_find_job",
    "GT.C58_find_each",
    "GT.C58_train",
    "GT.C58_train_schedule",
    "GT.C58_rail_system",
    "GT.C58_rail_system_error"
   ],
   "note": ""
  },
  {
   "property": "C59",
   "status": "partial",
   "theorems": [
    "GT.C59_no_repetition_partial",
    "GT.C59_not_minimum_counterexample"
   ],
   "note": "The claim is false (C59_not_minimum_counterexample: 6 instead of 5); what holds is validity (C53) and that no placement is visited twice."
  },
  {
   "property": "C60",
   "status": "proved",
   "theorems": [
    "GT.C60_graph3D_only_points",
    "GT.C60_exceptions"
   ],
   "note": ""
  },
  {
   "property": "C61",
   "status": "proved",
   "theorems": [
    "GT.C61_timer",
    "GT.C61_timer_latency"
   ],
   "note": "Times are exact rationals."
  },
  {
   "property": "C62",
   "status": "proved",
   "theorems": [
    "GT.C62_solve_tsp"
   ],
   "note": "For '2023' some tour must be shorter than sys.maxsize; 'bnb' needs four nodes and no self loops."
  },
  {
   "property": "C63",
   "status": "proved",
   "theorems": [
    "GT.C63_check_user_input"
   ],
   "note": ""
  },
  {
   "property": "C64",
   "status": "proved",
   "theorems": [
    "GT.C64_bidirectional_agrees"
   ],
   "note": ""
  },
  {
   "property": "C65",
   "status": "proved",
   "theorems": [
    "GT.C21_all_paths_dag"
   ],
   "note": ""
  },
  {
   "property": "C66",
   "status": "proved",
   "theorems": [
    "GT.C25_phase_lines_dag"
   ],
   "note": ""
  },
  {
   "property": "C67",
   "status": "proved",
   "theorems": [
    "GT.C37_loop_back_to_start"
   ],
   "note": ""
  },
  {
   "property": "C68",
   "status": "proved",
   "theorems": [
    "GT.C68_flow_below_every_cut",
    "GT.C68_maximal_without_merges_or_forks"
   ],
   "note": ""
  },
  {
   "property": "C69",
   "status": "proved",
   "theorems": [
    "GT.C69_one_demand_optimal"
   ],
   "note": "Exact rationals."
  },
  {
   "property": "C70",
   "status": "proved",
   "theorems": [
    "GT.C38_is_partite_connected"
   ],
   "note": ""
  },
  {
   "property": "C71",
   "status": "proved",
   "theorems": [
    "GT.C53_jam_solver_sound"
   ],
   "note": "A load may enter prohibited nodes that are among its ends; the loads have distinct ids."
  },
  {
   "property": "C72",
   "status": "proved",
   "theorems": [
    "GT.C53_jam_solver_complete"
   ],
   "note": ""
  },
  {
   "property": "C73",
   "status": "proved",
   "theorems": [
    "GT.C50_tsp_2023_small",
    "GT.C50_tsp_2023_symmetric"
   ],
   "note": "Some tour must be shorter than sys.maxsize."
  },
  {
   "property": "C74",
   "status": "proved",
   "theorems": [
    "GT.C03_degrees_exact"
   ],
   "note": ""
  },
  {
   "property": "C75",
   "status": "proved",
   "theorems": [
    "GT.C46_graph_hash_content"
   ],
   "note": ""
  },
  {
   "property": "C76",
   "status": "proved",
   "theorems": [
    "GT.C47_flow_graph_hash_layered"
   ],
   "note": ""
  },
  {
   "property": "C77",
   "status": "proved",
   "theorems": [
    "GT.C77_from_list"
   ],
   "note": ""
  },
  {
   "property": "C78",
   "status": "proved",
   "theorems": [
    "GT.C78_reachability_answers_agree"
   ],
   "note": ""
  },
  {
   "property": "C79",
   "status": "proved",
   "theorems": [
    "GT.C79_hop_counts_agree"
   ],
   "note": ""
  },
  {
   "property": "C80",
   "status": "proved",
   "theorems": [
    "GT.C80_cycle_answers_agree"
   ],
   "note": ""
  },
  {
   "property": "C81",
   "status": "proved",
   "theorems": [
    "GT.C81_distances_agree"
   ],
   "note": ""
  },
  {
   "property": "C82",
   "status": "proved",
   "theorems": [
    "GT.C82_more_edges_never_longer"
   ],
   "note": ""
  },
  {
   "property": "C83",
   "status": "proved",
   "theorems": [
    "GT.C83_undirected"
   ],
   "note": ""
  },
  {
   "property": "C84",
   "status": "proved",
   "theorems": [
    "GT.C84_ap_solver_pairs"
   ],
   "note": ""
  },
  {
   "property": "C85",
   "status": "proved",
   "theorems": [
    "GT.C85_positive_flow_iff_reachable"
   ],
   "note": ""
  },
  {
   "property": "C86",
   "status": "proved",
   "theorems": [
    "GT.C86_no_superfluous_dependency"
   ],
   "note": ""
  },
  {
   "property": "C87",
   "status": "proved",
   "theorems": [
    "GT.C87_more_dependencies"
   ],
   "note": ""
  },
  {
   "property": "C88",
   "status": "proved",
   "theorems": [
    "GT.C88_insertion_order"
   ],
   "note": "Specification: three lists (Spec/Order)."
  },
  {
   "property": "C89",
   "status": "proved",
   "theorems": [
    "GT.C89_plot_2d",
    "GT.C89_errors"
   ],
   "note": ""
  },
  {
   "property": "C90",
   "status": "proved",
   "theorems": [
    "GT.C90_plot_3d",
    "GT.C90_bad_rotation",
    "GT.C90_empty_graph"
   ],
   "note": ""
  },
  {
   "property": "C91",
   "status": "partial",
   "theorems": [
    "GT.C91_aspect_ratio_partial",
    "GT.C91_cube",
    "GT.C91_rotation_counterexample"
   ],
   "note": "The limits are a cube of the right size for every rotation; all nodes inside and labels right for the four rotations that swap at most two axes. Missing (false): the cyclic rotations yzx and zxy (C91_rotation_counterexample)."
  },
  {
   "property": "C92",
   "status": "proved",
   "theorems": [
    "GT.C92_greedy_two_optimal"
   ],
   "note": "Every symmetric complete graph with positive values."
  },
  {
   "property": "C93",
   "status": "partial",
   "theorems": [
    "GT.C93_local_optimum_partial",
    "GT.C93_greedy_tour_counterexample"
   ],
   "note": "The tour is 2-optimal and section-swap optimal unless it is the tour of _greedy. Missing (false): the tour of _greedy is sometimes returned although a reversal shortens it, so tsp_2023 may be worse than tsp_greedy (C93_greedy_tour_counterexample)."
  },
  {
   "property": "C94",
   "status": "proved",
   "theorems": [
    "GT.C94_shortest_path_rounded",
    "GT.C94_accuracy",
    "GT.C94_exact",
    "GT.C94_double",
    "GT.C94_integers"
   ],
   "note": "For every monotone rounding function (Spec/Round); with fl = id the model is the one of C28 (C94_exact). C94_double instantiates it with IEEE doubles (Spec/Double: round to nearest even, proved to be a Rounding with relative error 2^-53); C94_integers: exact on integers. Not covered: overflow to inf and subnormals."
  },
  {
   "property": "C95",
   "status": "proved",
   "theorems": [
    "GT.C95_renaming"
   ],
   "note": "Reachability, hop counts, cycles and distances."
  },
  {
   "property": "C96",
   "status": "proved",
   "theorems": [
    "GT.C96_reversal",
    "GT.C96_mirrored_schedule"
   ],
   "note": ""
  },
  {
   "property": "C97",
   "status": "proved",
   "theorems": [
    "GT.C97_scaling",
    "GT.C97_scaled_schedule"
   ],
   "note": ""
  },
  {
   "property": "C98",
   "status": "proved",
   "theorems": [
    "GT.C98_maximum_flow_rounded",
    "GT.C98_maximal_without_merges_or_forks",
    "GT.C98_min_cut_rounded",
    "GT.C98_exact",
    "GT.C98_min_cut_exact",
    "GT.C98_errors"
   ],
   "note": ""
  },
  {
   "property": "C99",
   "status": "proved",
   "theorems": [
    "GT.C99_maximum_flow_integral",
    "GT.C99_minimum_cost_flow_integral"
   ],
   "note": ""
  },
  {
   "property": "C100",
   "status": "proved",
   "theorems": [
    "GT.C100_operation",
    "GT.C100_new_objects",
    "GT.C100_to_dict",
    "GT.C100_from_dict",
    "GT.C100_caller_cannot_reach_graphs",
    "GT.C100_unchanged",
    "GT.C100_every_object_built"
   ],
   "note": ""
  },
  {
   "property": "C101",
   "status": "proved",
   "theorems": [
    "GT.C101_searches",
    "GT.C101_distances",
    "GT.C101_projects",
    "GT.C101_maximum_flow_counterexample"
   ],
   "note": "maximum_flow is excluded in the statement: kernel checked counterexample"
  },
  {
   "property": "C102",
   "status": "proved",
   "theorems": [
    "GT.C102_shortest_path_any_values",
    "GT.C102_not_shortest_counterexample"
   ],
   "note": "the counterexample shows that the answer need not be shortest with negative values"
  },
  {
   "property": "C103",
   "status": "proved",
   "theorems": [
    "GT.C103_avoiding_is_deleting",
    "GT.C103_avoiding_is_subgraph",
    "GT.C103_parts_of_shortest_paths"
   ],
   "note": ""
  },
  {
   "property": "C104",
   "status": "proved",
   "theorems": [
    "GT.C104_all_pairs_any_values",
    "GT.C104_negative_cycles",
    "GT.C104_certificate",
    "GT.C104_loop_counterexample"
   ],
   "note": "the counterexample shows that a negative loop does not show on the diagonal"
  },
  {
   "property": "C105",
   "status": "proved",
   "theorems": [
    "GT.C105_bidirectional_any_values",
    "GT.C105_diverges_counterexample",
    "GT.C105_not_shortest_counterexample"
   ],
   "note": "the counterexamples show the two remarks in parentheses"
  },
  {
   "property": "C106",
   "status": "proved",
   "theorems": [
    "GT.C106_from_list_stops",
    "GT.C106_from_dict_stops"
   ],
   "note": ""
  },
  {
   "property": "C107",
   "status": "proved",
   "theorems": [
    "GT.C107_topological_sort_snapshot",
    "GT.C107_breadth_first_walk_live",
    "GT.C107_walk_reaches",
    "GT.C107_walk_unchanged",
    "GT.C107_deleting_counterexample"
   ],
   "note": "the counterexample shows that deleting nodes during a breadth_first_walk cuts it off"
  },
  {
   "property": "C108",
   "status": "partial",
   "theorems": [
    "GT.C108_copy_methods_partial",
    "GT.C108_loop",
    "GT.C108_solve_tsp_raises",
    "GT.C108_solve_tsp_same",
    "GT.C108_minimize_slack_raises",
    "GT.C108_flow_graph_hash_raises"
   ],
   "note": "full for the methods that copy (topological_sort, has_cycles, phase_lines, critical_path, loop); false for solve_tsp (always TypeError/ValueError with greedy, and with 2023 from seven nodes on), critical_path_minimize_for_slack and flow_graph_hash (AssertionError): exact theorems about when they raise"
  },
  {
   "property": "C109",
   "status": "proved",
   "theorems": [
    "GT.C109_critical_path_rounded",
    "GT.C109_errors",
    "GT.C109_accuracy",
    "GT.C109_integers",
    "GT.C109_exact"
   ],
   "note": "For every monotone rounding function; C109_accuracy and C109_integers for IEEE doubles (Spec/Double). Not covered: overflow to inf, subnormals."
  },
  {
   "property": "C110",
   "status": "partial",
   "theorems": [
    "GT.C110_slack_partial",
    "GT.C110_slack_sign"
   ],
   "note": "false as stated: with durations 0.1, 0.2 the first critical task has slack 2^-55 > 0, with 0.1, 0.4 it has slack -2^-55 (C110_slack_sign); proved: some task has slack 0 and the computed slack is within (3n+1) 2^-52 cpl of the exact, non-negative one"
  },
  {
   "property": "C111",
   "status": "proved",
   "theorems": [
    "GT.C111_any_number_type",
    "GT.C111_whatever_values",
    "GT.C111_heap",
    "GT.C111_infinite_values",
    "GT.C111_float",
    "GT.C111_rationals",
    "GT.C111_nan"
   ],
   "note": "for any number type given by its operations; nan (which breaks the laws) gives a genuine but possibly not shortest walk: C111_nan"
  },
  {
   "property": "C112",
   "status": "partial",
   "theorems": [
    "GT.C112_states_by_hash_partial",
    "GT.C112_no_move_counterexample",
    "GT.C112_illegal_move_counterexample",
    "GT.C112_key_error_counterexample"
   ],
   "note": "true if the hashes of the placements differ; false in CPython for nodes -1 and -2, whose hashes are equal: the plan is empty, uses a connection that does not exist, or KeyError is raised"
  },
  {
   "property": "C113",
   "status": "proved",
   "theorems": [
    "GT.C113_one_supply_optimal",
    "GT.C113_short_supply_counterexample"
   ],
   "note": "exact rationals; C113_short_supply_counterexample shows that the supply must be enough"
  },
  {
   "property": "C114",
   "status": "partial",
   "theorems": [
    "GT.C114_result",
    "GT.C114_terminates_partial",
    "GT.C114_two_weapons",
    "GT.C114_hang_counterexample"
   ],
   "note": "false in general: C114_hang_counterexample (IEEE doubles, three weapons, probabilities 0.1 and 0.2) runs forever; proved if products do not depend on the order of the factors, in particular with at most two weapons per target"
  },
  {
   "property": "C115",
   "status": "proved",
   "theorems": [
    "GT.C115_accuracy",
    "GT.C115_bracket",
    "GT.C115_minmax",
    "GT.C115_minsum",
    "GT.C115_left_to_right",
    "GT.C115_tree",
    "GT.C115_integers",
    "GT.C115_exact",
    "GT.C115_disagree_counterexample",
    "GT.C115_tie_counterexample"
   ],
   "note": "two counterexamples show what does not hold: the entries can differ from the value of shortest_path in the last digit, and minmax can lose ties"
  },
  {
   "property": "C116",
   "status": "proved",
   "theorems": [
    "GT.C116_topological_sort",
    "GT.C116_has_cycles",
    "GT.C116_critical_path",
    "GT.C116_type_error_counterexample"
   ],
   "note": "an acyclic graph on which has_cycles raises TypeError is exhibited"
  },
  {
   "property": "C117",
   "status": "proved",
   "theorems": [
    "GT.C117_bidirectional",
    "GT.C117_type_error_counterexample"
   ],
   "note": "a graph is exhibited on which shortest_path works and the bidirectional search raises TypeError"
  },
  {
   "property": "C118",
   "status": "proved",
   "theorems": [
    "GT.C118_ap_solver",
    "GT.C118_type_error_counterexample"
   ],
   "note": "a graph on which the call fails and changes the graph is exhibited"
  },
  {
   "property": "C119",
   "status": "proved",
   "theorems": [
    "GT.C119_graph_hash",
    "GT.C119_type_error_counterexample"
   ],
   "note": "a graph that has no hash is exhibited"
  },
  {
   "property": "C120",
   "status": "proved",
   "theorems": [
    "GT.C120_wtap_solver",
    "GT.C120_type_error_counterexample"
   ],
   "note": "an input on which the call raises TypeError is exhibited"
  },
  {
   "property": "C121",
   "status": "proved",
   "theorems": [
    "GT.C121_min_cost_flow",
    "GT.C121_type_error_counterexample"
   ],
   "note": "an input on which the call raises TypeError is exhibited"
  },
  {
   "property": "C122",
   "status": "proved",
   "theorems": [
    "GT.C122_jam_solver",
    "GT.C122_type_error_counterexample"
   ],
   "note": "a network with a plan of one move on which the call raises TypeError is exhibited"
  },
  {
   "property": "C123",
   "status": "proved",
   "theorems": [
    "GT.C123_insort",
    "GT.C123_bidirectional",
    "GT.C123_branch_and_bound",
    "GT.C123_jam_solver",
    "GT.C123_min_cost_flow",
    "GT.C123_unsorted_counterexample"
   ],
   "note": "what the binary search does with a list that is not sorted is exhibited"
  },
  {
   "property": "C124",
   "status": "proved",
   "theorems": [
    "GT.C124_heap",
    "GT.C124_any_number_type",
    "GT.C124_shortest_path",
    "GT.C124_whatever_values",
    "GT.C124_counter_needed_counterexample"
   ],
   "note": "heappush and heappop as in Python's Lib/heapq.py"
  },
  {
   "property": "C125",
   "status": "proved",
   "theorems": [
    "GT.C125_none_unreachable",
    "GT.C125_none_unreachable_shortest_path",
    "GT.C125_none_absent",
    "GT.C125_none_as_end",
    "GT.C125_none_as_end_shortest_path",
    "GT.C125_none_leads_everywhere",
    "GT.C125_always_ends",
    "GT.C125_shortest_path_always_ends",
    "GT.C125_none_as_start_counterexample",
    "GT.C125_none_on_the_way_counterexample"
   ],
   "note": "the two counterexamples show that None as the start or on the way is not right"
  },
  {
   "property": "C126",
   "status": "proved",
   "theorems": [
    "GT.C126_one_pass_per_node",
    "GT.C126_distance_map",
    "GT.C126_shortest_path",
    "GT.C126_sources",
    "GT.C126_phase_lines_and_components",
    "GT.C126_is_connected_counterexample",
    "GT.C126_is_connected_cut"
   ],
   "note": "with the exponential worst case of is_connected proved for every k"
  },
  {
   "property": "C127",
   "status": "proved",
   "theorems": [
    "GT.C127_values_do_not_matter"
   ],
   "note": ""
  },
  {
   "property": "C128",
   "status": "partial",
   "theorems": [
    "GT.C128_shortest_path_returns",
    "GT.C128_shortest_path_ends",
    "GT.C128_shortest_path_type_error",
    "GT.C128_shortest_path_numbers",
    "GT.C128_has_path_partial",
    "GT.C128_has_path_counterexample"
   ],
   "note": "shortest_path fully; has_path is proved to be right on edges whose value is not None, and the claim for edges with value None is false: C128_has_path_counterexample"
  },
  {
   "property": "C129",
   "status": "proved",
   "theorems": [
    "GT.C129_short_routes",
    "GT.C129_at_least_share",
    "GT.C129_a_third"
   ],
   "note": ""
  },
  {
   "property": "C130",
   "status": "proved",
   "theorems": [
    "GT.C130_raises_iff",
    "GT.C130_after_exception",
    "GT.C130_no_edge_touched",
    "GT.C130_always_a_graph",
    "GT.C130_queries",
    "GT.C130_from_list",
    "GT.C130_path_query",
    "GT.C130_proper_calls",
    "GT.C130_not_atomic"
   ],
   "note": "add_edge is not atomic: C130_not_atomic"
  },
  {
   "property": "C131",
   "status": "proved",
   "theorems": [
    "GT.C131_ap_solver_rounded",
    "GT.C131_doubles",
    "GT.C131_cheapest_ignored",
    "GT.C131_big_value_counterexample"
   ],
   "note": ""
  },
  {
   "property": "C132",
   "status": "partial",
   "theorems": [
    "GT.C132_tsp_greedy_rounded",
    "GT.C132_tsp_2023_rounded_partial",
    "GT.C132_tsp_2023_small",
    "GT.C132_accuracy",
    "GT.C132_integers",
    "GT.C132_hang_counterexample"
   ],
   "note": "tsp_2023 need not terminate on doubles: on a symmetric complete graph with the values 0.1, 0.2, 0.3 _opt3 exchanges edges for ever (C132_hang_counterexample); everything else is proved"
  },
  {
   "property": "C133",
   "status": "proved",
   "theorems": [
    "GT.C133_distance_from_path_rounded",
    "GT.C133_walk",
    "GT.C133_accuracy",
    "GT.C133_exact"
   ],
   "note": ""
  },
  {
   "property": "C134",
   "status": "proved",
   "theorems": [
    "GT.C134_min_cost_flow_rounded",
    "GT.C134_total",
    "GT.C134_exact"
   ],
   "note": ""
  },
  {
   "property": "C135",
   "status": "proved",
   "theorems": [
    "GT.C135_bidirectional_rounded",
    "GT.C135_accuracy",
    "GT.C135_integers",
    "GT.C135_exact",
    "GT.C135_error",
    "GT.C135_not_same_distance_counterexample"
   ],
   "note": ""
  },
  {
   "property": "C136",
   "status": "proved",
   "theorems": [
    "GT.C136_simple_path",
    "GT.C136_memoize"
   ],
   "note": ""
  },
  {
   "property": "C137",
   "status": "proved",
   "theorems": [
    "GT.C137_memoize_rounded",
    "GT.C137_accuracy",
    "GT.C137_integers",
    "GT.C137_exact",
    "GT.C137_cached_section_counterexample"
   ],
   "note": ""
  },
  {
   "property": "C138",
   "status": "proved",
   "theorems": [
    "GT.C138_maximum_flow_float",
    "GT.C138_accuracy",
    "GT.C138_cuts",
    "GT.C138_doubles",
    "GT.C138_integers",
    "GT.C138_exact",
    "GT.C138_errors",
    "GT.C138_capacity_counterexample",
    "GT.C138_conservation_counterexample"
   ],
   "note": ""
  },
  {
   "property": "C139",
   "status": "proved",
   "theorems": [
    "GT.C139_distance_map_rounded",
    "GT.C139_distance_map_reverse_rounded",
    "GT.C139_same_nodes",
    "GT.C139_accuracy",
    "GT.C139_doubles",
    "GT.C139_integers",
    "GT.C139_exact",
    "GT.C139_errors",
    "GT.C139_direction_counterexample"
   ],
   "note": ""
  },
  {
   "property": "C140",
   "status": "proved",
   "theorems": [
    "GT.C140_min_cut_float",
    "GT.C140_overfull",
    "GT.C140_certificate",
    "GT.C140_doubles",
    "GT.C140_integers",
    "GT.C140_exact",
    "GT.C140_errors",
    "GT.C140_missed_cut_counterexample"
   ],
   "note": ""
  },
  {
   "property": "C141",
   "status": "proved",
   "theorems": [
    "GT.C141_maximum_flow",
    "GT.C141_maximum_flow_float",
    "GT.C141_min_cost_flow",
    "GT.C141_ap_solver",
    "GT.C141_wtap_solver",
    "GT.C141_wtap_solver_float",
    "GT.C141_wtap_float_counterexample",
    "GT.C141_every_cut",
    "GT.C141_cut",
    "GT.C141_bound_reached"
   ],
   "note": ""
  }
 ]
}