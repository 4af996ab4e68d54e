# Formal model of root-11/graph-theory in Lean 4

## 1. Shape of the development

* `lean/Verif/Py.lean` – the Python vocabulary: exceptions as values, `while` loops
  (`pyWhile`, where `none` *means* divergence), insertion-ordered dictionaries, sets as lists.
* `lean/Verif/Spec/*.lean` – the independent specification vocabulary (walks, reachability, walk
  cost, …).  It never mentions the model.
* `lean/Verif/Graph/*.lean` – model of `graph/base.py:BasicGraph` and its invariant/refinement.
* `lean/Verif/<Algorithm>/…` – one file (or a pair model/proofs) per module of the library.
* `lean/Verif/Props/*.lean` – **only** the property theorems (one file per group) with their
  non-vacuity examples.  Helper lemmas live elsewhere.

Conventions

* Each model definition cites the file and lines it models; simplifications are named there.
* Nodes are an arbitrary type with decidable equality (Python: hashable with a proper `__eq__`),
  different from `None` (`None` as a node: C125, Search/NoneNode).  Node objects are `Option O` (`None` by default).
* Numbers are exact rationals (`Rat`); Python `int` is exact, finite `float`s are rationals, but
  float *rounding* is not modelled, except for `shortest_path` (C94, Sp/DijkstraFl), `critical_path` (C109, C110, Dag/CpmFl), `wtap_solver` (C114, Flow/WtapFl), `ap_solver` (C131), `tsp_greedy`, `tsp_2023`, `brute_force` (C132, Other/TspFl), `distance_from_path` (C133, Sp/LegsFl), `minimum_cost_flow` (C134, Flow/MinCostFl), `shortest_path_bidirectional` (C135, Sp/BidirFl), `shortest_path(memoize=True)` (C137, Sp/CacheFl), `all_pairs_shortest_paths`, `minmax`, `minsum`, `shortest_tree_all_pairs` (C115, Sp/ApspFl) and `maximum_flow`, `maximum_flow_min_cut` (C98, Flow/MaxFlowFl, with exact capacities; the only other place where integer input leads to floats), `maximum_flow` with float capacities (C138, Flow/MaxFlowFp), `distance_map` (C139, Sp/DistMapFl), `maximum_flow_min_cut` (C140, Flow/MinCutFp). `float('inf')` appears only as a result (`Ext.inf`), except for `shortest_path`, where edge values may be infinite, overflow or be of any number type (C111, Sp/DijkstraNum).
* Python sets iterate in an unspecified order: wherever the order can be observed the model
  takes an *oracle* and the theorem quantifies over every oracle.
* Every `while` loop is a `pyWhile`; termination is a theorem, divergence is provable as `= none`.
* A graph is `Built` if it is the result of some finite history of public operations starting from
  the empty graph.  Property theorems quantify over `Built` graphs, not over an ad-hoc invariant.

## 2. Trusted base

* Lean 4.33 kernel.  Axioms: only `propext`, `Classical.choice`, `Quot.sound`; the table at the end of this file (generated by
  `tools/gen_axioms.py` from `#print axioms`) lists them for every theorem of MANIFEST.json.  No axioms are added; no
  `native_decide`, no `bv_decide`; concrete examples are evaluated by the kernel (`decide`, `decide +kernel`).
* The reading of the Python source: model definitions are hand written from /repo; each cites file and lines.
* Python library functions used as primitives with their documented meaning: dict (insertion ordered), set, deque,
  `sorted`/`list.sort` (a stable permutation ordered by the key), `heapq` (pop returns a minimum; C124 proves it of the library's binary heap), `bisect.insort` (to the right of equal elements of a sorted
  list; the binary search itself is modelled in Bisect, and C123 proves that the lists are sorted), `itertools.permutations/combinations/product`, `hashlib.sha3_256` (an arbitrary function), `random` (an arbitrary
  stream of choices), `process_time` (an arbitrary sequence of readings).
* Where Python does not fix an order (iteration over a set, `set.pop`, the order of equal keys given by a user's key function) the
  model takes the order as a parameter and the theorems hold for every value of it.

### What is modelled

| source | model | properties |
|---|---|---|
| graph/base.py (BasicGraph: all mutators, all readers, copy, ==, to/from dict/list, is_connected, module functions subgraph, is_subgraph, same_path, has_path, distance) | Graph/Model, Graph/Serial, Graph/Funcs, Graph/Misc, Search/Connected | C01–C12, C57 |
| graph/base.py once more, as dictionaries in memory with addresses (mutators, copy, subgraph, to_dict, from_dict; callers with dictionaries of their own) | Graph/Heap | C100 |
| graph/base.py:from_list, from_dict with malformed items | Graph/LoadE | C106 |
| topological_sort, breadth_first_walk as generators, with changes of the graph between two `next` | Search/Gens | C107 |
| the methods `Graph3D` inherits from `Graph` that copy the graph or call what `Graph3D` overrides | Other/Inherit3D | C108 |
| bfs.py, dfs.py, degree_of_separation.py, all_simple_paths.py, all_paths.py, core.py:network_size/components (base.py) | Search/* | C13–C20, C21 |
| dag.py, topological_sort.py, critical_path.py | Dag/* | C22–C27 |
| shortest_path.py (shortest_path, bidirectional, cache, distance_from_path), adjacency_matrix.py, all_pairs_shortest_path.py, minmax.py, minsum.py, shortest_tree_all_pairs.py, distance_map.py, cycle.py | Sp/* | C28–C37 |
| partite.py, max_flow.py, maximum_flow_min_cut.py (= max_flow_min_cut.py), min_cost_flow.py, assignment_problem.py | Flow/* | C38–C43 |
| finite_state_machine.py, hash_methods.py | Other/Fsm, Merkle, GraphHash, FlowHash | C44–C47 |
| tsp.py | Other/Tsp, TspOpt, Tsp2023, TspLocal, Bnb | C48–C50, C92, C93 |
| traffic_scheduling_problem.py (Timer, Load, check_user_input, is_ap_solvable, path_to_moves, moves_to_synchronous_moves, State, JamSolver, jam_solver) | Other/Ap, Moves, Jam, JamTop, TimerProof | C51–C53, C59, C61, C63 |
| random.py, core.py:Graph3D (add_node, add_edge, _check_tuples, copy, n_nearest_neighbours), core.py:solve_tsp | Other/RandomXy, Nearest, Graph3D, SolveTsp | C54, C55, C60, C62 |
| visuals.py (plot_2d, plot_3d as lists of drawing commands), core.py:Graph3D.plot | Other/Visuals | C89–C91 |
| transshipment_problem.py (Train, schedule, find, find_perfect_circuit, path_from_schedule, schedule_rail_system) | Other/Rail | C56, C58 |

### What is not modelled

* `isinstance` guards where the model is typed; floating-point rounding (except C94, C98, C109, C110, C114, C115, C131–C135, C137–C140) and `nan`; infinite edge values (`inf` occurs only as a result
  and as a capacity); recursion limits, memory, running time (but C126 and C141 bound the passes of the loops); mutation of node objects by the user; `__hash__`/`__eq__` of nodes that
  are not proper; laziness of generators (a generator is the list of what it yields plus the exception that ends it) except in C107.
* Nodes that cannot be compared (`1 < 'a'` raises `TypeError`): modelled for `topological_sort`, `has_cycles`, `critical_path` (Dag/TopoCmp), `shortest_path_bidirectional` (Sp/BidirCmp), `ap_solver` (Flow/AssignCmp),
  `graph_hash` (Other/HashCmp), `wtap_solver` (Flow/WtapCmp), `minimum_cost_flow_using_successive_shortest_path` (Flow/MinCostCmp) and `jam_solver` (Other/JamCmp);
  there `sorted` raises exactly if two of its elements (with tuples: two that are tied in the components before) cannot be compared.  Elsewhere the nodes are assumed to be comparable where they are sorted.
* `State.__eq__` compares hashes only: the model compares the placements; the model with hash equality is Other/JamHash, and C112 proves that the two agree if the hashes of the placements differ.
* `print` output, what matplotlib does with the drawing commands, `clondike_transshipment_problem` (fixed example data), `setup.py`, `examples/`, `tests/`.
* The methods of `core.py:Graph` that only forward their arguments (63–315, all but `solve_tsp`) are identified with the functions they call.

## 3. Properties: what is modelled and how it is proved

Every property can be expressed in the model.  MANIFEST.json has the status and the theorem names.

| id | model (lean/Verif/…) | proof method |
|---|---|---|
| C01 | Graph/Model (all internal maps of BasicGraph, operations as values) | invariant tying the four maps together, induction over the history, refinement to Spec/Maps |
| C02 | Graph/Model, Graph/Api | enumerations from the invariant: duplicate-free and complete |
| C03 | Graph/Model (cached degree counters, phantom keys) | counters = cardinalities as part of the invariant; witness for the filters |
| C04 | Graph/Model in exception-valued form | no operation returns an error from a state with the invariant |
| C05 | Graph/Serial, Funcs | copy = fold of add_node/add_edge; refinement to the same maps, so later histories do not interact |
| C06 | Graph/Serial | equality of the maps; equivalence relation as corollary |
| C07 | Graph/Serial | folds over the refinement lemmas in both directions |
| C08 | Graph/FuncLemmas | characterisation of the folds |
| C09 | Graph/FuncLemmas | inclusion of maps; order laws |
| C10 | Graph/Misc | induction on the list against Spec/Walks |
| C11 | Graph/Misc | against `∃ k, rotate`; equivalence laws |
| C12 | Search/Connected | loop invariant: visited closed up to the queue |
| C13 | Search/Bfs | queue sorted by level, parents form walks; minimality over all walks |
| C14 | Search/Bfs | level invariant of the generator |
| C15 | Search/Bfs | hop distance from C13's invariant |
| C16 | Search/Dfs | stack invariant: path simple, dead nodes cannot reach the end avoiding the path |
| C17 | Search/Dfs | closure under criteria-bounded steps |
| C18 | Search/Network | level sets |
| C19 | Search/Network | closure of weak adjacency; partition |
| C20 | Search/Paths | enumeration of simple paths by a stack, measure for termination |
| C21 | Search/AllPaths | soundness invariant on all graphs; exactness on DAGs; witnesses (IndexError, divergence, missing path, repeated nodes) |
| C22 | Dag/Work | upward closure; divergence with a cycle upstream |
| C23 | Dag/Topo | removed set predecessor closed; acyclic graphs have a source |
| C24 | Dag/Topo | corollary of C23's invariant |
| C25 | Dag/Phase | longest chain by rounds |
| C26 | Dag/Cpm, Cpm2 | forward and backward pass against the longest/shortest chain bounds of Spec/Sched |
| C27 | Dag/Slack, SlackCex | project quantities preserved through the edit loop; witness |
| C28 | Sp/Dijkstra | heap invariant, optimality against all walks |
| C29 | Sp/Bidir, BidirMain | two-sided Dijkstra invariant, stopping rule |
| C30 | Sp/Cache | cache entries are right as long as the graph and the hash do not change/collide |
| C31 | Sp/Legs | induction on the legs |
| C32 | Sp/Apsp | enumeration lemmas |
| C33 | Sp/Apsp | Floyd–Warshall invariant: walks through the first k nodes, negative edges allowed |
| C34 | Sp/Center | extrema over the matrix |
| C35 | Sp/Center | exact behaviour; witness |
| C36 | Sp/DistMap | BFS invariant: every value is the length of a walk |
| C37 | Sp/Loop | two calls of the bidirectional search with `avoids` |
| C38 | Flow/Partite | colouring invariant of the greedy loop; parity argument for n ≤ 2 |
| C39 | Flow/MaxFlow | flow conservation preserved by augmentation along a path; termination: every round saturates an edge |
| C40 | Flow/MinCut | from C39 and the order of the breadth first walk; weak duality for edge sets; witnesses |
| C41 | Flow/MinCost | shipment invariant preserved by every augmentation; termination |
| C42 | Flow/Assign | deferred acceptance: stability invariant, half of the optimum by charging |
| C43 | Flow/Wtap | improvement loop: value strictly decreases over finitely many assignments |
| C44 | Other/Fsm | simulation between the graph encoding and Spec/Fsm |
| C45 | Other/Merkle | levels halve; injectivity level by level for collision-free hashes |
| C46 | Other/GraphHash | sorted enumeration is canonical; parsing argument for the converse |
| C47 | Other/FlowHash | BFS order and hash chain; injectivity |
| C48 | Other/Bnb | priority queue of partial tours; witnesses |
| C49 | Other/Tsp, TspOpt | permutation and length preserved by each exchange; strict decrease |
| C50 | Other/Tsp2023 | brute force = minimum over permutations; exchanges as in C49; witness |
| C51 | Other/Ap | greedy matching is a matching; exchange argument for laminar ends |
| C52 | Other/Moves | moves replay the state path; synchronous steps are a linear extension |
| C53 | Other/Jam* | reachability in the state graph, both search fronts sound, exhaustion complete; every clock |
| C54 | Other/RandomXy | oracle streams |
| C55 | Other/Nearest | stable sort by distance, prefix |
| C56 | Other/Rail | state search; witnesses |
| C57 | Graph/Misc | induction on the list |
| C58 | Other/Rail | from C28/C29 and C56 |
| C59 | Other/Jam, JamEval | refuted by a witness |
| C60 | Other/Graph3D | invariant over histories of calls with arbitrary values |
| C61 | Other/TimerProof | induction over the calls, arbitrary clock |
| C62 | Other/SolveTsp | case split on the method; C48–C50 |
| C63 | Other/JamTop, JamTopProof | each check characterised, in order |
| C64 | Sp/Bidir | C29 without avoids |
| C65 | Search/AllPaths | exactness on DAGs |
| C66 | Dag/Phase | longest chain by rounds |
| C67 | Sp/Loop | as C37 |
| C68 | Flow/MaxFlow, Cut | weak duality (sum over the cut); a blocking flow in a network without merges (forks) saturates the cut of the nodes reached by residual edges |
| C69 | Flow/MinCost, OneDemand | distances to the customer as potentials: every augmentation uses tight edges and nearer supplies first; any other shipment costs at least as much |
| C70 | Flow/Partite | parity along walks |
| C71 | Other/Jam* | as C53 |
| C72 | Other/Jam* | as C53 |
| C73 | Other/Tsp2023 | strict decrease of the length over finitely many tours |
| C74 | Graph/Model | as C03 |
| C75 | Other/GraphHash | as C46 |
| C76 | Other/FlowHash | BFS order is topological on layered DAGs |
| C77 | Graph/Funcs | induction on the list of links |
| C78 | Search/* | each function's specification (C12–C20) in terms of `Reach` |
| C79 | Search/* | each function's specification in terms of shortest `Steps` |
| C80 | Dag/*, Search/Connected | specifications of C12, C23, C24, C26 in terms of closed walks |
| C81 | Sp/* | uniqueness of the shortest distance; concatenation of walks |
| C82 | Sp/Dijkstra | walks of the smaller graph are walks of the larger one |
| C83 | Sp/Dijkstra, Search/Components | reversal of walks |
| C84 | Flow/Assign | the assignment is inclusion-maximal; injection of any other one into its end points |
| C85 | Flow/MaxFlow | loop invariant: first augmenting path has a positive bottleneck |
| C86 | Dag/Slack, Dag/SlackMin | invariant of part 2: every inserted edge already tested is needed, preserved by later removals because slack is antitone in the dependencies |
| C87 | Dag/SlackMin | well-founded induction over both graphs' schedule equations |
| C88 | Graph/Model, Spec/Order | refinement of three lists in insertion order, induction over the history |
| C89 | Other/Visuals (drawing commands as output) | induction over nodes and edges |
| C90 | Other/Visuals, Spec/Plot | case analysis over the six rotations, induction over nodes and edges |
| C91 | Other/Visuals, Spec/Plot | minima and maxima of folds, linear arithmetic; witness for cyclic rotations |
| C92 | Other/TspLocal, Spec/Tour | a pass either shortens the tour or leaves it and no reversal helps; tours never repeat, so the counting stop rule never fires |
| C93 | Other/TspLocal, Spec/Tour | as C92 for the five choices of `_opt3`; every reversal is among them from seven nodes on; witness |
| C94 | Sp/DijkstraFl, Spec/Round, Spec/Double (IEEE round-to-nearest-even with 53 bits, unbounded exponent) | the invariant of C28 with `fl (cost + dist)`; only monotonicity and `fl (fl x) = fl x` are used; induction on walks for the error bound |
| C95 | Spec/Invariance | walks correspond under the renaming; uniqueness of distances, hop counts (C12, C15, C24, C28) |
| C96 | Spec/Invariance | walks and chains are reversed; uniqueness (C12, C15, C24, C26, C28) |
| C97 | Spec/Invariance | walk values and chain durations are scaled; uniqueness (C26, C28) |
| C98 | Flow/MaxFlowFl, Spec/Round | the invariant of C39 with `fl (1 / capacity left)` in the inverted graph and the paths of C94 |
| C99 | Flow/Integral | all values are sums and differences of given ones: invariant of both loops |
| C100 | Graph/Heap (memory: every dictionary has an address; rows of `_edges` are updated in place; caller dictionaries arbitrary) | local reasoning: each method touches only what the object owns; separation invariant over programs; simulation of the value level model |
| C101 | all of the above | both answers are characterised by the content (C06): uniqueness of the characterisations |
| C102 | Sp/DijkstraAny | invariant: recorded paths are simple walks of the recorded value; termination by the set of settled nodes |
| C103 | Sp/Dijkstra + Graph | walks outside `avoids` are the walks of the smaller graph; cut and paste of walks |
| C104 | Sp/ApspNeg, Spec/Loops | Floyd-Warshall invariant over intermediate nodes for simple walks; a negative closed walk contains a simple one |
| C105 | Sp/BidirAny | invariant: labels are values of recorded walks; nothing found means disjoint closed boundaries; termination: number of values of simple paths below the label |
| C106 | Graph/LoadE | loop that stops at the first exception; split of the argument at the first bad item; the prefix is the value-level from_list / from_dict |
| C107 | Search/Gens (generators as coroutines, programs that interleave `next` and operations of the graph) | a started topological_sort does not read the graph: stream of outcomes = run of C23; walk: invariant over the trace (yielded ++ queue = visited, parents, closure) |
| C108 | Other/Inherit3D (the inherited methods with `Graph3D.copy`, `distance` and `add_edge`) | specs of the copying methods generalised to any working copy with the same nodes and edges; the others: exact condition for each exception |
| C109 | Dag/CpmFl (`critical_path` with a rounding after every operation), Spec/Round, Spec/Double (IEEE doubles) | the schedule equations as for C26, monotony of rounding along chains; accuracy: errors of `flDur`/`flBack` along simple chains; integers: every intermediate result is an integer below 2^53 |
| C110 | as C109 | accuracy of C109 plus one rounding; counterexamples with 0.1, 0.2 and 0.1, 0.4 evaluated in the kernel |
| C111 | Sp/DijkstraNum (Dijkstra over an abstract number type with `heappop` as a parameter), Spec/Numbers | invariant of Sp/DijkstraFl over an abstract preorder (the always-true one gives the part without assumptions); instances: numbers with infinity, floats with overflow, rounded rationals |
| C112 | Other/JamHash (the solver of Other/Jam with dictionaries and sets keyed by hash), Spec/PyHash (CPython's hashes of integers and tuples) | simulation: without collisions the two solvers go through the same states (Other/JamHashProof); the collisions of -1 and -2 by evaluation |
| C113 | Flow/MinCost, OneSupply | minus the distances from the supplier as potentials: every augmentation uses tight edges; complete shipments have the same net flow at every node, so the potentials bound the cost; a cut shows that unreached demand cannot be met |
| C114 | Spec/Survive, Flow/WtapFl | the loop of C43 with a rounding function after every operation: the rounded value of the current engagement strictly decreases if it does not depend on the order of the edges; an invariant of three concrete states shows the hang |
| C115 | Sp/ApspFl, Sp/ApspInt, Spec/Round | the invariant of C33 with `fl (D a v + D v b)`: an entry is the bracketed rounded sum of a walk with inner nodes already processed, and at most the exact distance up to one factor `1+ε` per processed node; integers: entries belong to simple walks, so no rounding |
| C116 | Dag/TopoCmp, Spec/Compare | model with a sort that may raise; invariant: round `k` of the loop sorts exactly the nodes of height `k`; refinement to the model of C23 with the total sort when nothing raises |
| C117 | Sp/BidirCmp, Spec/Compare | model with a sort of tuples that may raise; the loop agrees with the one of C29 until it raises (`pyWhile_cut`) |
| C118 | Flow/AssignCmp, Spec/Compare | model in which ranking the tasks of an agent may raise; every agent ranks its tasks, so the exception is raised exactly if some ranking raises |
| C119 | Other/HashCmp, Spec/Compare | model in which the two `sorted` may raise; the edges are distinct in their nodes, so their sort raises only if that of the nodes does |
| C120 | Flow/WtapCmp | model in which the sort may raise; the loop agrees with the one of C43 until it raises |
| C121 | Flow/MinCostCmp, Bisect | model in which `sort` and the binary search of `insort` may raise; invariant: the balance is sorted and signs of stock are kept; the loop agrees with the one of C41 until it raises |
| C122 | Other/JamCmp | model in which the sort of the options of each load may raise, after the options of the loads before have been tried; the search agrees with the one of C53 until it raises |
| C123 | Bisect, Sp/BidirBis, Other/BnbBis, Other/JamBis, Flow/MinCostCmp | the programs with the binary search of `bisect`; invariant: the queues are sorted; correctness of the binary search by induction on `hi - lo` |
| C124 | Heapq, Sp/DijkstraHeap | `_siftdown` and `_siftup` of the library with raising comparisons; invariants of the hole (in order except at `pos`), permutation by swapping; simulation of the model with `popMin` (unique minimum, as the counters differ); without order: step lemmas of Sp/DijkstraNum for some pop |
| C125 | Search/NoneNode | the programs with `nn` standing for `None`, for which `nodes(from_node=nn)` is the call without argument; simulation: all nodes taken from the queue are reachable, so different from `nn`; Search/NoneEnds: exact answers over the relation in which `nn` leads everywhere, and termination |
| C126 | Search/WorkBound, Search/WorkComps | the programs with the loop cut after k passes (`XUpTo k`), equal to the uncut programs for the stated k; measure: queue length + unvisited nodes (edges out of them); is_connected: the queue of a ladder doubles per layer |
| C127 | Graph/MapV | `mapV f`, the graph with all values replaced, commutes with every mutation (`mapV_run`); each program reads the graph only through functions that `mapV` does not change; two value types are compared through `Unit` |
| C128 | Sp/NoneValue | values `Option Rat`; `cost + None` raises; a run that returns is a run over the numeric edges only (C18 applies to it); a run that finds nothing has been along every edge; termination by the measure of C125 |
| C129 | Flow/MaxFlow (`MfInv.vol`) | loop invariant: the flow on all edges together is at most L times the value, since each path found is simple; the saturated edges form a cut whose capacity is at most that volume (weak duality, C39) |
| C130 | Graph/Unhash (`stepU`) | arguments `NArg`: hashable or not, every lookup of an unhashable raises; case analysis per call, then induction over histories and items |
| C131 | Flow/Assign (`apSolverFl`: the two subtractions rounded by `fl`) | the loop invariant of C42 with the threshold `v_null` kept as a parameter; `double (m - 1) < m` from the digits of `m`; witness 2^54 |
| C132 | Other/TspFl (`distance`, `_opt1`, `_opt2`, `_opt3`, `tsp_greedy`, `brute_force`, `tsp_2023` with every addition rounded by `fl` and the builtin `sum` a parameter: left to right, or the compensated sum of Python 3.12) | the invariants of C49/C50 with rounded lengths; termination of `_opt2` because the recorded length strictly decreases over finitely many tours; divergence by an invariant of the loop |
| C133 | Sp/LegsFl (`distanceFromPathFl`: the additions rounded by `fl`, detours by the rounded Dijkstra of C94) | induction over the path with the invariant that the cache holds minimal rounded lengths |
| C134 | Flow/MinCostFl (`minCostFlowFl`: every operation rounded by `fl`, `all_pairs_shortest_paths` and `shortest_path` rounded as in C115 and C94, `sum` a parameter), Spec/ShipRound | ghost state: the exact sum `F` of what was moved and the number `k` of iterations; `F + what is left` is the capacity (stock) up to `k` relative errors, because `L + fl (r - L)` is `r` up to one; termination as in C41: each iteration makes a stock or a capacity exactly 0 |
| C135 | Sp/BidirFl (`shortestPathBiFl`: every addition rounded by `fl`), Spec/BiRound | the invariants of C29 with rounded sums: the bound for a walk is the largest of its lengths added from both ends to one of its nodes; pruning with a monotone rounding never goes below it |
| C136 | Sp/BidirSimple, Sp/BidirFl, Sp/Cache | invariant: queued paths are simple and lead through settled nodes with smaller values, a node settled by both searches bounds the best path, so a strictly better meeting point shares no other node; the cache holds sections of simple paths |
| C137 | Sp/CacheFl (`memoRunFl`: the cache of C30 over the rounded bidirectional search of C135 and the rounded `distance_from_path` of C133) | invariant: every cached answer is a section of the path of an earlier query with its left-to-right length; replacing a section of a near-shortest path by another walk bounds its excess |
| C138 | Flow/MaxFlowFp (`maximumFlowFp`: every operation of `maximum_flow` rounded, `sum` an oracle), Spec/FlowRound | ghost list of (path, amount); termination by phases of an edge: untouched or less than half full, more than half full (then the rest is exact by Sterbenz' lemma, proved for `double`), full; `NearTo` for the accuracy, the paths' exact flow for conservation and cuts; `pyWhileD_congr` for integers |
| C139 | Sp/DistMapFl (`distanceMapFl`: the model of C36 with `fl` after every addition), Sp/DistMapKeys | the invariants of C36 with `flCost` for the walks; the walks of the values have expanded, distinct inner nodes; simulation by a loop without values for the nodes reached; `pyWhile_congr` for integers |
| C140 | Flow/MinCutFp (`maxFlowMinCutFp`: the model of C98 with the rounded flow of C138 and a rounded difference) | a rounded difference is 0 only for equal numbers, so the second half is that of C98 applied to the flow of C138; the members by the invariants of C98; weak duality with the capacities of C138_accuracy for the certificate |
| C141 | Flow/WorkFlow (the programs with the main loop cut after k passes, `XUpTo k`) | the measures of the termination proofs are numbers: edges with capacity left (maximum_flow; on floats two phases per edge), edges left plus balances (min_cost_flow), improving edges plus waiting agents (ap_solver), smaller values of full engagements (wtap_solver) |

Where the unchanged code violates a property, the negation is proved on a concrete witness and the
strongest true part is proved as `…_partial`; the disagreement is recorded in section 4.

## 4. Disagreements between the code and the expected property (findings)

Each of these is a kernel-checked theorem about the model (name in brackets); the property keeps its natural statement, has status
`partial`, and the strongest true part is proved beside it.

* **C03** reading the degree of a foreign node creates a phantom key, which degree filters then return [C03_phantom_counterexample].
* **C05** `Graph3D.copy` loses node objects and isolated-node objects [C05_graph3D_copy_loses_objects].
* **C11** `same_path([], [])` on two distinct empty lists is False [C11_empty_counterexample].
* **C57** `distance` always closes the tour, and adds the closing edge twice with `return_to_start=True` [C57_counterexample].
* **C21** `all_paths` raises IndexError or never returns on some cyclic graphs [C21_index_error_counterexample, C21_divergence_counterexample];
  it may miss simple paths and return walks that repeat nodes [C21_missing_path_counterexample, C21_repeated_nodes_counterexample].
* **C22** `sources` never returns if a cycle is upstream [C22_sources_diverges].
* **C25** `phase_lines` does not report a cycle that no source reaches.
* **C27** `critical_path_minimize_for_slack` can raise AttributeError on a DAG [C27_attribute_error_counterexample].
* **C29** the bidirectional search ignores `avoids` at start/end [C29_counterexample].
* **C30** memoised answers are stale after a change of the graph, and hash collisions of `avoids` mix up answers.
* **C35** `shortest_tree_all_pairs` starts from the last node that reaches all nodes, not from the best one [C35_counterexample].
* **C36** `distance_map` is a BFS that does not relax: values are not shortest distances in general [C36_counterexample]; strings and
  tuples as single nodes are taken for collections.
* **C37** `loop(start, mid, start)` raises ValueError [C37_end_on_outward_path]; if the first leg is missing the second leg without its
  first node is returned.
* **C38** `is_partite` is greedy and follows one component only.
* **C39/C40** `maximum_flow` never reroutes: it returns a blocking, not a maximum flow; the cut derived from it need not separate.
* **C41** `minimum_cost_flow` is greedy per demand: not minimal, and it raises on feasible instances.
* **C42** `ap_solver` is not optimal (at least half of the optimum) and leaves dummy tasks in the graph.
* **C43** `wtap_solver` stops at ties; weapons without targets raise.
* **C44** FSM states that are the integers used as internal action ids show foreign actions in `options()`.
* **C45** no domain separation: an inner node can be presented as a leaf, so that lists of different length share a root.
* **C46** nodes whose text contains `|` or `(` can collide [C46_bar_counterexample].
* **C47** `flow_graph_hash` raises TypeError on DAGs whose BFS order is not topological.
* **C48** `tsp_branch_and_bound`: AssertionError on a square, a tour that is not minimal on a metric with values 1 and 2, Exception on 3
  nodes, `(inf, [])` on 2.
* **C49** one node: ValueError.  **C50** `_opt3` never terminates on a 7-node asymmetric graph.
* **C51** `is_ap_solvable` is greedy: it refuses solvable assignments [C51_greedy_counterexample]; hence jam_solver refuses solvable jams
  [C53_greedy_ends_counterexample].
* **C52** `moves_to_synchronous_moves` never returns if a load has to go where another one stays.
* **C53** prohibited ends are entered; two loads on one start give KeyError in the translation to synchronous moves;
  `return_on_first` has no effect, because `_match` is unreachable [C53_return_on_first_has_no_effect].  Not in the model: docstring
  examples use the key `end`, Load's keyword is `ends` (TypeError); Graph3D networks make `movements.add_node(State)` raise.
* **C91** with the rotations `yzx` and `zxy` and `maintain_aspect_ratio` nodes are drawn outside the axes' limits, and axes carry the wrong
  label [C91_rotation_counterexample].
* **C93** `tsp_2023` may return a tour that a reversal shortens, and be worse than `tsp_greedy`: `_opt1` compares lengths that count the
  closing edge twice [C93_greedy_tour_counterexample].
* **C59** the plan is not of minimum distance (6 instead of 5).
* **C54** `random_xy_graph` never ends for a stream that repeats one point; negative `edges` are accepted.
* **C56** `find_perfect_circuit` always returns `[]` (g.edge never raises KeyError); `schedule` never returns if no order of the jobs can
  be travelled.
- C108: `Graph3D.distance(n1, n2)` hides `BasicGraph.distance(nodes)`, so `solve_tsp("greedy")` and `solve_tsp()` on seven or more points always raise; `critical_path_minimize_for_slack` and `flow_graph_hash` call `add_edge` without a value, which `Graph3D` forbids, and end with `AssertionError`.
- C110: `slack == 0` does not find the critical path with float durations: for tasks of 0.1 and then 0.2 the first one has slack 2.8e-17, for 0.1 and then 0.4 it has slack -2.8e-17.
- C111: with a `nan` among the edge values `shortest_path` can return `(nan, path)` although a path without `nan` exists: a minimum that is `nan` is never replaced (`C111_nan`).
- C112: CPython gives the integers -1 and -2 the same hash, and `State.__eq__` compares hashes only. `jam_solver(Graph(from_list=[(-1,-2,1)]), {1: (-1,-2)})` returns `[]` (`C112_no_move_counterexample`); on another network it returns moves over a connection that does not exist (`C112_illegal_move_counterexample`); with the ends -1 and -2 it raises `KeyError` (`C112_key_error_counterexample`).
* **C114** `wtap_solver` can run forever with floating point probabilities: trying a target removes the weapon's edge and inserts it again, so the factors of a product are multiplied in a different order every time and the rounding differences (1e-16) count as improvements in every round. Weapons 1, 2, 3 with probabilities 0.1, 0.2, 0.2 for target 10 (value 1) and 0.1 each for target 11 (value 0.1) hang (`C114_hang_counterexample`).
* **C115** `all_pairs_shortest_paths` and `shortest_path` can report different distances for the same pair (0.6 and 0.6000000000000001 on the path 0.1, 0.2, 0.3, `C115_disagree_counterexample`), and `minmax` returns only one of two nodes that are equally good in exact arithmetic (`C115_tie_counterexample`).
* **C52** `moves_to_synchronous_moves` on a list of moves that is not a serial plan can change the order of the moves of one load (`C52_overtaking_counterexample`), raise `KeyError` or run forever; `C52_any_moves` says exactly when.
* **C116** `has_cycles` (which cannot be given a `key`), `topological_sort` without a key and `critical_path` raise `TypeError` on graphs as harmless as the edge-less graph with the nodes `1` and `'a'` (`C116_type_error_counterexample`).
* **C117** `shortest_path_bidirectional` raises `TypeError` where `shortest_path` works, if two edges of a node have the same value and lead to nodes of different types (`C117_type_error_counterexample`).
* **C118** `ap_solver` raises `TypeError` if an agent has tasks of different types with the same value, and then leaves the dummy tasks in the graph (`C118_type_error_counterexample`).
* **C119** `graph_hash` raises `TypeError` on every graph with nodes of different types (`C119_type_error_counterexample`).
* **C120** `wtap_solver` raises `TypeError` if two targets of a weapon have the same effect and different types (`C120_type_error_counterexample`).
* **C121** `minimum_cost_flow_using_successive_shortest_path` raises `TypeError` if two nodes of different types have the same stock (`C121_type_error_counterexample`).
* **C122** `jam_solver` raises `TypeError` at a junction with two exits of the same length and different types (`C122_type_error_counterexample`).
* **None as a node** (C125): in `None → 1`, `2 → 3` the call `shortest_path(None, 3)` returns `(1, [None, 3])`, as `edges(from_node=None)` returns all edges; `breadth_first_search` forgets the way before `None`, as it walks back `while node is not None`.
* **is_connected takes exponentially many passes** (C126): a node is expanded each time it is taken from the queue, even if already visited, as long as it was put there before it was first expanded. On the ladder with k rungs (2k+2 nodes) `is_connected(0, 1)` needs more than 2^k passes to answer False; all_simple_paths and all_paths call it first.
* **has_path does not see edges whose value is None** (C128): it tests `graph.edge(v1, v2) is None`, which cannot tell a missing edge from the value `None` that `add_edge` accepts; `edges(path=...)` and `is_connected` do see the edge.
* **A failed add_edge is not atomic** (C130): `add_edge(a, [..])` raises `TypeError` after `a` has been added: a failed call is not atomic (`C130_not_atomic`).
* **ap_solver ignores the cheapest edges if the values are huge** (C131): for floats from about 2^54 on `min(...) - 1` is rounded to the minimum, and `v > d` fails for free tasks; one agent, one task, value 2^54 gives `[]` (`C131_big_value_counterexample`).
* **tsp_2023 can run for ever on floats** (C132): `_opt3` accepts an exchange if the *rounded* sum of three new edges minus the rounded sum of the three old ones is negative, but rounded sums depend on the order of the summands; on a symmetric complete graph with seven nodes and the values 0.1, 0.2, 0.3 it exchanges edges for ever (`C132_hang_counterexample`); in exact arithmetic it returns.
* **C135** on floats `shortest_path` and `shortest_path_bidirectional` disagree about the distance of the same path: on the chain with values 0.1, 0.1, 0.1, 0.4 one returns 0.7000000000000001, the other 0.7 (`C135_not_same_distance_counterexample`, evaluated in the kernel).
* **C137** on floats `shortest_path(memoize=True)` keeps sections of long paths whose detours were lost in rounding: on the graph `1 → 2` (2^53), `2 → 3 → 4` (1, 1), `2 → 6 → 4` (0.25, 0.25), `4 → 5` (2^53) the query `(2, 4)` returns 0.5 on a fresh cache and 2 after the query `(1, 5)` (`C137_cached_section_counterexample`, evaluated in the kernel); the ratio is unbounded.
* **C138** on floats `maximum_flow` can exceed a capacity (capacity 2^53 - 1, flow 2^53: `C138_capacity_counterexample`) and is not exactly conserved (0.1 + 0.2 enters, 0.30000000000000004 leaves: `C138_conservation_counterexample`), both evaluated in the kernel; the excess is bounded by C138.
* **C139** on floats the two directions of `distance_map` disagree about one path: (0.1 + 0.2) + 0.3 and (0.3 + 0.2) + 0.1 (`C139_direction_counterexample`, evaluated in the kernel).
* **C140** on floats `maximum_flow_min_cut` can return `[]` although there is flow and one edge is the minimum cut: rounding fills the edge beyond its capacity, and the difference is then not 0 (`C140_missed_cut_counterexample`, evaluated in the kernel).

## 5. Mutation tests

`seeded/LOG.jsonl` lists the edits of the model that were tried in a scratch copy and the theorems that failed.  Edits are made to the
model definitions only (never to Spec/ or Props/).  Edits that survive are either equivalent (a branch proved unreachable, a tie-break
no claim speaks about) or led to a tightened theorem; the log says which.

## 6. Axioms per theorem

<!-- AXIOMS -->
* **(none)** (2 theorems): C04_rejected_call_changes_nothing, C05_graph3D_copy_loses_objects
* **Classical.choice, Quot.sound, propext** (423 theorems): C01_history_refines_maps, C02_enumerations_exact, C03_degrees_exact, C03_degree_filter_partial, C03_degree_filter_any_history, C04_mutators_never_fail, C05_copy_equal, C06_eq_extensional, C06_eq_equivalence, C07_dict_round_trip, C07_list_round_trip, C07_dict_of_graph_of_dict, C08_subgraph_induced, C09_is_subgraph_inclusion, C09_is_subgraph_order, C11_same_path_rotation_partial, C11_same_path_equivalence_partial, C12_is_connected, C13_breadth_first_search, C14_breadth_first_walk, C14_breadth_first_walk_end, C14_errors, C15_degree_of_separation, C15_errors, C16_depth_first_search, C17_depth_scan, C17_errors, C18_network_size, C18_errors, C19_components, C20_all_simple_paths, C20_errors, C21_all_paths_sound_partial, C21_all_paths_dag, C21_errors, C21_index_error_counterexample, C21_divergence_counterexample, C21_missing_path_counterexample, C21_repeated_nodes_counterexample, C22_sources, C22_sources_diverges, C22_errors, C23_topological_sort, C24_has_cycles, C25_phase_lines_dag, C25_phase_lines_partial, C25_hidden_cycle_counterexample, C25_empty_graph, C26_critical_path, C26_errors, C27_minimize_for_slack_partial, C27_attribute_error_counterexample, C28_shortest_path, C29_bidirectional_partial, C29_bidirectional_any_avoids, C29_counterexample, C30_memoize_partial, C30_stale_counterexample, C30_collision_counterexample, C31_distance_from_path, C31_distance_of_walk, C31_errors, C32_adjacency_matrix, C33_all_pairs, C33_diagonal, C34_minmax, C34_minsum, C34_empty, C35_shortest_tree_partial, C35_counterexample, C36_distance_map_partial, C36_distance_map_reverse_partial, C36_stops_at_ends, C36_errors, C36_counterexample, C37_loop_back_to_start, C37_loop_with_end_partial, C37_end_on_outward_path, C37_errors, C38_is_partite_partial, C38_is_partite_connected, C38_errors, C38_directed_counterexample, C38_three_counterexample, C38_disconnected_counterexample, C39_maximum_flow_partial, C39_value_bounds, C39_errors, C39_counterexample, C40_returned_edges, C40_certificate, C40_min_cut_partial, C40_errors, C40_too_large_counterexample, C40_no_cut_counterexample, C41_min_cost_flow_partial, C41_errors, C41_not_minimal_counterexample, C41_exception_counterexample, C42_ap_solver_partial, C42_empty, C42_not_optimal_counterexample, C42_modified_counterexample, C43_wtap_solver_partial, C43_one_opt, C43_errors, C43_ties_counterexample, C43_no_weapons_counterexample, C43_unarmed_counterexample, C44_fsm_partial, C45_merkle_single_root, C45_merkle_binding, C45_merkle_empty, C45_no_domain_separation_counterexample, C46_graph_hash_content, C46_graph_hash_separates_partial, C47_flow_graph_hash_partial, C47_any_graph_partial, C47_type_error, C47_flow_graph_hash_layered, C47_changes_propagate, C47_type_error_counterexample, C47_order_counterexample, C47_raise_order_counterexample, C48_branch_and_bound_partial, C48_assertion_counterexample, C48_suboptimal_counterexample, C48_few_nodes_counterexample, C49_tsp_greedy, C49_greedy_any_graph, C49_one_node_counterexample, C50_tsp_2023_small, C50_no_short_tour, C50_tsp_2023_large_partial, C50_tsp_2023_symmetric, C50_asymmetric_counterexample, C51_is_ap_solvable_laminar, C52_synchronous_moves, C52_blocked_move_loops, C52_any_moves, C52_overtaking_counterexample, C53_jam_solver_partial, C53_jam_solver_sound, C53_jam_solver_complete, C53_return_on_first_has_no_effect, C53_prohibited_end_counterexample, C53_greedy_ends_counterexample, C53_equal_starts_counterexample, C54_random_xy_graph_partial, C54_guard, C54_stuck_counterexample, C54_negative_edges_counterexample, C55_n_nearest_neighbours, C55_invalid_raises, C55_errors, C56_schedule_partial, C56_impossible_jobs_loop, C56_loops_counterexample, C56_perfect_circuit_never_found, C56_circuit_counterexample, C57_distance_closed_partial, C57_errors, C57_counterexample, C58_find_job, C58_find_each, C58_train, C58_train_schedule, C58_rail_system, C58_rail_system_error, C59_no_repetition_partial, C59_not_minimum_counterexample, C60_graph3D_only_points, C61_timer, C61_timer_latency, C62_solve_tsp, C63_check_user_input, C64_bidirectional_agrees, C21_all_paths_dag, C25_phase_lines_dag, C37_loop_back_to_start, C68_flow_below_every_cut, C68_maximal_without_merges_or_forks, C69_one_demand_optimal, C38_is_partite_connected, C53_jam_solver_sound, C53_jam_solver_complete, C50_tsp_2023_small, C50_tsp_2023_symmetric, C03_degrees_exact, C46_graph_hash_content, C47_flow_graph_hash_layered, C77_from_list, C78_reachability_answers_agree, C79_hop_counts_agree, C80_cycle_answers_agree, C81_distances_agree, C82_more_edges_never_longer, C83_undirected, C84_ap_solver_pairs, C85_positive_flow_iff_reachable, C86_no_superfluous_dependency, C87_more_dependencies, C88_insertion_order, C89_plot_2d, C89_errors, C90_plot_3d, C90_bad_rotation, C90_empty_graph, C91_aspect_ratio_partial, C91_cube, C91_rotation_counterexample, C92_greedy_two_optimal, C93_local_optimum_partial, C93_greedy_tour_counterexample, C94_shortest_path_rounded, C94_accuracy, C94_exact, C94_double, C94_integers, C95_renaming, C96_reversal, C96_mirrored_schedule, C97_scaling, C97_scaled_schedule, C98_maximum_flow_rounded, C98_maximal_without_merges_or_forks, C98_min_cut_rounded, C98_exact, C98_min_cut_exact, C98_errors, C99_maximum_flow_integral, C99_minimum_cost_flow_integral, C100_operation, C100_new_objects, C100_to_dict, C100_from_dict, C100_caller_cannot_reach_graphs, C100_unchanged, C100_every_object_built, C101_searches, C101_distances, C101_projects, C101_maximum_flow_counterexample, C102_shortest_path_any_values, C102_not_shortest_counterexample, C103_avoiding_is_deleting, C103_avoiding_is_subgraph, C103_parts_of_shortest_paths, C104_all_pairs_any_values, C104_negative_cycles, C104_certificate, C104_loop_counterexample, C105_bidirectional_any_values, C105_diverges_counterexample, C105_not_shortest_counterexample, C106_from_list_stops, C106_from_dict_stops, C107_topological_sort_snapshot, C107_breadth_first_walk_live, C107_walk_reaches, C107_walk_unchanged, C108_copy_methods_partial, C108_loop, C108_solve_tsp_raises, C108_solve_tsp_same, C108_minimize_slack_raises, C108_flow_graph_hash_raises, C109_critical_path_rounded, C109_errors, C109_accuracy, C109_integers, C109_exact, C110_slack_partial, C110_slack_sign, C111_any_number_type, C111_whatever_values, C111_infinite_values, C111_float, C111_rationals, C111_nan, C112_states_by_hash_partial, C112_no_move_counterexample, C112_illegal_move_counterexample, C112_key_error_counterexample, C113_one_supply_optimal, C113_short_supply_counterexample, C114_result, C114_terminates_partial, C114_two_weapons, C114_hang_counterexample, C115_accuracy, C115_bracket, C115_minmax, C115_minsum, C115_left_to_right, C115_tree, C115_integers, C115_exact, C115_disagree_counterexample, C115_tie_counterexample, C116_topological_sort, C116_has_cycles, C116_critical_path, C116_type_error_counterexample, C117_bidirectional, C117_type_error_counterexample, C118_ap_solver, C118_type_error_counterexample, C119_graph_hash, C119_type_error_counterexample, C120_wtap_solver, C120_type_error_counterexample, C121_min_cost_flow, C121_type_error_counterexample, C122_jam_solver, C122_type_error_counterexample, C123_bidirectional, C123_branch_and_bound, C123_jam_solver, C123_min_cost_flow, C124_heap, C124_any_number_type, C124_shortest_path, C124_whatever_values, C124_counter_needed_counterexample, C125_none_unreachable, C125_none_unreachable_shortest_path, C125_none_absent, C125_none_as_end, C125_none_as_end_shortest_path, C125_none_leads_everywhere, C125_always_ends, C125_shortest_path_always_ends, C125_none_as_start_counterexample, C125_none_on_the_way_counterexample, C126_one_pass_per_node, C126_distance_map, C126_shortest_path, C126_sources, C126_phase_lines_and_components, C126_is_connected_counterexample, C126_is_connected_cut, C127_values_do_not_matter, C128_shortest_path_returns, C128_shortest_path_ends, C128_shortest_path_type_error, C128_shortest_path_numbers, C128_has_path_counterexample, C129_short_routes, C129_at_least_share, C129_a_third, C130_raises_iff, C130_after_exception, C130_no_edge_touched, C130_queries, C130_from_list, C130_path_query, C131_ap_solver_rounded, C131_doubles, C131_cheapest_ignored, C131_big_value_counterexample, C132_tsp_greedy_rounded, C132_tsp_2023_rounded_partial, C132_tsp_2023_small, C132_accuracy, C132_integers, C132_hang_counterexample, C133_distance_from_path_rounded, C133_walk, C133_accuracy, C133_exact, C134_min_cost_flow_rounded, C134_total, C134_exact, C135_bidirectional_rounded, C135_accuracy, C135_integers, C135_exact, C135_error, C135_not_same_distance_counterexample, C136_simple_path, C136_memoize, C137_memoize_rounded, C137_accuracy, C137_integers, C137_exact, C137_cached_section_counterexample, C138_maximum_flow_float, C138_accuracy, C138_cuts, C138_doubles, C138_integers, C138_exact, C138_errors, C138_capacity_counterexample, C138_conservation_counterexample, C139_distance_map_rounded, C139_distance_map_reverse_rounded, C139_same_nodes, C139_accuracy, C139_doubles, C139_integers, C139_exact, C139_errors, C139_direction_counterexample, C140_min_cut_float, C140_overfull, C140_certificate, C140_doubles, C140_integers, C140_exact, C140_errors, C140_missed_cut_counterexample, C141_maximum_flow, C141_maximum_flow_float, C141_min_cost_flow, C141_ap_solver, C141_wtap_solver, C141_wtap_solver_float, C141_wtap_float_counterexample, C141_every_cut, C141_cut, C141_bound_reached
* **Quot.sound, propext** (13 theorems): C02_edges_dispatch, C03_phantom_counterexample, C10_edges_of_path, C51_is_ap_solvable_true_partial, C52_path_to_moves, C60_exceptions, C107_deleting_counterexample, C123_insort, C123_unsorted_counterexample, C128_has_path_partial, C130_always_a_graph, C130_proper_calls, C130_not_atomic
* **propext** (8 theorems): C02_nodes_dispatch, C05_copies_independent, C10_has_path, C11_empty_counterexample, C44_integer_states_counterexample, C46_bar_counterexample, C51_greedy_counterexample, C111_heap
<!-- /AXIOMS -->
