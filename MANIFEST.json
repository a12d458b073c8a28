{
 "claims": [
  {
   "property": "C01",
   "status": "proved",
   "theorems": [
    "NoGraphs.C01_bfs_depth",
    "NoGraphs.C01_bfs_depth_already"
   ],
   "note": ""
  },
  {
   "property": "C02",
   "status": "proved",
   "theorems": [
    "NoGraphs.C02_bfs_once_ordered"
   ],
   "note": ""
  },
  {
   "property": "C03",
   "status": "proved",
   "theorems": [
    "NoGraphs.C03_bfs_complete",
    "NoGraphs.C03_bfs_terminates"
   ],
   "note": ""
  },
  {
   "property": "C04",
   "status": "proved",
   "theorems": [
    "NoGraphs.C04_bfs_paths",
    "NoGraphs.C04_bfs_paths_final"
   ],
   "note": ""
  },
  {
   "property": "C05",
   "status": "proved",
   "theorems": [
    "NoGraphs.C05_no_limit",
    "NoGraphs.C05_limit_exact",
    "NoGraphs.C05_reads_at_most",
    "NoGraphs.C05_bfs",
    "NoGraphs.C05_sp",
    "NoGraphs.C05_topo",
    "NoGraphs.C05_dfs",
    "NoGraphs.C05_dfs_trace",
    "NoGraphs.C05_mst",
    "NoGraphs.C05_mst_no_limit",
    "NoGraphs.C05_astar",
    "NoGraphs.C05_ntd",
    "NoGraphs.C05_ib"
   ],
   "note": "Generic over all generators modelled as step machines. For spanning trees with a limit below the number of start vertices, no edges are read at all before the exception; reports and ending are exact."
  },
  {
   "property": "C06",
   "status": "proved",
   "theorems": [
    "NoGraphs.C06_ntd_once",
    "NoGraphs.C06_ntd_complete",
    "NoGraphs.C06_ntd_terminates"
   ],
   "note": ""
  },
  {
   "property": "C07",
   "status": "proved",
   "theorems": [
    "NoGraphs.C07_ntd_depth_paths",
    "NoGraphs.C07_ntd_paths_final",
    "NoGraphs.C07_ntd_depth_walk"
   ],
   "note": ""
  },
  {
   "property": "C08",
   "status": "proved",
   "theorems": [
    "NoGraphs.C08_dfs_order",
    "NoGraphs.C08_dfs_prefix",
    "NoGraphs.C08_dfs_once",
    "NoGraphs.C08_dfs_complete",
    "NoGraphs.C08_dfs_terminates"
   ],
   "note": "Includes pruning by skip_expanding_entered_vertex."
  },
  {
   "property": "C09",
   "status": "proved",
   "theorems": [
    "NoGraphs.C09_dfs_depth",
    "NoGraphs.C09_dfs_paths",
    "NoGraphs.C09_dfs_paths_final"
   ],
   "note": "Array based predecessor collections: only for a single start vertex without pre-allocation; otherwise see C54_counterexample."
  },
  {
   "property": "C10",
   "status": "proved",
   "theorems": [
    "NoGraphs.C10_dfs_trace",
    "NoGraphs.C10_dfs_trace_search"
   ],
   "note": "Every prefix of every run in every mode; the second theorem ties the traces to a recursive depth-first search."
  },
  {
   "property": "C100",
   "status": "proved",
   "theorems": [
    "NoGraphs.C100_dfs",
    "NoGraphs.C100_dfs_skip",
    "NoGraphs.C100_dfs_reads",
    "NoGraphs.C100_dfs_trace",
    "NoGraphs.C100_dfs_trace_skip",
    "NoGraphs.C100_dfs_trace_reads"
   ],
   "note": "Not modelled: a call before the first report."
  },
  {
   "property": "C101",
   "status": "proved",
   "theorems": [
    "NoGraphs.C101_sp",
    "NoGraphs.C101_astar",
    "NoGraphs.C101_mst",
    "NoGraphs.C101_bd"
   ],
   "note": "For a gear with a smaller infinity value than the converted one, combine with C73. Not for given known distances and guesses."
  },
  {
   "property": "C102",
   "status": "proved",
   "theorems": [
    "NoGraphs.C102_bd",
    "NoGraphs.C102_bibfs"
   ],
   "note": "BSearchBreadthFirst ends with the edge that completes a path, thus an exception behind this edge does not occur (example in Props/SearchRaising)."
  },
  {
   "property": "C103",
   "status": "partial",
   "theorems": [
    "NoGraphs.C103_hash",
    "NoGraphs.C103_seq",
    "NoGraphs.C103_sp_partial",
    "NoGraphs.C103_astar_partial",
    "NoGraphs.C103_bd",
    "NoGraphs.C103_sp_tree_known_partial",
    "NoGraphs.C103_sp_tree_missing",
    "NoGraphs.C103_sp_tree_index",
    "NoGraphs.C103_not_tree_known",
    "NoGraphs.C103_not_tree_guesses"
   ],
   "note": "False of the code for is_tree with a provided container: define_distances does not store the start vertices then. A new, empty container leads to an IndexError (sequence-based) or OverflowError (hash-based) without any report (C103_not_tree_known, C103_not_tree_guesses, and in general C103_sp_tree_missing, C103_sp_tree_index). Proved for everything else, and for is_tree if the provided container has distance zero for the start vertices."
  },
  {
   "property": "C104",
   "status": "proved",
   "theorems": [
    "NoGraphs.C104_sp_starts",
    "NoGraphs.C104_sp_triangle",
    "NoGraphs.C104_sp_transitive",
    "NoGraphs.C104_sp_reversed",
    "NoGraphs.C104_sp_monotone",
    "NoGraphs.C104_bfs_starts",
    "NoGraphs.C104_bfs_triangle",
    "NoGraphs.C104_bfs_reversed",
    "NoGraphs.C104_bfs_monotone",
    "NoGraphs.C104_bibfs_exchanged"
   ],
   "note": "For traversals without option is_tree and without already_visited or known_distances. Start vertices are not reported; their distance is zero."
  },
  {
   "property": "C105",
   "status": "proved",
   "theorems": [
    "NoGraphs.C105_prefix",
    "NoGraphs.C105_exception",
    "NoGraphs.C105_unused",
    "NoGraphs.C105_origin",
    "NoGraphs.C105_improved"
   ],
   "note": "C105_improved is for traversals without option is_tree and start vertices with different ids."
  },
  {
   "property": "C106",
   "status": "proved",
   "theorems": [
    "NoGraphs.C106_ib_calls",
    "NoGraphs.C106_ib_in_order",
    "NoGraphs.C106_ib_just_in_time",
    "NoGraphs.C106_ib_actions",
    "NoGraphs.C106_ib_local",
    "NoGraphs.C106_sp_just_in_time"
   ],
   "note": "The start vertices form a set, edges are sorted and weights can be subtracted (IbOk), as for C47; C106_ib_local needs no hypothesis. C106_sp_just_in_time is for non-negative weights and without known distances."
  },
  {
   "property": "C107",
   "status": "proved",
   "theorems": [
    "NoGraphs.C107_astar_promising",
    "NoGraphs.C107_astar_within_dijkstra",
    "NoGraphs.C107_astar_informed"
   ],
   "note": "For is_tree=False, without provided distances and guesses, and for goals that are not start vertices (these are not reported). Vertices with the same id have the same edges and the same estimate. Vertices are compared with another search only if their estimate is larger than that of the other search (zero for TraversalShortestPaths): otherwise, if they are as promising as the goal, the order of equal heap keys decides. In C107_astar_informed, the other heuristic function is consistent, and its estimate for the goal is finite and not negative."
  },
  {
   "property": "C108",
   "status": "proved",
   "theorems": [
    "NoGraphs.C108_astar_improves",
    "NoGraphs.C108_astar_last",
    "NoGraphs.C108_astar_dijkstra",
    "NoGraphs.C108_astar_distances"
   ],
   "note": "For is_tree=False, without provided distances and guesses. Vertices with the same id have the same edges and the same estimate."
  },
  {
   "property": "C109",
   "status": "proved",
   "theorems": [
    "NoGraphs.C109_astar_bounded",
    "NoGraphs.C109_astar_factor"
   ],
   "note": "For is_tree=False, without provided distances and guesses. Vertices with the same id have the same edges and the same estimate. C109_astar_bounded is for any bound that grows at least as its argument (e.g. also factors that are no integers), C109_astar_factor for an integer factor plus a constant. Estimates of goals are not negative."
  },
  {
   "property": "C11",
   "status": "proved",
   "theorems": [
    "NoGraphs.C11_dfs_nested",
    "NoGraphs.C11_dfs_once",
    "NoGraphs.C11_dfs_complete",
    "NoGraphs.C11_dfs_terminates"
   ],
   "note": "Nesting for all modes; exactly once for DFS_TREE."
  },
  {
   "property": "C12",
   "status": "partial",
   "theorems": [
    "NoGraphs.C12_dfs_events_partial",
    "NoGraphs.C12_kinds",
    "NoGraphs.C12_counterexample_group",
    "NoGraphs.C12_counterexample_cross"
   ],
   "note": "The full property is false: FORWARD_OR_CROSS_EDGE is never reported, and CROSS_EDGE without BACK_EDGE reports back edges. Proved with these two requests excluded."
  },
  {
   "property": "C13",
   "status": "proved",
   "theorems": [
    "NoGraphs.C13_dfs_all_paths",
    "NoGraphs.C13_dfs_terminates"
   ],
   "note": "Exactly the simple paths, each once."
  },
  {
   "property": "C14",
   "status": "partial",
   "theorems": [
    "NoGraphs.C14_dfs_start_events_partial",
    "NoGraphs.C14_counterexample"
   ],
   "note": "False in mode ALL_WALKS if an edge leads to the start vertex. Proved for the other modes, and for ALL_WALKS if no edge leads to a start vertex."
  },
  {
   "property": "C15",
   "status": "partial",
   "theorems": [
    "NoGraphs.C15_dfs_labels_partial",
    "NoGraphs.C15_counterexample"
   ],
   "note": "False for an edge that is the first out-edge of its source, if all edges before it on the trace are also first edges and the source has a further out-edge. Proved for all other edges."
  },
  {
   "property": "C16",
   "status": "partial",
   "theorems": [
    "NoGraphs.C16_topo_order_partial",
    "NoGraphs.C16_topo_order",
    "NoGraphs.C16_topo_complete",
    "NoGraphs.C17_topo_cycle_complete",
    "NoGraphs.C17_topo_single_start",
    "NoGraphs.C16_counterexample_starts",
    "NoGraphs.C16_counterexample_duplicate"
   ],
   "note": "Proved in full for start vertices that are not reachable from each other, e.g. one start vertex (order, uniqueness, completeness, termination), every gear, graph, limit and moment. For arbitrary distinct starts: proved except for edges to other start vertices. The full claim is false of the code: counterexamples with dependent starts and with a duplicate start are proved."
  },
  {
   "property": "C17",
   "status": "partial",
   "theorems": [
    "NoGraphs.C17_topo_cycle_sound",
    "NoGraphs.C17_topo_cycle_complete",
    "NoGraphs.C17_topo_single_start",
    "NoGraphs.C17_topo_cycle_from_start_partial",
    "NoGraphs.C17_counterexample_starts",
    "NoGraphs.C17_counterexample_assertion",
    "NoGraphs.C17_counterexample_cycle"
   ],
   "note": "Soundness proved for all distinct starts; completeness for starts not reachable from each other. cycle_from_start contains a correct walk as sub-list, and is it if no id repeats. The full claim is false of the code: undetected cycle with dependent starts, AssertionError with integer-id gears, and a cycle_from_start that is no walk are proved as counterexamples."
  },
  {
   "property": "C18",
   "status": "proved",
   "theorems": [
    "NoGraphs.C18_sp_distance"
   ],
   "note": ""
  },
  {
   "property": "C19",
   "status": "proved",
   "theorems": [
    "NoGraphs.C19_sp_once_ordered"
   ],
   "note": ""
  },
  {
   "property": "C20",
   "status": "proved",
   "theorems": [
    "NoGraphs.C20_sp_complete",
    "NoGraphs.C20_sp_before",
    "NoGraphs.C20_sp_terminates"
   ],
   "note": ""
  },
  {
   "property": "C21",
   "status": "proved",
   "theorems": [
    "NoGraphs.C21_sp_paths",
    "NoGraphs.C21_sp_paths_final"
   ],
   "note": ""
  },
  {
   "property": "C22",
   "status": "proved",
   "theorems": [
    "NoGraphs.C22_sp_distances",
    "NoGraphs.C22_sp_distances_final",
    "NoGraphs.C22_sp_keep_same"
   ],
   "note": ""
  },
  {
   "property": "C23",
   "status": "proved",
   "theorems": [
    "NoGraphs.C23_sp_overflow",
    "NoGraphs.C20_sp_terminates"
   ],
   "note": ""
  },
  {
   "property": "C24",
   "status": "proved",
   "theorems": [
    "NoGraphs.C24_astar_goal",
    "NoGraphs.C24_astar_complete",
    "NoGraphs.C24_astar_terminates"
   ],
   "note": "Admissible heuristics, also inconsistent ones and ones with infinite estimates. The report of a goal is minimal and unique, goals are reported in order of distance; completeness and termination (or overflow error with cause)."
  },
  {
   "property": "C25",
   "status": "partial",
   "theorems": [
    "NoGraphs.C25_astar_consistent_partial",
    "NoGraphs.C25_counterexample",
    "NoGraphs.C25_astar_infinite_partial"
   ],
   "note": "The code violates the property for vertices with infinite estimates (counterexample). Proved for consistent heuristics without infinite estimates; with infinite estimates, for all reports of vertices whose own estimate is finite."
  },
  {
   "property": "C26",
   "status": "proved",
   "theorems": [
    "NoGraphs.C26_mst_tree",
    "NoGraphs.C26_mst_spans",
    "NoGraphs.C26_mst_terminates"
   ],
   "note": "Also for graphs that are not symmetric."
  },
  {
   "property": "C27",
   "status": "proved",
   "theorems": [
    "NoGraphs.C27_mst_pairing",
    "NoGraphs.C27_mst_connects",
    "NoGraphs.C27_mst_minimal"
   ],
   "note": ""
  },
  {
   "property": "C28",
   "status": "proved",
   "theorems": [
    "NoGraphs.C28_bibfs",
    "NoGraphs.C28_bibfs_ends",
    "NoGraphs.C28_bibfs_exact"
   ],
   "note": "For every gear with lawful set operations and vertices with equal ids having equivalent edges; start and goal collections are re-iterable (one-shot iterators: see C30)."
  },
  {
   "property": "C29",
   "status": "proved",
   "theorems": [
    "NoGraphs.C29_bibfs_path"
   ],
   "note": "Injective vertex_to_id; the gear can store the vertices and labels of both searches."
  },
  {
   "property": "C30",
   "status": "partial",
   "theorems": [
    "NoGraphs.C30_bibfs_iterators_partial",
    "NoGraphs.C30_counterexample"
   ],
   "note": "False in general: C30_counterexample exhibits a one-shot iterator input (common start and goal vertex) answered with \"no path\". Proved: equal results if no start vertex has the id of a goal vertex."
  },
  {
   "property": "C31",
   "status": "partial",
   "theorems": [
    "NoGraphs.C31_counterexample",
    "NoGraphs.C31_bd_at_most_twice_partial",
    "NoGraphs.C31_bd_minimal_partial",
    "NoGraphs.C31_bd_equal_weights_partial"
   ],
   "note": "The property does not hold: C31_counterexample is a concrete graph for which the search returns 20 although a walk of weight 18 exists. Proved for all graphs: the result is at most twice the minimum; it is minimal if no superseded heap entry is met, in particular if all weights are equal."
  },
  {
   "property": "C32",
   "status": "proved",
   "theorems": [
    "NoGraphs.C32_bd",
    "NoGraphs.C32_bd_ends",
    "NoGraphs.C32_bd_exact",
    "NoGraphs.C32_bd_path"
   ],
   "note": "Real connection and exact failure for any gear, graph with non-negative weights, start and goal collections; path for injective vertex ids."
  },
  {
   "property": "C33",
   "status": "proved",
   "theorems": [
    "NoGraphs.C33_paths_container",
    "NoGraphs.C33_self_loop"
   ],
   "note": ""
  },
  {
   "property": "C34",
   "status": "proved",
   "theorems": [
    "NoGraphs.C34_bidirectional_path",
    "NoGraphs.C34_trivial_paths"
   ],
   "note": ""
  },
  {
   "property": "C35",
   "status": "proved",
   "theorems": [
    "NoGraphs.C35_boolean_sequence_is_set"
   ],
   "note": ""
  },
  {
   "property": "C36",
   "status": "proved",
   "theorems": [
    "NoGraphs.C36_bit_packed_sequence_is_set"
   ],
   "note": ""
  },
  {
   "property": "C37",
   "status": "proved",
   "theorems": [
    "NoGraphs.C37_sequence_mapping_is_map"
   ],
   "note": ""
  },
  {
   "property": "C38",
   "status": "partial",
   "theorems": [
    "NoGraphs.C38_hash_based",
    "NoGraphs.C38_sequence_based_partial",
    "NoGraphs.C38_counterexample"
   ],
   "note": "Holds for hash based gears; violated by sequence based gears (KeyError, counterexample), whose exact behaviour is proved."
  },
  {
   "property": "C39",
   "status": "proved",
   "theorems": [
    "NoGraphs.C39_bfs_gear_independent",
    "NoGraphs.C39_sp_gear_independent",
    "NoGraphs.C39_dfs_gear_independent",
    "NoGraphs.C39_mst_gear_independent",
    "NoGraphs.C39_astar_gear_independent",
    "NoGraphs.C39_ntd_gear_independent",
    "NoGraphs.C39_bibfs_gear_independent",
    "NoGraphs.C39_bd_gear_independent"
   ],
   "note": ""
  },
  {
   "property": "C40",
   "status": "partial",
   "theorems": [
    "NoGraphs.C40_found_partial",
    "NoGraphs.C40_not_found_partial",
    "NoGraphs.C40_exception_partial",
    "NoGraphs.C40_nothing_given",
    "NoGraphs.C40_bfs",
    "NoGraphs.C40_counterexample_repeated",
    "NoGraphs.C40_ended",
    "NoGraphs.C40_sp"
   ],
   "note": "Holds for traversals that report no id twice; C40_counterexample_repeated shows that it fails for others."
  },
  {
   "property": "C41",
   "status": "proved",
   "theorems": [
    "NoGraphs.C41_go_to_found",
    "NoGraphs.C41_go_to_not_found"
   ],
   "note": ""
  },
  {
   "property": "C42",
   "status": "partial",
   "theorems": [
    "NoGraphs.C42_range_reports",
    "NoGraphs.C42_bfs",
    "NoGraphs.C42_range_consumption_partial",
    "NoGraphs.C42_counterexample_two_lost",
    "NoGraphs.C42_sp",
    "NoGraphs.C42_ib"
   ],
   "note": "The yielded reports are as claimed; the documented loss of a single report is exceeded for empty ranges."
  },
  {
   "property": "C43",
   "status": "partial",
   "theorems": [
    "NoGraphs.C43_iterable_data",
    "NoGraphs.C43_iterable_plain",
    "NoGraphs.C43_mapping_data_partial",
    "NoGraphs.C43_mapping_plain",
    "NoGraphs.C43_sequence_data_partial",
    "NoGraphs.C43_sequence_plain_partial",
    "NoGraphs.C43_counterexample_negative",
    "NoGraphs.C43_counterexample_list_edges"
   ],
   "note": "Proved for edge iterables and for mappings as index, and for sequences as index and vertices that are no negative numbers. Missing: for sequences, a negative number as vertex gets the edges of another vertex (counterexample proved); for mappings and sequences with add_inverted, edges that are given as lists raise TypeError (counterexample proved), so edges are tuples there."
  },
  {
   "property": "C44",
   "status": "proved",
   "theorems": [
    "NoGraphs.C44_add",
    "NoGraphs.C44_sub",
    "NoGraphs.C44_mul",
    "NoGraphs.C44_manhattan",
    "NoGraphs.C44_in_cuboid",
    "NoGraphs.C44_wrap",
    "NoGraphs.C44_wrap_inside",
    "NoGraphs.C44_wrap_empty"
   ],
   "note": "All dimensions, all integers, all cuboids (for an empty cuboid, wrapping raises a ZeroDivisionError)."
  },
  {
   "property": "C45",
   "status": "proved",
   "theorems": [
    "NoGraphs.C45_moves",
    "NoGraphs.C45_moves_counts",
    "NoGraphs.C45_moves_incompatible",
    "NoGraphs.C45_neighbors",
    "NoGraphs.C45_neighbors_limits",
    "NoGraphs.C45_neighbors_wrap",
    "NoGraphs.C45_neighbors_wrap_without_limits",
    "NoGraphs.C45_neighbors_adjacent",
    "NoGraphs.C45_neighbors_adjacent_limits",
    "NoGraphs.C45_neighbors_wrap_empty"
   ],
   "note": "All dimensions, options, positions and limits."
  },
  {
   "property": "C46",
   "status": "proved",
   "theorems": [
    "NoGraphs.C46_items",
    "NoGraphs.C46_findall",
    "NoGraphs.C46_get",
    "NoGraphs.C46_set_get",
    "NoGraphs.C46_size",
    "NoGraphs.C46_next_vertices",
    "NoGraphs.C46_next_edges",
    "NoGraphs.C46_empty_dimension"
   ],
   "note": "All rectangular arrays and positions inside. Arrays with an empty dimension have no positions inside; for them, creating an adapter raises IndexError (C46_empty_dimension)."
  },
  {
   "property": "C47",
   "status": "proved",
   "theorems": [
    "NoGraphs.C47_ib_distance",
    "NoGraphs.C47_ib_once_ordered",
    "NoGraphs.C47_ib_before",
    "NoGraphs.C47_ib_complete",
    "NoGraphs.C47_ib_errors",
    "NoGraphs.C47_ib_terminates"
   ],
   "note": "For start vertices given as a set (no duplicates). All theorems hold for every finite prefix of the run and thus for infinite graphs; C47_ib_terminates is for finite ones. Weights: any ordered commutative monoid with a lawful subtraction below infinity."
  },
  {
   "property": "C48",
   "status": "proved",
   "theorems": [
    "NoGraphs.C48_nonneg",
    "NoGraphs.C48_undo",
    "NoGraphs.C48_order",
    "NoGraphs.C48_optimal"
   ],
   "note": "For all matrices of weights from an ordered group, all vertex lists and paths. Changed weights are not negative; the same paths are round trips; undoing the change of the changed length gives the original one; order kept (reversed for find_longest)."
  },
  {
   "property": "C49",
   "status": "partial",
   "theorems": [
    "NoGraphs.C49_walk_is_trip_partial",
    "NoGraphs.C49_trip_is_walk_partial",
    "NoGraphs.C49_backward_edge_partial",
    "NoGraphs.C49_forward_edge_partial",
    "NoGraphs.C49_counterexample"
   ],
   "note": "Walks and round trips correspond one-to-one with equal weights. Backward edges are forward edges in opposite direction; the converse holds except for the edges from the start state, where it fails for every graph (C49_counterexample): a defect of the code."
  },
  {
   "property": "C50",
   "status": "partial",
   "theorems": [
    "NoGraphs.C50_round_trip_partial",
    "NoGraphs.C50_optimal_partial",
    "NoGraphs.C50_at_most_twice_partial",
    "NoGraphs.C50_at_most_twice_longest_partial",
    "NoGraphs.C50_exceptions_partial",
    "NoGraphs.C50_ends_partial",
    "NoGraphs.C50_no_trip_partial",
    "NoGraphs.C50_key_error_partial",
    "NoGraphs.C50_counterexample_key_error",
    "NoGraphs.C50_counterexample_length"
   ],
   "note": "The full property is false for the code: KeyError although a round trip exists, and non-optimal results (counterexamples). Proved: a returned path is a round trip with its true length; at most twice the optimum (for weights made non-negative); optimal if no superseded heap entry is met; KeyError if there is no round trip, and, if there is one, only by the search in the state graph; which exceptions occur; the search ends."
  },
  {
   "property": "C51",
   "status": "proved",
   "theorems": [
    "NoGraphs.C51_bfs_already_visited",
    "NoGraphs.C51_dfs_already_visited",
    "NoGraphs.C51_ntd_already_visited"
   ],
   "note": ""
  },
  {
   "property": "C52",
   "status": "proved",
   "theorems": [
    "NoGraphs.C52_bfs_tree",
    "NoGraphs.C52_sp_tree",
    "NoGraphs.C52_topo_tree",
    "NoGraphs.C52_dfs_tree",
    "NoGraphs.C52_ntd_tree",
    "NoGraphs.C52_astar_tree",
    "NoGraphs.C52_dfs_trace_tree"
   ],
   "note": ""
  },
  {
   "property": "C53",
   "status": "partial",
   "theorems": [
    "NoGraphs.C53_edge_functions",
    "NoGraphs.C53_weighted_edge_functions",
    "NoGraphs.C53_dfs_options_partial",
    "NoGraphs.C53_counterexample",
    "NoGraphs.C69_bfs_start",
    "NoGraphs.C69_ntd_start",
    "NoGraphs.C69_topo_start",
    "NoGraphs.C69_dfs_start",
    "NoGraphs.C69_dfs_trace_start",
    "NoGraphs.C69_sp_start",
    "NoGraphs.C69_astar_start",
    "NoGraphs.C69_mst_start",
    "NoGraphs.C69_bidijkstra_start",
    "NoGraphs.C69_bibfs_start",
    "NoGraphs.C69_ib_start_partial"
   ],
   "note": "All parts are proved but one: the documentation excludes ALL_WALKS for trees, but the code accepts it with entering events (C53_counterexample). The start theorems (C69_*) contain the check of the start parameters."
  },
  {
   "property": "C54",
   "status": "partial",
   "theorems": [
    "NoGraphs.C54_dfs_start_partial",
    "NoGraphs.C54_counterexample"
   ],
   "note": "Wrong for array based gears (C54_counterexample); proved for hash and list based gears, and for array based gears with a single start vertex and no pre-allocation."
  },
  {
   "property": "C55",
   "status": "proved",
   "theorems": [
    "NoGraphs.C55_sp_known"
   ],
   "note": ""
  },
  {
   "property": "C56",
   "status": "proved",
   "theorems": [
    "NoGraphs.C56_topo_paths"
   ],
   "note": "For every graph, gear, limit; distinct start ids."
  },
  {
   "property": "C57",
   "status": "partial",
   "theorems": [
    "NoGraphs.C57_dfs_paths_partial",
    "NoGraphs.C57_counterexample",
    "NoGraphs.C57_dfs_paths_tree_partial"
   ],
   "note": "False in mode ALL_PATHS with several start vertices. Proved for DFS_TREE, for ALL_PATHS with one start vertex, and for is_tree=True on forests; not for array based predecessor collections."
  },
  {
   "property": "C58",
   "status": "proved",
   "theorems": [
    "NoGraphs.C58_dfs_index"
   ],
   "note": ""
  },
  {
   "property": "C59",
   "status": "partial",
   "theorems": [
    "NoGraphs.C59_dfs_no_failure_partial",
    "NoGraphs.C59_counterexample"
   ],
   "note": "False with given visited vertices, BACK_EDGE and a bit-packed set. Proved if the given ids are in the range of a fresh set, or no ids are given."
  },
  {
   "property": "C60",
   "status": "proved",
   "theorems": [
    "NoGraphs.C60_mst_paths"
   ],
   "note": ""
  },
  {
   "property": "C61",
   "status": "partial",
   "theorems": [
    "NoGraphs.C61_mst_order_partial",
    "NoGraphs.C61_counterexample"
   ],
   "note": "The code does not behave as documented: it prefers the edge found first. Proved: each reported edge is the first of the lightest ones in reading order; counterexample to the documented order."
  },
  {
   "property": "C62",
   "status": "partial",
   "theorems": [
    "NoGraphs.C62_astar_order_partial",
    "NoGraphs.C62_counterexample",
    "NoGraphs.C62_astar_order_infinite_partial"
   ],
   "note": "The documented order is wrong (counterexample). Proved: for consistent heuristics, reports are ordered by path length plus estimate; vertices with infinite estimates are reported after all others."
  },
  {
   "property": "C63",
   "status": "proved",
   "theorems": [
    "NoGraphs.C63_astar_paths",
    "NoGraphs.C63_astar_goal_path"
   ],
   "note": "For a vertex_to_id that distinguishes the reachable vertices; depth for heuristics without infinite estimates."
  },
  {
   "property": "C64",
   "status": "proved",
   "theorems": [
    "NoGraphs.C64_astar_zero"
   ],
   "note": "Equality of report sequences including stored distances and path data, and of the ending."
  },
  {
   "property": "C65",
   "status": "proved",
   "theorems": [
    "NoGraphs.C65_ntd_order"
   ],
   "note": ""
  },
  {
   "property": "C66",
   "status": "partial",
   "theorems": [
    "NoGraphs.C66_ib_limit_partial",
    "NoGraphs.C66_counterexample",
    "NoGraphs.C05_ib"
   ],
   "note": "The code counts expansions of internal states: with limit 1, a vertex and an edge are read (C66_counterexample). Proved: at most 2k are read, RuntimeError is not raised before k are read, and the limit is exact w.r.t. expansions."
  },
  {
   "property": "C67",
   "status": "proved",
   "theorems": [
    "NoGraphs.C67_ib_paths",
    "NoGraphs.C67_ib_distances"
   ],
   "note": "Start vertices are a set."
  },
  {
   "property": "C68",
   "status": "partial",
   "theorems": [
    "NoGraphs.C68_ib_iterator_partial",
    "NoGraphs.C68_counterexample"
   ],
   "note": "Violated with store_distances and without build_paths: nothing is reported (C68_counterexample)."
  },
  {
   "property": "C69",
   "status": "partial",
   "theorems": [
    "NoGraphs.C69_bfs_start",
    "NoGraphs.C69_ntd_start",
    "NoGraphs.C69_topo_start",
    "NoGraphs.C69_dfs_start",
    "NoGraphs.C69_dfs_trace_start",
    "NoGraphs.C69_sp_start",
    "NoGraphs.C69_astar_start",
    "NoGraphs.C69_mst_start",
    "NoGraphs.C69_bidijkstra_start",
    "NoGraphs.C69_bibfs_start",
    "NoGraphs.C69_ib_start_partial",
    "NoGraphs.C69_counterexample"
   ],
   "note": "Proved for all strategies but two: TraversalShortestPathsInfBranchingSorted with store_distances and without build_paths, and BSearchBreadthFirst with a vertex that is both start and goal vertex, use up an iterator (C69_counterexample, see also C30 and C68). C69_bibfs_start describes exactly what BSearchBreadthFirst does."
  },
  {
   "property": "C70",
   "status": "proved",
   "theorems": [
    "NoGraphs.C70_bfs_search_aware",
    "NoGraphs.C70_bfs_paths",
    "NoGraphs.C70_sp_search_aware",
    "NoGraphs.C70_sp_paths",
    "NoGraphs.C70_ntd_search_aware",
    "NoGraphs.C70_dfs_search_aware",
    "NoGraphs.C70_mst_search_aware",
    "NoGraphs.C70_dfs_trace_search_aware",
    "NoGraphs.C70_topo_search_aware",
    "NoGraphs.C70_astar_search_aware",
    "NoGraphs.C70_astar_paths",
    "NoGraphs.C70_bfs_visited",
    "NoGraphs.C70_ntd_visited",
    "NoGraphs.C70_topo_visited",
    "NoGraphs.C70_dfs_visited",
    "NoGraphs.C70_sp_distances",
    "NoGraphs.C70_astar_distances"
   ],
   "note": ""
  },
  {
   "property": "C71",
   "status": "proved",
   "theorems": [
    "NoGraphs.C71_bfs_progress",
    "NoGraphs.C71_sp_progress",
    "NoGraphs.C71_ib_progress",
    "NoGraphs.C71_astar_progress",
    "NoGraphs.C71_bd_progress"
   ],
   "note": ""
  },
  {
   "property": "C72",
   "status": "proved",
   "theorems": [
    "NoGraphs.C72_shared_at_most_once",
    "NoGraphs.C72_shared_sound",
    "NoGraphs.C72_shared_respected",
    "NoGraphs.C72_shared_complete"
   ],
   "note": "Depth-first search without trace; is_tree not set; the calculation limit is not part of the model of the schedules."
  },
  {
   "property": "C73",
   "status": "proved",
   "theorems": [
    "NoGraphs.C73_type_codes",
    "NoGraphs.C73_sp_fits",
    "NoGraphs.C73_astar_fits",
    "NoGraphs.C73_bd_fits",
    "NoGraphs.C73_sp_same_or_overflow",
    "NoGraphs.C73_astar_same_or_overflow",
    "NoGraphs.C73_bd_same_or_overflow"
   ],
   "note": "Without known distances. For A*, the values of the heuristic function are assumed to be non-negative (fits), not larger than infinity for start vertices (fits), resp. below infinity (same or overflow). For the bidirectional search, only found / not found is compared, since the returned path need not be minimal (C31)."
  },
  {
   "property": "C74",
   "status": "partial",
   "theorems": [
    "NoGraphs.C74_topo_gear_independent_partial",
    "NoGraphs.C74_topo_single_start",
    "NoGraphs.C74_dfs_trace_gear_independent_partial",
    "NoGraphs.C74_counterexample_topo",
    "NoGraphs.C74_counterexample_trace"
   ],
   "note": "The full claim is wrong: with sequences, an AssertionError is possible where hash based gears make all reports (two counterexamples). Proved: the same reports unless an AssertionError is raised (topological sorting); without restriction for one start vertex; for depth-first search with events whenever the given visited ids are in the pre-allocated range."
  },
  {
   "property": "C75",
   "status": "proved",
   "theorems": [
    "NoGraphs.C75_rounded_distance",
    "NoGraphs.C75_rounded_ordered",
    "NoGraphs.C75_rounded_complete",
    "NoGraphs.C75_rounded_paths",
    "NoGraphs.C75_rounded_error",
    "NoGraphs.C75_rounded_relative_error"
   ],
   "note": "Rounding is a monotone idempotent function on an exact ordered monoid; the theorems C18 - C23, C39, C52, C55 about the traversal were weakened to weights without associativity, so they hold for rounded weights as well."
  },
  {
   "property": "C76",
   "status": "proved",
   "theorems": [
    "NoGraphs.C76_bfs",
    "NoGraphs.C76_topo",
    "NoGraphs.C76_ntd",
    "NoGraphs.C76_dfs",
    "NoGraphs.C76_dfs_trace",
    "NoGraphs.C76_sp",
    "NoGraphs.C76_astar",
    "NoGraphs.C76_mst",
    "NoGraphs.C76_order",
    "NoGraphs.C76_restart",
    "NoGraphs.C76_position",
    "NoGraphs.C76_next",
    "NoGraphs.C76_go_to",
    "NoGraphs.C76_go_for_vertices_in",
    "NoGraphs.C76_go_for_range"
   ],
   "note": "Model of traversal objects (attributes, base iterator, created iterators) and of histories of calls; seven strategies (depth-first search in both variants). The theorems C76_<strategy> state that after an accepted start the calls have the outcomes of the same calls on the list of reports of the run (definition Restarts); the other theorems say what these outcomes are. Iterators created before a restart are not used after it, skip_expanding_entered_vertex is not a call here (it is covered as a parameter of the strategies)."
  },
  {
   "property": "C77",
   "status": "partial",
   "theorems": [
    "NoGraphs.C77_rejected_start_partial",
    "NoGraphs.C77_not_started_partial",
    "NoGraphs.C77_counterexample_dfs",
    "NoGraphs.C77_counterexample_not_started"
   ],
   "note": "The full property is false of the code. Depth-first search sets start vertices, paths and limit before it checks the options: a rejected start changes a traversal that has been started before (C77_counterexample_dfs). An object that is not started raises RuntimeError for the first fetch only (C77_counterexample_not_started). Proved: rejected start vertices change nothing (for all strategies; for strategies other than depth-first search there are no other rejections); without start there are never reports, and the first fetch raises RuntimeError."
  },
  {
   "property": "C78",
   "status": "proved",
   "theorems": [
    "NoGraphs.C78_boolean_sequence",
    "NoGraphs.C78_bit_packed_sequence",
    "NoGraphs.C78_results",
    "NoGraphs.C78_mapping"
   ],
   "note": "The mixin methods of collections.abc are modelled as they are written in the standard library of CPython 3.11, on top of the modelled methods of the collections. Keys are natural numbers. Simplification: in `a ^ b`, the part `b - a`, which the class of b evaluates, is the list of the elements of b that are not in a."
  },
  {
   "property": "C79",
   "status": "proved",
   "theorems": [
    "NoGraphs.C79_bfs_on_demand",
    "NoGraphs.C79_bfs_local",
    "NoGraphs.C79_bfs_queue",
    "NoGraphs.C79_bfs_actions",
    "NoGraphs.C79_ntd_on_demand",
    "NoGraphs.C79_ntd_local",
    "NoGraphs.C79_ntd_stack",
    "NoGraphs.C79_ntd_actions",
    "NoGraphs.C79_dfs_on_demand",
    "NoGraphs.C79_dfs_connected",
    "NoGraphs.C79_dfs_local",
    "NoGraphs.C79_dfs_actions",
    "NoGraphs.C79_dfs_trace_on_demand",
    "NoGraphs.C79_dfs_trace_connected",
    "NoGraphs.C79_dfs_trace_local",
    "NoGraphs.C79_topological_sort",
    "NoGraphs.C79_topological_sort_local",
    "NoGraphs.C79_shortest_paths_on_demand",
    "NoGraphs.C79_shortest_paths_local",
    "NoGraphs.C79_shortest_paths_actions",
    "NoGraphs.C79_astar_on_demand",
    "NoGraphs.C79_astar_local",
    "NoGraphs.C79_astar_actions",
    "NoGraphs.C79_mst_on_demand",
    "NoGraphs.C79_mst_local",
    "NoGraphs.C79_mst_actions"
   ],
   "note": "The actions (reports and reads, in their order) are those of the run: the reports by C79_*_actions, the reads by the locality theorems, which fail if a read were missing. The edges function depends on the vertex only; bidirectional searches are not covered."
  },
  {
   "property": "C80",
   "status": "proved",
   "theorems": [
    "NoGraphs.C80_heapq_serves",
    "NoGraphs.C80_same_number_compared",
    "NoGraphs.C80_sp",
    "NoGraphs.C80_astar",
    "NoGraphs.C80_mst",
    "NoGraphs.C80_bidirectional",
    "NoGraphs.C80_infinite_branching"
   ],
   "note": "heapq is modelled after CPython's Lib/heapq.py (heappush, heappop, heapify, _siftdown, _siftup), position by position; a comparison of tuples that agree in weight and number raises TypeError in the model. C80_same_number_compared shows that the unique number is needed."
  },
  {
   "property": "C81",
   "status": "proved",
   "theorems": [
    "NoGraphs.C81_dfs_as_list",
    "NoGraphs.C81_dfs_moment",
    "NoGraphs.C81_dfs_reached",
    "NoGraphs.C81_dfs_search_aware",
    "NoGraphs.C81_dfs_trace_as_list",
    "NoGraphs.C81_dfs_trace_moment",
    "NoGraphs.C81_dfs_trace_search_aware"
   ],
   "note": "Both variants of depth-first search. The source gets the complete state of the traversal, i.e. more than a program can see."
  },
  {
   "property": "C82",
   "status": "proved",
   "theorems": [
    "NoGraphs.C82_mutable_copy",
    "NoGraphs.C82_original_unchanged"
   ],
   "note": "Sequences are objects in a store. Positions of assignments and reads have as many coordinates as the array has dimensions. Sequences that are cell content (nested deeper than the dimensions) are shared between copy and original, as documented."
  },
  {
   "property": "C83",
   "status": "partial",
   "theorems": [
    "NoGraphs.C83_sp_exact_partial",
    "NoGraphs.C83_astar_exact_partial",
    "NoGraphs.C83_bd_exact_partial",
    "NoGraphs.C83_sp_small_partial",
    "NoGraphs.C83_doubles",
    "NoGraphs.C83_sp_sound",
    "NoGraphs.C83_missing_counterexample",
    "NoGraphs.C83_twice_counterexample",
    "NoGraphs.C83_astar_counterexample",
    "NoGraphs.C83_bd_counterexample"
   ],
   "note": "The full statement is false for type code \"f\", the default: reachable vertices are not reported, or are reported twice (counterexample theorems, with integers that are no 4-byte floats, like 16777217). Proved: equality of the whole runs if all computed path weights (for A* also the estimates) can be stored without change, in particular for type code \"d\", and for integers up to 2^24; and soundness and order of the reports of shortest paths for each conversion."
  },
  {
   "property": "C84",
   "status": "partial",
   "theorems": [
    "NoGraphs.C84_bfs",
    "NoGraphs.C84_ntd",
    "NoGraphs.C84_dfs",
    "NoGraphs.C84_mst",
    "NoGraphs.C84_bibfs",
    "NoGraphs.C84_sp",
    "NoGraphs.C84_astar",
    "NoGraphs.C84_bd",
    "NoGraphs.C84_topo_partial",
    "NoGraphs.C84_trace_partial",
    "NoGraphs.C84_pre_allocate_maps",
    "NoGraphs.C84_pre_allocate_sets_partial",
    "NoGraphs.C84_vertex_fits",
    "NoGraphs.C84_bfs_vertices",
    "NoGraphs.C84_sp_vertices",
    "NoGraphs.C84_astar_vertices",
    "NoGraphs.C84_bd_vertices",
    "NoGraphs.C84_pre_allocate_counterexample",
    "NoGraphs.C84_trace_counterexample",
    "NoGraphs.C84_topo_counterexample"
   ],
   "note": "The full statement is false: with no_bit_packing, only an eighth of the requested space is pre-allocated for sets of ids, and depth-first search with BACK_EDGE and topological sorting raise an AssertionError for ids that should be in range (counterexample theorems). Proved: independence of all options for the other strategies; for topological sorting and depth-first search with trace, equality with bit packing and sufficient pre-allocation; for integer vertices, breadth-first search, shortest paths, A* and bidirectional search."
  },
  {
   "property": "C85",
   "status": "partial",
   "theorems": [
    "NoGraphs.C85_labels_partial",
    "NoGraphs.C85_counterexample"
   ],
   "note": "The full statement is false for the label None: the iteration raises an AssertionError. Proved: the exact behaviour for all labels, in particular the full statement for paths without label None."
  },
  {
   "property": "C86",
   "status": "proved",
   "theorems": [
    "NoGraphs.C86_astar_known",
    "NoGraphs.C86_astar_terminates",
    "NoGraphs.C86_astar_guesses"
   ],
   "note": "For all gears, graphs with non-negative weights, heuristic functions, known distances and guesses (without is_tree)."
  },
  {
   "property": "C87",
   "status": "proved",
   "theorems": [
    "NoGraphs.C87_bfs_visited",
    "NoGraphs.C87_ntd_visited",
    "NoGraphs.C87_dfs_visited",
    "NoGraphs.C87_dfs_trace_visited",
    "NoGraphs.C87_topo_visited"
   ],
   "note": "For all gears with lawful sets. Breadth-first search: vertices with the same id have the same successors by id (Compat). Depth-first search: event ENTERING_SUCCESSOR is reported. Trace: entering events are reported. Topological sorting: start vertices with distinct ids."
  },
  {
   "property": "C88",
   "status": "proved",
   "theorems": [
    "NoGraphs.C88_dfs_search",
    "NoGraphs.C88_dfs_options_agree",
    "NoGraphs.C88_start_event",
    "NoGraphs.C88_dfs_terminates",
    "NoGraphs.C88_dfs_bookkeeping"
   ],
   "note": ""
  },
  {
   "property": "C89",
   "status": "proved",
   "theorems": [
    "NoGraphs.C89_no_paths",
    "NoGraphs.C89_paths",
    "NoGraphs.C89_item_of_shown_path",
    "NoGraphs.C89_path_object",
    "NoGraphs.C89_trivial_path"
   ],
   "note": "Iterations need fuel above the number of edges of the path. For a path object without edges, the iteration of labeled edges is empty also in an unlabeled graph (C89_trivial_path)."
  },
  {
   "property": "C90",
   "status": "partial",
   "theorems": [
    "NoGraphs.C90_bfs",
    "NoGraphs.C90_ntd",
    "NoGraphs.C90_dfs_partial",
    "NoGraphs.C90_topo_partial",
    "NoGraphs.C90_dfs_counterexample"
   ],
   "note": "Full for breadth-first and neighbors-then-depth search. Depth-first search: false in general, C90_dfs_counterexample (a plain set with a gear based on sequences raises AssertionError as soon as an option needs the trace; this is not documented). C90_dfs_partial: no such option, or a set of the kind of the gear. Topological sorting: with the documented restriction, and up to the AssertionError of C74."
  },
  {
   "property": "C91",
   "status": "proved",
   "theorems": [
    "NoGraphs.C91_bfs",
    "NoGraphs.C91_ntd",
    "NoGraphs.C91_dfs",
    "NoGraphs.C91_dfs_trace",
    "NoGraphs.C91_topo",
    "NoGraphs.C91_mst",
    "NoGraphs.C91_shortest_paths",
    "NoGraphs.C91_astar",
    "NoGraphs.C91_bfs_before",
    "NoGraphs.C91_ntd_before",
    "NoGraphs.C91_ib",
    "NoGraphs.C91_ib_late"
   ],
   "note": "For all traversal strategies but that for infinite branching. Exceptions of other functions of the application (vertex_to_id, heuristic), the attributes of the traversal object after the exception, and the bidirectional searches are not part of the claim. C91_ib and C91_ib_late: shortest paths with infinite branching, where calls of the edges function and demands to its iterators may raise."
  },
  {
   "property": "C92",
   "status": "partial",
   "theorems": [
    "NoGraphs.C92_bfs",
    "NoGraphs.C92_ntd",
    "NoGraphs.C92_dfs",
    "NoGraphs.C92_mst",
    "NoGraphs.C92_sp",
    "NoGraphs.C92_astar",
    "NoGraphs.C92_bibfs",
    "NoGraphs.C92_bd",
    "NoGraphs.C92_topo_partial",
    "NoGraphs.C92_topo_single_start",
    "NoGraphs.C92_dfs_trace_partial",
    "NoGraphs.C92_counterexample_topo"
   ],
   "note": "The full claim is false of the code: for topological sorting from several start vertices, and for depth-first search with already visited vertices and BACK_EDGE, it depends on the ids and the gear whether an AssertionError occurs (C74). Proved for all other strategies and options, and outside of these cases for these two. known_distances and known_path_length_guesses are not part of the claim."
  },
  {
   "property": "C93",
   "status": "proved",
   "theorems": [
    "NoGraphs.C93_bibfs_half",
    "NoGraphs.C93_bibfs_common",
    "NoGraphs.C93_bibfs_reads_complete",
    "NoGraphs.C93_bd",
    "NoGraphs.C93_bd_reads_complete"
   ],
   "note": "The reads of a search are listed by biReads and bdReads, which are proved to contain one entry for each call of an edges function."
  },
  {
   "property": "C94",
   "status": "proved",
   "theorems": [
    "NoGraphs.C94_next_vertices",
    "NoGraphs.C94_next_edges",
    "NoGraphs.C94_rect"
   ],
   "note": "C94_rect shows that rectangular arrays (C46) are the special case without missing cells."
  },
  {
   "property": "C95",
   "status": "proved",
   "theorems": [
    "NoGraphs.C95_unweighted",
    "NoGraphs.C95_weighted",
    "NoGraphs.C95_equal_weights",
    "NoGraphs.C95_astar",
    "NoGraphs.C95_bibfs",
    "NoGraphs.C95_bd"
   ],
   "note": "Consequences of the theorems about the single strategies; the filter for depth-first search is needed (see the example at the end of Props/Agreement.lean)."
  },
  {
   "property": "C96",
   "status": "proved",
   "theorems": [
    "NoGraphs.C96_bfs",
    "NoGraphs.C96_ntd",
    "NoGraphs.C96_dfs",
    "NoGraphs.C96_topo",
    "NoGraphs.C96_sp",
    "NoGraphs.C96_astar",
    "NoGraphs.C96_mst",
    "NoGraphs.C96_bibfs",
    "NoGraphs.C96_bd",
    "NoGraphs.C96_dfs_tree_counterexample"
   ],
   "note": "Depth-first search with trace: see C88. Infinite branching, where build_paths matters for iterators of start vertices: see C68."
  },
  {
   "property": "C97",
   "status": "partial",
   "theorems": [
    "NoGraphs.C97_bfs",
    "NoGraphs.C97_ntd",
    "NoGraphs.C97_dfs",
    "NoGraphs.C97_topo",
    "NoGraphs.C97_sp",
    "NoGraphs.C97_astar",
    "NoGraphs.C97_mst",
    "NoGraphs.C97_bibfs",
    "NoGraphs.C97_bd_partial",
    "NoGraphs.C97_bd_counterexample"
   ],
   "note": "False for the bidirectional shortest path search (consequence of C31): the returned length depends on the order of parallel edges (C97_bd_counterexample). All other strategies: proved."
  },
  {
   "property": "C98",
   "status": "partial",
   "theorems": [
    "NoGraphs.C98_bfs",
    "NoGraphs.C98_ntd",
    "NoGraphs.C98_dfs",
    "NoGraphs.C98_dfs_trace_partial",
    "NoGraphs.C98_topo",
    "NoGraphs.C98_mst",
    "NoGraphs.C98_sp",
    "NoGraphs.C98_astar_partial",
    "NoGraphs.C98_bibfs",
    "NoGraphs.C98_bd",
    "NoGraphs.C98_bfs_per_report",
    "NoGraphs.C98_ntd_per_report",
    "NoGraphs.C98_mst_per_report",
    "NoGraphs.C98_sp_per_report",
    "NoGraphs.C98_astar_per_report",
    "NoGraphs.C98_starts_counterexample",
    "NoGraphs.C98_astar_counterexample",
    "NoGraphs.C98_dfs_trace_counterexample"
   ],
   "note": "The claim of the documentation is false for repeated start vertices, for A* with inconsistent or infinite estimates, and for the DFS modes ALL_PATHS and ALL_WALKS (three counterexamples). Proved otherwise for all strategies, for A* without known distances or guesses. The bound by reports is proved without conditions for the traversals of five strategies."
  },
  {
   "property": "C99",
   "status": "proved",
   "theorems": [
    "NoGraphs.C99_bfs",
    "NoGraphs.C99_last"
   ],
   "note": ""
  }
 ]
}