{"id": "C01", "title": "Breadth-first: reported depth is the minimal edge count", "statement": "Whenever TraversalBreadthFirst reports a vertex, the vertex is reachable from a start vertex along edges of the graph, and the value of `depth` at that moment equals the minimal number of edges of such a walk (for a traversal that was given no `already_visited`).", "quantifier": "every graph (finite or infinite, finitely branching), every collection of start vertices, every vertex identity function compatible with the edges, every gear collection, every prefix of the reports", "why_tests_cant": "the graphs are arbitrary, possibly infinite functions; a test fixes one graph and one prefix", "anchors": ["src/nographs/_strategies/traversals/without_weights/breadth_first.py: TraversalBreadthFirstFlex._traverse, start_from"]}
{"id": "C02", "title": "Breadth-first: no repetition, starts excluded, depth order", "statement": "No two reports of TraversalBreadthFirst have the same vertex id, no start vertex and no already visited vertex is ever reported, and depths of successive reports never decrease.", "quantifier": "every graph, start collection, `already_visited` set, gear, and prefix of the reports", "why_tests_cant": "quantifies over all graphs and all prefixes of the run", "anchors": ["src/nographs/_strategies/traversals/without_weights/breadth_first.py: TraversalBreadthFirstFlex._traverse"]}
{"id": "C03", "title": "Breadth-first: completeness and termination", "statement": "If a breadth-first traversal comes to its end without exception, it has reported every vertex reachable from a start vertex (other than the starts themselves) without going through vertices that were already visited; and if finitely many vertices are reachable, it does come to its end.", "quantifier": "every graph, start collection, `already_visited` set and gear", "why_tests_cant": "completeness and termination are statements about every graph; a test observes single terminating runs", "anchors": ["src/nographs/_strategies/traversals/without_weights/breadth_first.py: TraversalBreadthFirstFlex._traverse"]}
{"id": "C04", "title": "Breadth-first: paths are shortest walks and stay valid", "statement": "With build_paths, when a vertex is reported at depth d, paths[v] is a sequence of d graph edges (each with the label the graph gave that edge) leading from a start vertex to v, and this path does not change during the rest of the traversal.", "quantifier": "every graph, labels, start collection, gear, report and later moment of the run", "why_tests_cant": "relates a report to all later states of an arbitrary run", "anchors": ["src/nographs/_strategies/traversals/without_weights/breadth_first.py: _traverse", "src/nographs/_paths.py: Paths, PathsOfUnlabeledEdges, PathsOfLabeledEdges"]}
{"id": "C05", "title": "Calculation limit is exact", "statement": "With calculation_limit k >= 0, a traversal run is identical to the unlimited run up to the point where the edges of the (k+1)-th vertex would be computed, and there it raises RuntimeError; it never reads edges of more than k vertices, never raises if the unlimited run needs at most k expansions, and a negative or missing limit never raises.", "quantifier": "every graph, start collection, limit, gear; all traversal strategies that take the parameter (breadth-first, neighbors-then-depth, depth-first, topological, shortest paths, A*, spanning tree)", "why_tests_cant": "off-by-one errors show only for particular combinations of limit, graph and moment; the statement compares two runs for all of them", "anchors": ["src/nographs/_strategies/traversals/without_weights/breadth_first.py: _traverse", "src/nographs/_strategies/traversals/without_weights/neighbors_then_depth.py: _traverse", "src/nographs/_strategies/traversals/without_weights/topological_sort.py: _traverse", "src/nographs/_strategies/traversals/with_weights/shortest_paths.py: _traverse", "src/nographs/_strategies/traversals/with_weights/a_star.py: _traverse", "src/nographs/_strategies/traversals/with_weights/minimum_spanning_tree.py: _traverse"]}
{"id": "C06", "title": "Neighbors-then-depth: every reachable vertex exactly once", "statement": "TraversalNeighborsThenDepth reports only vertices reachable from a start vertex, never a start or already visited vertex, never the same id twice, and when it ends it has reported all of them; it ends whenever only finitely many vertices are reachable.", "quantifier": "every graph, start collection, `already_visited`, gear, prefix of the run", "why_tests_cant": "quantifies over all graphs and prefixes", "anchors": ["src/nographs/_strategies/traversals/without_weights/neighbors_then_depth.py: TraversalNeighborsThenDepthFlex._traverse"]}
{"id": "C07", "title": "Neighbors-then-depth: depth equals the length of the stored path", "statement": "With compute_depth and build_paths, at each report of a vertex v the value of `depth` is the number of edges of paths[v], and paths[v] is a walk of graph edges from a start vertex to v.", "quantifier": "every graph, start collection and prefix of the run", "why_tests_cant": "the depth is maintained by a stack of markers whose correctness is an invariant over arbitrary runs", "anchors": ["src/nographs/_strategies/traversals/without_weights/neighbors_then_depth.py: TraversalNeighborsThenDepthFlex._traverse"]}
{"id": "C08", "title": "Depth-first (plain): refines recursive depth-first search", "statement": "TraversalDepthFirst without trace reports (in mode DFS_TREE) exactly the vertices a textbook recursive depth-first search enters, in the same order, when the recursive search follows the out-edges in reverse order; in particular each reachable vertex other than the starts is reported exactly once.", "quantifier": "every graph, start collection, `already_visited`, gear", "why_tests_cant": "order of an explicit-stack search on all graphs versus a recursive specification", "anchors": ["src/nographs/_strategies/traversals/without_weights/depth_first.py: TraversalDepthFirstFlex._traverse_without_trace"]}
{"id": "C09", "title": "Depth-first (plain): depth and paths", "statement": "In TraversalDepthFirst without trace, at each report `depth` equals the number of edges of the path stored for the vertex and the path consists of graph edges from a start vertex.", "quantifier": "every graph, start collection and prefix of the run; gears whose predecessor collection is hash or list based, and array based ones with a single start vertex and no pre-allocation (for other array based uses see C54, where the claim fails)", "why_tests_cant": "predecessors are overwritten while vertices wait on the stack; validity at report time is an invariant over all runs", "anchors": ["src/nographs/_strategies/traversals/without_weights/depth_first.py: _traverse_without_trace"]}
{"id": "C10", "title": "Depth-first with trace: the trace is the search path", "statement": "In TraversalDepthFirst with compute_trace, at each ENTERING/LEAVING report the trace is a walk of graph edges from the current start vertex to the reported vertex, in modes DFS_TREE and ALL_PATHS without repeated vertices, and `on_trace` is exactly the set of vertices on it.", "quantifier": "every graph, start collection, mode, requested events, prefix of the run", "why_tests_cant": "invariant over every reachable state of a stack machine", "anchors": ["src/nographs/_strategies/traversals/without_weights/depth_first.py: TraversalDepthFirstFlex._traverse_with_trace"]}
{"id": "C100", "title": "Skipping the expansion of an entered vertex", "statement": "A program may call skip_expanding_entered_vertex (or throw StopIteration at the iterator) between two reports of a depth-first traversal. If the last report said that a vertex was entered, the call is confirmed with this vertex, and the edges of the vertex are not read; otherwise (another event, or a second call for the same vertex) it raises a RuntimeError, and the traversal is over. Whatever the program does, the reports and the reads of edges are those of a traversal for which it is fixed in advance which entered vertices are not to be expanded. If entered vertices are reported, a demand for the next report reads exactly the edges of the vertex that has just been reported as entered and not skipped, and nothing else.", "quantifier": "all graphs, options and modes, start vertices, gears, limits, and all sequences of calls of next and skip", "why_tests_cant": "ranges over all interleavings of calls with all traversals", "anchors": ["src/nographs/_strategies/traversals/without_weights/depth_first.py:TraversalDepthFirstFlex.skip_expanding_entered_vertex", "src/nographs/_strategies/traversals/without_weights/depth_first.py:TraversalDepthFirstFlex._traverse_with_trace", "src/nographs/_strategies/traversals/without_weights/depth_first.py:TraversalDepthFirstFlex._traverse_without_trace", "docs/source/traversals.rst"]}
{"id": "C101", "title": "The unit and the type of the weights do not matter", "statement": "If all weights (and estimates, and the infinity value) are converted by a strictly increasing function that respects sums, for example to another unit or from integers to fractions, then shortest paths, A* and bidirectional search report the same vertices, in the same order, with the same depths and paths, read the graph at the same moments, raise the same exceptions, and give the converted distances. For minimum spanning trees, only the order of the weights matters: the same holds for every strictly increasing function.", "quantifier": "all graphs, conversions, start and goal vertices, options, limits and gears", "why_tests_cant": "ranges over all graphs and all conversions; ties and overflows are decided by comparisons deep in the run", "anchors": ["src/nographs/_strategies/traversals/with_weights/shortest_paths.py:TraversalShortestPathsFlex", "src/nographs/_strategies/traversals/with_weights/a_star.py:TraversalAStarFlex", "src/nographs/_strategies/traversals/with_weights/minimum_spanning_tree.py:TraversalMinimumSpanningTreeFlex", "src/nographs/_strategies/bidirectional_search/shortest_path.py:BSearchShortestPathFlex"]}
{"id": "C102", "title": "Exceptions of the edges functions in bidirectional searches", "statement": "The function for outgoing edges, or the function for incoming edges (or an iterable that they return, after some edges), may raise an exception for some vertices. The search calls the edges functions for the same vertices and in the same order as it would do without exceptions, until the first call with an exception: it is passed to the application, and no further function is called. If the search raises no such exception, its result (length, path, no path found, limit exceeded) is the one that it would have without exceptions. In particular, \"no path found\" is never reported because of an exception that got lost.", "quantifier": "every graph, set of vertices and directions with exceptions, number of edges given before the exception, start and goal vertices, gear, option and calculation limit", "why_tests_cant": "ranges over all graphs, all points where an exception can occur and all numbers of edges before it, in two interleaved traversals", "anchors": ["src/nographs/_strategies/bidirectional_search/breadth_first.py:BSearchBreadthFirstFlex.start_from", "src/nographs/_strategies/bidirectional_search/shortest_path.py:BSearchShortestPathFlex.start_from"]}
{"id": "C103", "title": "Distance containers are never too short", "statement": "TraversalShortestPaths, TraversalAStar and BSearchShortestPath read distances directly from sequences that grow on demand. Whatever the vertex ids, the sizes and growth of the containers, and the content of containers provided by the application, no such read leads to an IndexError for the application, and the results are those of hash-based containers, where missing entries mean infinity. The same holds if a container for distances (or path length guesses) is provided together with option is_tree: the reported vertices and distances are those of a search without it.", "quantifier": "every graph, vertex_to_id function, kind, size and extension policy of containers, provided container content, start and goal vertices, option, calculation limit", "why_tests_cant": "ranges over all orders in which ids outside of the current range of the container of one direction or the other are met", "anchors": ["src/nographs/_strategies/traversals/with_weights/shortest_paths.py:TraversalShortestPathsFlex._traverse", "src/nographs/_strategies/traversals/with_weights/a_star.py:TraversalAStarFlex._traverse", "src/nographs/_strategies/bidirectional_search/shortest_path.py:BSearchShortestPathFlex.start_from", "src/nographs/_strategies/utils.py:define_distances", "src/nographs/_gear_collections.py:access_to_vertex_mapping"]}
{"id": "C104", "title": "Distances of different searches fit together", "statement": "For one graph, TraversalShortestPaths (and, with depths, TraversalBreadthFirst) gives consistent results over several searches: with several start vertices, a vertex gets the smallest of the distances it gets from each single start vertex; distances fulfil the triangle inequality; a search in the reversed graph gives the same distance with the roles of start and reported vertex exchanged (in particular, distances in undirected graphs are symmetric); adding edges or making edges lighter never increases a distance and never loses a vertex. BSearchBreadthFirst gives the same length, or no path, if starts and goals, and the functions for outgoing and incoming edges, are exchanged.", "quantifier": "every graph, vertex_to_id function, gear, start and goal vertices, calculation limits and numbers of reports taken; weights not negative", "why_tests_cant": "relates several runs on all graphs and all pairs and triples of vertices", "anchors": ["src/nographs/_strategies/traversals/with_weights/shortest_paths.py:TraversalShortestPathsFlex", "src/nographs/_strategies/traversals/without_weights/breadth_first.py:TraversalBreadthFirstFlex", "src/nographs/_strategies/bidirectional_search/breadth_first.py:BSearchBreadthFirstFlex"]}
{"id": "C105", "title": "A*: calls and exceptions of the heuristic function", "statement": "TraversalAStar calls the heuristic function only for start vertices and for neighbors of vertices that are start vertices or have been reported, and for the same vertex again only when a smaller distance has been found. Reports and end of the traversal do not depend on values of the function for other vertices. If the function raises an exception, nothing further is reported or called, the consumer gets this exception, and the reports given before are the first reports of a traversal without the exception.", "quantifier": "every graph, heuristic function, set of vertices for which it raises, gear, provided containers, start vertices, option, calculation limit and number of reports taken", "why_tests_cant": "ranges over all points of a search at which an application function may fail, and all values of functions that are not asked for", "anchors": ["src/nographs/_strategies/traversals/with_weights/a_star.py:TraversalAStarFlex._traverse", "src/nographs/_strategies/utils.py:define_distances"]}
{"id": "C106", "title": "Infinite branching: edges are asked for just in time", "statement": "TraversalShortestPathsInfBranchingSorted calls the edges function once for a vertex at most, and only for start vertices and vertices that have been reported. It asks the iterator that the function returns for one item after the other, for each item once, and not any more after the end of the iterator. It asks for an item only when no vertex has been reported whose distance is larger than that of the item before it, and vertices reported later do not have a smaller distance: iterators are never asked for items behind the last reported distance. Other items do not influence reports and end of the traversal. TraversalShortestPaths reads the edges of a vertex when all reported vertices have no larger distance, and all vertices reported later have no smaller distance.", "quantifier": "every graph with finitely or infinitely many sorted edges per vertex, set of start vertices, gear, option, calculation limit and number of reports taken", "why_tests_cant": "ranges over infinite sequences of edges, all interleavings of demands and reports, and all values of items that are never asked for", "anchors": ["src/nographs/_strategies/traversals/with_weights/extra_infinite_branching.py:TraversalShortestPathsInfBranchingSortedFlex._traverse", "src/nographs/_strategies/traversals/with_weights/shortest_paths.py:TraversalShortestPathsFlex._traverse"]}
{"id": "C107", "title": "A* searches only where it is promising", "statement": "With a heuristic function that never overestimates the distance to a goal, TraversalAStar reports, until it reports the goal, only vertices whose path length plus estimate does not exceed the distance of the goal. Vertices with an infinite estimate are reported before the goal only if the goal is at infinite distance. So, each vertex with a positive, finite estimate that A* reports until it reports the goal is also reported by TraversalShortestPaths before that goal: A* does not search more than Dijkstra's algorithm. In the same way, a better informed search does not search more than A* with smaller, consistent estimates.", "quantifier": "every graph with non-negative weights, admissible (also inconsistent) heuristic function, set of goals, list of start vertices, gears, calculation limits and number of reports taken", "why_tests_cant": "ranges over all graphs and all admissible heuristic functions, and relates all partial runs of two different strategies", "anchors": ["src/nographs/_strategies/traversals/with_weights/a_star.py:TraversalAStarFlex._traverse", "src/nographs/_strategies/traversals/with_weights/shortest_paths.py:TraversalShortestPathsFlex._traverse"]}
{"id": "C108", "title": "A* with any heuristic function: the last reports are right", "statement": "Whatever the heuristic function estimates (also inconsistent, too high, negative or infinite values): if TraversalAStar reports a vertex several times, the path length does not increase from one report to the next. And when the traversal ends without exception, the last report of each vertex has the minimal path length, i.e. the distance that TraversalShortestPaths reports for the vertex. The attribute distances then contains these minimal path lengths, and gives infinity for all other vertices.", "quantifier": "every graph with non-negative weights, heuristic function, list of start vertices, gear, calculation limit, and number of reports taken (first part) or complete run (second part)", "why_tests_cant": "ranges over all graphs and all heuristic functions, without any condition on the estimates", "anchors": ["src/nographs/_strategies/traversals/with_weights/a_star.py:TraversalAStarFlex._traverse", "src/nographs/_strategies/traversals/with_weights/shortest_paths.py:TraversalShortestPathsFlex._traverse"]}
{"id": "C109", "title": "A* with estimates that are too high by a bounded amount", "statement": "If the estimates of the heuristic function exceed the distance to a goal by a bounded amount (a factor of at least 1, a constant, or both), then the path length that TraversalAStar reports first for a goal exceeds the distance of the goal by at most the same amount. What is reported until a goal is reported has at most this path length.", "quantifier": "every graph with non-negative weights, heuristic function, bound for its error, set of goals, list of start vertices, gear, calculation limit and number of reports taken", "why_tests_cant": "ranges over all graphs, all heuristic functions and all bounds for their errors", "anchors": ["src/nographs/_strategies/traversals/with_weights/a_star.py:TraversalAStarFlex._traverse"]}
{"id": "C11", "title": "Depth-first events are well bracketed", "statement": "With events ENTERING and LEAVING requested, each vertex is entered exactly once and left exactly once in mode DFS_TREE, and the intervals between entering and leaving are properly nested.", "quantifier": "every finite graph, start collection, requested events", "why_tests_cant": "nesting of all event sequences over all graphs", "anchors": ["src/nographs/_strategies/traversals/without_weights/depth_first.py: _traverse_with_trace", "src/nographs/_strategies/traversals/without_weights/depth_first_enum_types.py: DFSEvent"]}
{"id": "C12", "title": "Depth-first edge classification", "statement": "In mode DFS_TREE, a non-tree edge (u,v) that is reported as BACK_EDGE leads to a vertex that is on the trace; reported as FORWARD_EDGE it leads to an already left vertex entered after u; reported as CROSS_EDGE it leads to an already left vertex that had been entered before u; reported as FORWARD_OR_CROSS_EDGE or SOME_NON_TREE_EDGE it is one of the respective group; and every non-tree edge whose kind was requested is reported.", "quantifier": "every graph, start collection and every allowed set of requested events", "why_tests_cant": "the combination of requested events and graphs is unbounded; the defect found needs a specific combination", "anchors": ["src/nographs/_strategies/traversals/without_weights/depth_first.py: _traverse_with_trace lines 744-821", "src/nographs/_strategies/traversals/without_weights/depth_first_enum_types.py: DFSEvent"]}
{"id": "C13", "title": "Depth-first mode ALL_PATHS enumerates simple paths", "statement": "In mode ALL_PATHS the sequence of traces at ENTERING reports is exactly the set of simple paths from the start vertex, each one once.", "quantifier": "every finite graph and single start vertex", "why_tests_cant": "enumeration completeness over all graphs", "anchors": ["src/nographs/_strategies/traversals/without_weights/depth_first.py: _traverse_with_trace"]}
{"id": "C14", "title": "Depth-first events in mode ALL_WALKS", "statement": "ENTERING_START is reported exactly when a start vertex is taken from the given start vertices, and ENTERING_SUCCESSOR exactly when a vertex is entered along an edge, in every mode.", "quantifier": "every graph, start collection, mode", "why_tests_cant": "the code decides by comparing vertices; only graphs leading back to the start in one of the modes separate the two", "anchors": ["src/nographs/_strategies/traversals/without_weights/depth_first.py: _traverse_with_trace line 899", "src/nographs/_strategies/traversals/without_weights/depth_first_enum_types.py: DFSEvent"]}
{"id": "C15", "title": "Depth-first trace labels and path labels", "statement": "With labeled edges, the label that trace_labels (and paths) give for each edge of the trace is a label the graph gives to that edge.", "quantifier": "every labeled graph, start collection, moment of the run", "why_tests_cant": "the label stack runs in parallel to the vertex stack; agreement is an invariant over all runs", "anchors": ["src/nographs/_strategies/traversals/without_weights/depth_first.py: _traverse_with_trace line 637"]}
{"id": "C16", "title": "Topological order", "statement": "TraversalTopologicalSort reports a vertex only after all vertices its out-edges lead to, reports each reachable vertex once, start vertices included.", "quantifier": "every finite acyclic graph and every collection of start vertices", "why_tests_cant": "a statement on all graphs and all start collections; defect needs several start vertices in a specific order", "anchors": ["src/nographs/_strategies/traversals/without_weights/topological_sort.py: TraversalTopologicalSortFlex._traverse"]}
{"id": "C17", "title": "Topological sort: cycle detection is exact and the demonstration is a cycle", "statement": "TraversalTopologicalSort raises RuntimeError (graph contains a cycle) only if a cycle is reachable from a start vertex, it raises whenever such a cycle exists, and cycle_from_start is a walk of graph edges from a start vertex whose last vertex occurs earlier in it.", "quantifier": "every finite graph and start collection", "why_tests_cant": "soundness and completeness of cycle detection over all graphs", "anchors": ["src/nographs/_strategies/traversals/without_weights/topological_sort.py: _traverse, _report_cycle"]}
{"id": "C18", "title": "Shortest paths: reported distance is optimal", "statement": "Whenever TraversalShortestPaths reports a vertex, `distance` equals the minimum total edge weight of all walks from a start vertex to it.", "quantifier": "every graph with non-negative weights, any start collection, gear, vertex identity function, every prefix of the run", "why_tests_cant": "optimality over all walks of all graphs", "anchors": ["src/nographs/_strategies/traversals/with_weights/shortest_paths.py: TraversalShortestPathsFlex._traverse, start_from"]}
{"id": "C19", "title": "Shortest paths: order, uniqueness, start vertices not reported", "statement": "Distances of successive reports of TraversalShortestPaths never decrease, no vertex id is reported twice, and (without known_distances) start vertices are not reported.", "quantifier": "every graph with non-negative weights, start collection, gear, prefix of the run", "why_tests_cant": "quantifies over all graphs and prefixes including heap ties and superseded heap entries", "anchors": ["src/nographs/_strategies/traversals/with_weights/shortest_paths.py: TraversalShortestPathsFlex._traverse"]}
{"id": "C20", "title": "Shortest paths: completeness", "statement": "When TraversalShortestPaths ends without exception it has reported every vertex reachable from a start vertex other than the starts; and before a vertex with distance d is reported, all vertices with smaller distance have been reported (also on infinite graphs).", "quantifier": "every graph with non-negative weights, start collection, gear", "why_tests_cant": "completeness on all graphs", "anchors": ["src/nographs/_strategies/traversals/with_weights/shortest_paths.py: TraversalShortestPathsFlex._traverse"]}
{"id": "C21", "title": "Shortest paths: paths and depth", "statement": "With build_paths, when a vertex is reported, paths[v] is a walk of graph edges from a start vertex to v with total weight `distance` and exactly `depth` edges.", "quantifier": "every graph with non-negative weights, labels, gear, prefix", "why_tests_cant": "predecessors are overwritten during the run; validity at report time is an invariant", "anchors": ["src/nographs/_strategies/traversals/with_weights/shortest_paths.py: TraversalShortestPathsFlex._traverse"]}
{"id": "C22", "title": "Shortest paths: stored distances and keep_distances", "statement": "With store_distances (keep_distances), distances[v] equals the shortest distance for every vertex reported so far and every start; without it reports are the same.", "quantifier": "every graph with non-negative weights, start collection, prefix of the run", "why_tests_cant": "compares two complete runs of the algorithm for every graph", "anchors": ["src/nographs/_strategies/traversals/with_weights/shortest_paths.py: start_from, _traverse"]}
{"id": "C23", "title": "Distances at or above the infinity value of the gear raise OverflowError", "statement": "TraversalShortestPaths never reports or stores a distance that is not smaller than the gear's infinity value: it raises OverflowError when such a path length is computed; reports made before are correct.", "quantifier": "every graph, weights, infinity value (also a finite one of an integer gear)", "why_tests_cant": "boundary behaviour for every infinity value and graph", "anchors": ["src/nographs/_strategies/traversals/with_weights/shortest_paths.py: _traverse", "src/nographs/_gears.py: Gear.infinity"]}
{"id": "C24", "title": "A*: optimal for admissible heuristics", "statement": "If the heuristic never overestimates the distance to the goal vertex, then when TraversalAStar reports the goal for the first time, path_length is the minimal length of a walk from a start vertex to the goal.", "quantifier": "every graph with non-negative weights, every admissible heuristic (also inconsistent ones), every start collection not containing the goal", "why_tests_cant": "optimality over all graphs and all heuristics", "anchors": ["src/nographs/_strategies/traversals/with_weights/a_star.py: TraversalAStarFlex._traverse"]}
{"id": "C25", "title": "A*: consistent heuristics visit each vertex once", "statement": "If the heuristic is consistent, TraversalAStar reports no vertex twice, and every report has the minimal path length.", "quantifier": "every graph with non-negative weights and every consistent heuristic, including heuristics that return infinity", "why_tests_cant": "quantifies over all heuristics; the defect needs infinite estimates", "anchors": ["src/nographs/_strategies/traversals/with_weights/a_star.py: TraversalAStarFlex._traverse"]}
{"id": "C26", "title": "Minimum spanning tree: spans, tree", "statement": "TraversalMinimumSpanningTree reports each vertex connected to the start vertices exactly once (starts excluded), each with an edge of the graph from an already connected vertex.", "quantifier": "every graph with symmetric edges, start collection, gear", "why_tests_cant": "structure of the result for all graphs", "anchors": ["src/nographs/_strategies/traversals/with_weights/minimum_spanning_tree.py: TraversalMinimumSpanningTreeFlex._traverse"]}
{"id": "C27", "title": "Minimum spanning tree: minimality", "statement": "The total weight of the reported edges is at most the total weight of any set of the same number of edges that connects all these vertices to the start vertices; more precisely the reported edges can be paired one-to-one with edges of any connecting edge set so that each reported edge is not heavier than its partner.", "quantifier": "every graph with symmetric weighted edges (weights of any sign), every start collection", "why_tests_cant": "optimality over all edge subsets of all graphs", "anchors": ["src/nographs/_strategies/traversals/with_weights/minimum_spanning_tree.py: TraversalMinimumSpanningTreeFlex._traverse"]}
{"id": "C28", "title": "Bidirectional breadth-first: length is minimal, failure is exact", "statement": "BSearchBreadthFirst returns the minimal number of edges from a start to a goal vertex, 0 if they share a vertex, and fails (KeyError, or -1 if fail_silently) only if there is no such path; for graphs where next_vertices for both directions describe the same edges.", "quantifier": "every graph, every pair of start and goal collections (re-iterable), gear", "why_tests_cant": "the result depends on the interleaving of two searches on arbitrary graphs", "anchors": ["src/nographs/_strategies/bidirectional_search/breadth_first.py: BSearchBreadthFirstFlex.start_from"]}
{"id": "C29", "title": "Bidirectional breadth-first: the returned path", "statement": "With build_path, the returned path is a walk of graph edges from a start vertex to a goal vertex with exactly the returned number of edges.", "quantifier": "every graph, start and goal collections, gear", "why_tests_cant": "quantifies over all graphs and meeting points", "anchors": ["src/nographs/_strategies/bidirectional_search/breadth_first.py: start_from", "src/nographs/_path.py: Path.from_bidirectional_search"]}
{"id": "C30", "title": "Bidirectional breadth-first accepts any iterables", "statement": "The result of BSearchBreadthFirst does not depend on whether the start and goal vertices are given as re-iterable collections or as one-shot iterators.", "quantifier": "every graph and every pair of start and goal iterables", "why_tests_cant": "tests pass lists; only one-shot iterators with common vertices separate the behaviours", "anchors": ["src/nographs/_strategies/bidirectional_search/breadth_first.py: start_from lines 128-343", "src/nographs/_strategies/traversals/traversal.py: _start_from"]}
{"id": "C31", "title": "Bidirectional shortest path: length is minimal", "statement": "BSearchShortestPath returns the minimal total weight of a walk from a start to a goal vertex.", "quantifier": "every graph with non-negative weights, start and goal collections", "why_tests_cant": "the stop criterion must be right for every interleaving of the two heaps, including superseded heap entries; the defect found needs a specific interleaving", "anchors": ["src/nographs/_strategies/bidirectional_search/shortest_path.py: BSearchShortestPathFlex.start_from lines 400-515"]}
{"id": "C32", "title": "Bidirectional shortest path: result is a real path, failure is exact", "statement": "The length returned by BSearchShortestPath is the total weight of the walk of graph edges that the returned path describes, from a start to a goal vertex, and the search fails (KeyError, or infinity if fail_silently) exactly if no such walk exists.", "quantifier": "every graph with non-negative weights, start and goal collections, gear", "why_tests_cant": "quantifies over all graphs and interleavings", "anchors": ["src/nographs/_strategies/bidirectional_search/shortest_path.py: BSearchShortestPathFlex.start_from", "src/nographs/_path.py: Path.from_bidirectional_search"]}
{"id": "C33", "title": "Paths containers: forward and backward iteration agree", "statement": "For a Paths container filled by append_edge, iterating the vertices of the path of a vertex from start is the reverse of iterating to start, edges are consecutive vertex pairs with the appended labels, the path of a vertex added by append_edge is the path of its predecessor extended by the edge, and requests for vertices without path raise RuntimeError.", "quantifier": "every history of append_edge calls for new vertices, every vertex", "why_tests_cant": "quantifies over all histories", "anchors": ["src/nographs/_paths.py: Paths, PathsOfUnlabeledEdges, PathsOfLabeledEdges"]}
{"id": "C34", "title": "Path objects of bidirectional searches", "statement": "A Path made from a forward and a backward Paths container and a connecting vertex iterates the vertices and (labeled) edges of the concatenated path from start to goal; iterating to start gives the reverse sequence; of_nothing and from_vertex give the empty and the one-vertex path.", "quantifier": "every pair of predecessor structures and every connecting vertex", "why_tests_cant": "round trip law over all paths", "anchors": ["src/nographs/_path.py: Path"]}
{"id": "C35", "title": "Vertex set in a byte sequence behaves like a set", "statement": "A VertexSetWrappingSequenceNoBitPacking behaves like a mathematical finite set of non-negative integers under any sequence of add, discard, update_from_keys and the inlined access used by traversals: `in`, len and (ascending) iteration agree, also when the sequence has to be extended; negative or non-integer keys are never contained.", "quantifier": "every operation history, every extension size and initial capacity", "why_tests_cant": "quantifies over all histories and keys around the boundaries of the allocated sequence", "anchors": ["src/nographs/_gear_collections.py: VertexSetWrappingSequenceNoBitPacking, VertexSequenceWrapper.extend_and_set"]}
{"id": "C36", "title": "Bit-packed vertex set behaves like a set", "statement": "A VertexSetWrappingSequenceBitPacking behaves like a mathematical finite set of non-negative integers under any sequence of add, discard, update_from_keys and inlined accesses: `in`, len (bit count) and ascending iteration agree with the set.", "quantifier": "every operation history, extension size and initial capacity", "why_tests_cant": "all bit positions and histories", "anchors": ["src/nographs/_gear_collections.py: VertexSetWrappingSequenceBitPacking"]}
{"id": "C37", "title": "Sequence-based mapping behaves like a mapping", "statement": "A VertexMappingWrappingSequence behaves like a finite map from non-negative integers to values other than its default value under any history of assignments, deletions, update_from_keys_values and update_default: `in`, lookup, len and ascending iteration agree with the map.", "quantifier": "every operation history, default value, extension size, with or without extension template", "why_tests_cant": "all histories and keys around the allocated length", "anchors": ["src/nographs/_gear_collections.py: VertexMappingWrappingSequence, VertexSequenceWrapper"]}
{"id": "C38", "title": "Missing keys follow the gear protocol", "statement": "Looking up a key without a stored value in a distance mapping of a gear returns the gear's infinity value (and never stores anything).", "quantifier": "every gear, mapping state and key", "why_tests_cant": "protocol conformance for every state of every collection kind", "anchors": ["src/nographs/_gears.py: Gear.vertex_id_to_distance_mapping, DefaultdictWithNiceStr", "src/nographs/_gear_collections.py: VertexMappingWrappingSequence.__getitem__"]}
{"id": "C39", "title": "Gear independence", "statement": "The reports of breadth-first search, of the neighbors-then-depth traversal, of depth-first search (without trace), of the shortest paths traversal, of A* and of the spanning tree traversal, and the results of the two bidirectional searches (length or weight, and the returned path), do not depend on the gear collections in use (hash based, boolean sequence, bit-packed sequence, list or array).", "quantifier": "every graph with integer vertex ids, start collection, pair of gears", "why_tests_cant": "equality of two implementations on all graphs", "anchors": ["src/nographs/_gear_collections.py", "src/nographs/_gears.py", "src/nographs/_strategies/traversals/without_weights/breadth_first.py", "src/nographs/_strategies/traversals/with_weights/shortest_paths.py", "src/nographs/_strategies/bidirectional_search/breadth_first.py", "src/nographs/_strategies/bidirectional_search/shortest_path.py"]}
{"id": "C40", "title": "go_for_vertices_in", "statement": "go_for_vertices_in reports exactly those reported vertices that are in the given collection, in the order of the traversal, stops after all have been found, and raises KeyError exactly if the traversal ends before (nothing is raised with fail_silently).", "quantifier": "every traversal (sequence of reports), every collection of vertices", "why_tests_cant": "all report sequences, including traversals that report a vertex several times", "anchors": ["src/nographs/_strategies/traversals/traversal.py: Traversal.go_for_vertices_in"]}
{"id": "C41", "title": "go_to", "statement": "go_to returns the first reported vertex equal to the given one and consumes exactly the reports up to it; otherwise the whole traversal is consumed and KeyError is raised, or None is returned with fail_silently.", "quantifier": "every traversal (sequence of reports), every vertex", "why_tests_cant": "all report sequences", "anchors": ["src/nographs/_strategies/traversals/traversal.py: Traversal.go_to"]}
{"id": "C42", "title": "Range iteration of traversals", "statement": "go_for_depth_range(start, stop) and go_for_distance_range(start, stop) report, from a traversal with non-decreasing depths (distances), exactly the vertices with start <= depth < stop in order, and consume from the traversal at most one further report (the documented loss).", "quantifier": "every non-decreasing sequence of reports, all start and stop values", "why_tests_cant": "all report sequences and bounds, including empty ranges", "anchors": ["src/nographs/_strategies/traversals/without_weights/breadth_first.py: go_for_depth_range", "src/nographs/_strategies/traversals/with_weights/traversal_with_weights.py: go_for_distance_range"]}
{"id": "C43", "title": "Edge adapters", "statement": "adapt_edge_index and adapt_edge_iterable return, for each vertex, exactly the edges given for it, in the given order with their data, and with add_inverted also for each given edge the inverted edge with the same data; vertices without edges give no edges.", "quantifier": "every edge index (mapping or sequence) and edge collection, every vertex", "why_tests_cant": "all collections and vertices", "anchors": ["src/nographs/_extra_edge_gadgets.py: adapt_edge_index, adapt_edge_iterable"]}
{"id": "C44", "title": "Position arithmetic and wrapping", "statement": "Position addition, subtraction and multiplication act coordinate-wise; manhattan_distance is the sum of absolute differences; wrap_to_cuboid returns the unique position in the cuboid congruent to the given one modulo the cuboid size in each dimension.", "quantifier": "all dimensions, integer coordinates and non-empty cuboids", "why_tests_cant": "all integers, signs and cuboid positions", "anchors": ["src/nographs/_extra_matrix_gadgets.py: Position"]}
{"id": "C45", "title": "Moves and neighbors in grids", "statement": "Position.moves(d, zero, non-diagonal, diagonal) lists exactly the vectors of {-1,0,1}^d of the requested kinds once, in ascending order; neighbors(moves, limits, wrap) gives exactly the positions one move away that are inside the limits (or wrapped into them).", "quantifier": "all dimensions, positions, limits and allowed option combinations", "why_tests_cant": "all dimensions and boundary positions", "anchors": ["src/nographs/_extra_matrix_gadgets.py: Position.moves, Position.neighbors"]}
{"id": "C46", "title": "Arrays", "statement": "Array.items lists every position with its content once in ascending order, findall gives exactly the positions with the content, getitem after setitem gives the new content at that position and the old one elsewhere, and next_vertices_from_forbidden / next_edges_from_cell_weights give exactly the allowed neighbors (with the weight of the target cell).", "quantifier": "all rectangular arrays of any dimension and positions inside", "why_tests_cant": "all shapes, contents and positions", "anchors": ["src/nographs/_extra_matrix_gadgets.py: Array"]}
{"id": "C47", "title": "Shortest paths with infinite branching", "statement": "TraversalShortestPathsInfBranchingSorted, given edges sorted by weight for each vertex (possibly infinitely many), reports vertices with their minimal distances in non-decreasing order, each vertex once, and before reporting distance d has reported all vertices with smaller distance, if they are reached by walks using finitely many edges that the search has to look at.", "quantifier": "every graph with finitely or infinitely many sorted non-negative edges per vertex, start collection, prefix of the run", "why_tests_cant": "infinite graphs and all prefixes", "anchors": ["src/nographs/_strategies/traversals/with_weights/extra_infinite_branching.py: TraversalShortestPathsInfBranchingSorted._traverse"]}
{"id": "C48", "title": "Traveling salesman: weight transformations are invertible", "statement": "The weight changes made for negative weights and for find_longest keep the order of tours: for each round trip over n vertices, undoing the change of the changed length gives the original length, changed weights are non-negative, and a tour is shortest (longest for find_longest) for the original weights iff it is shortest for the changed ones.", "quantifier": "all weight tables and all round trips", "why_tests_cant": "all tables and tours", "anchors": ["src/nographs/_extra_tsp.py: _weight_changes_for_negative_weights, _weight_changes_for_find_longest, _undo_weight_changes_in_travel_length"]}
{"id": "C49", "title": "Traveling salesman: the state graph encodes round trips", "statement": "The walks from start state to goal state of the state graph used by traveling_salesman correspond one-to-one to round trips that visit each vertex exactly once, with the same total weight, and the backwards edges describe the same edges as the forwards edges.", "quantifier": "every number of vertices and weight table", "why_tests_cant": "correspondence for all sizes and tables", "anchors": ["src/nographs/_extra_tsp.py: _traveling_salesman_int_vertices"]}
{"id": "C50", "title": "Traveling salesman: the result is an optimal round trip", "statement": "traveling_salesman returns a round trip visiting each vertex exactly once and its true total weight, and no round trip is shorter (longer for find_longest); it raises KeyError exactly if there is no round trip.", "quantifier": "every weighted complete or incomplete graph with at least two vertices", "why_tests_cant": "optimality over all tours of all graphs", "anchors": ["src/nographs/_extra_tsp.py: traveling_salesman, traveling_salesman_flex"]}
{"id": "C51", "title": "Continuing with already_visited", "statement": "A traversal started with the `visited` collection of an earlier complete breadth-first (or neighbors-then-depth or depth-first) run and a new start vertex reports exactly the newly reachable vertices, and together both runs report the vertices a single run with both start vertices reports.", "quantifier": "every graph, pair of start collections", "why_tests_cant": "relates three runs on every graph", "anchors": ["src/nographs/_strategies/utils.py: define_visited", "src/nographs/_strategies/traversals/without_weights/breadth_first.py: start_from"]}
{"id": "C52", "title": "is_tree agrees with the general mode on trees", "statement": "If every vertex is reached by exactly one walk from the start vertices, then a traversal with is_tree=True gives the same reports as with is_tree=False.", "quantifier": "every tree-shaped graph, start collection, gear; breadth-first, neighbors-then-depth, depth-first (without and with trace, all modes and events), topological sort, shortest paths, and A* (every heuristic function)", "why_tests_cant": "relates two runs on every tree", "anchors": ["src/nographs/_strategies/traversals/without_weights/breadth_first.py: _traverse", "src/nographs/_strategies/traversals/with_weights/shortest_paths.py: _traverse", "src/nographs/_strategies/traversals/without_weights/topological_sort.py: _traverse_in_tree", "src/nographs/_strategies/traversals/with_weights/a_star.py: _traverse", "src/nographs/_strategies/traversals/without_weights/depth_first.py: _traverse_with_trace"]}
{"id": "C53", "title": "Start parameter checks", "statement": "start_from raises RuntimeError exactly if both or neither of start_vertex and start_vertices is given; creating a traversal raises RuntimeError exactly if not exactly one of the edge functions is given, or labels are requested in the wrong way; TraversalDepthFirst.start_from rejects exactly the documented option combinations.", "quantifier": "all combinations of options", "why_tests_cant": "the option space is a product of flags and event sets; the claim covers all of it", "anchors": ["src/nographs/_strategies/traversals/traversal.py: _start_from", "src/nographs/_strategies/traversals/without_weights/traversal_without_weights.py: _create_unified_next", "src/nographs/_strategies/traversals/with_weights/traversal_with_weights.py: _create_unified_next_weighted", "src/nographs/_strategies/traversals/without_weights/depth_first.py: start_from"]}
{"id": "C54", "title": "Empty path for every start vertex", "statement": "With build_paths, every start vertex of a depth-first traversal that is entered as a start vertex (ENTERING_START) has a stored empty path at that moment, for every gear.", "quantifier": "every graph, start collection, gear (also array based) and pre-allocation", "why_tests_cant": "the defect depends on the capacity of the underlying array at the moment", "anchors": ["src/nographs/_strategies/traversals/without_weights/depth_first.py: lines 883, 1062", "src/nographs/_gears.py: GearForIntVerticesAndIDs"]}
{"id": "C55", "title": "Shortest paths: known distances", "statement": "With known_distances, TraversalShortestPaths reports exactly the vertices that can be reached from the start vertices (beginning with the distances known for them, or zero) with a smaller distance than the known one at each vertex of the walk; the reported distance is minimal among such walks, reports are in order of distance, and no id is reported twice.", "quantifier": "every graph with non-negative weights, start collection, gear, map of known distances, prefix of the run", "why_tests_cant": "depends on the interplay of arbitrary pre-set distances and all walks", "anchors": ["src/nographs/_strategies/traversals/with_weights/shortest_paths.py: TraversalShortestPathsFlex.start_from, _traverse", "src/nographs/_strategies/utils.py: define_distances"]}
{"id": "C56", "title": "Topological sort: paths and depths", "statement": "With build_paths, when TraversalTopologicalSort reports a vertex, paths holds for it a path of graph edges (with their labels) from a start vertex, with as many edges as the reported depth, and this path stays the same for the rest of the traversal.", "quantifier": "every graph (also cyclic ones), collection of distinct start vertices, limit, gear, moment", "why_tests_cant": "predecessors are stored before a vertex is entered and can be overwritten; whether stored paths stay consistent depends on the interleaving on every graph", "anchors": ["src/nographs/_strategies/traversals/without_weights/topological_sort.py: TraversalTopologicalSortFlex._traverse"]}
{"id": "C57", "title": "Depth-first with trace: stored paths are the trace", "statement": "With build_paths, whenever TraversalDepthFirst reports that a vertex is entered or left, the path stored for the vertex is the trace with the trace labels.", "quantifier": "every labeled graph, start collection, mode that allows paths, moment of the run", "why_tests_cant": "paths are overwritten during the run; agreement with the trace is an invariant over all runs", "anchors": ["src/nographs/_strategies/traversals/without_weights/depth_first.py: _traverse_with_trace"]}
{"id": "C58", "title": "Depth-first: index is the pre-order number", "statement": "With compute_index, at each report of TraversalDepthFirst, the index of a vertex is n if it was the n-th vertex entered, and 0 if it has not been entered so far.", "quantifier": "every graph, start collection, allowed set of requested events, moment of the run", "why_tests_cant": "history property of all runs", "anchors": ["src/nographs/_strategies/traversals/without_weights/depth_first.py: _traverse_with_trace, index"]}
{"id": "C59", "title": "Depth-first with trace: no internal failure", "statement": "Iterating TraversalDepthFirst with trace, with accepted options, raises nothing but the RuntimeError of the calculation limit.", "quantifier": "every graph, start collection, gear, mode, accepted options, given set of visited vertices", "why_tests_cant": "absence of an exception in all states of all runs", "anchors": ["src/nographs/_strategies/traversals/without_weights/depth_first.py: _traverse_with_trace", "src/nographs/_gear_collections.py"]}
{"id": "C60", "title": "Minimum spanning tree: stored paths", "statement": "With build_paths, at each report of TraversalMinimumSpanningTree, the paths container shows for each start vertex and each vertex reported so far a path from a start vertex that consists of reported edges only.", "quantifier": "every weighted graph, start collection, gear, moment of the run", "why_tests_cant": "holds at every moment of every run", "anchors": ["src/nographs/_strategies/traversals/with_weights/minimum_spanning_tree.py: TraversalMinimumSpanningTreeFlex._traverse", "src/nographs/_paths.py"]}
{"id": "C61", "title": "Minimum spanning tree: tie breaker", "statement": "Among the edges of lowest weight from connected vertices to other vertices, TraversalMinimumSpanningTree reports the one that has been found most recently (documented tie breaker).", "quantifier": "every weighted graph, start collection, moment of the run", "why_tests_cant": "depends on the whole history of the heap", "anchors": ["src/nographs/_strategies/traversals/with_weights/minimum_spanning_tree.py: TraversalMinimumSpanningTreeFlex._traverse"]}
{"id": "C62", "title": "A*: order of reports", "statement": "TraversalAStar reports vertices ordered by increasing path length (as its documentation says).", "quantifier": "every graph with non-negative weights, every start collection and every heuristic", "why_tests_cant": "order over all pairs of reports in all graphs", "anchors": ["src/nographs/_strategies/traversals/with_weights/a_star.py: TraversalAStarFlex._traverse"]}
{"id": "C63", "title": "A*: stored paths", "statement": "With build_paths, when TraversalAStar with an admissible heuristic reports a goal, paths[goal] is a path of graph edges from a start vertex to the goal whose weights sum up to path_length, the distance of the goal; the same holds for each reported vertex if the heuristic is consistent; and depth is the number of edges of the path.", "quantifier": "every graph with non-negative weights, every heuristic of the kind, every gear, every report", "why_tests_cant": "predecessors are overwritten by later improvements of other vertices; needs an invariant over all histories", "anchors": ["src/nographs/_strategies/traversals/with_weights/a_star.py: TraversalAStarFlex._traverse", "src/nographs/_paths.py"]}
{"id": "C64", "title": "A* without information is Dijkstra", "statement": "With a heuristic that returns zero for each vertex, TraversalAStar reports the same vertices in the same order with the same path lengths, depths and paths as TraversalShortestPaths.", "quantifier": "every graph, gear, option setting, start collection and calculation limit", "why_tests_cant": "equality of two programs on all inputs", "anchors": ["src/nographs/_strategies/traversals/with_weights/a_star.py: TraversalAStarFlex._traverse", "src/nographs/_strategies/traversals/with_weights/shortest_paths.py: TraversalShortestPathsFlex._traverse"]}
{"id": "C65", "title": "Neighbors-then-depth: order of the reports", "statement": "TraversalNeighborsThenDepth reports, for each vertex it explores, first all its new neighbors in the order in which the graph gives them, and then goes deeper from them, beginning with the neighbor reported last, before it continues with what was found earlier; with compute_depth, `depth` is the depth in this exploration.", "quantifier": "every graph, start collection, already_visited, gear, and each prefix of the run", "why_tests_cant": "an order statement over all graphs, with a recursive specification", "anchors": ["src/nographs/_strategies/traversals/without_weights/neighbors_then_depth.py: TraversalNeighborsThenDepthFlex._traverse"]}
{"id": "C66", "title": "Meaning of combined_calculation_limit", "statement": "TraversalShortestPathsInfBranchingSorted with combined_calculation_limit=k reads at most k vertices and edges in sum from the graph, and raises RuntimeError if more would be necessary, but not earlier.", "quantifier": "every graph, start vertices, options, limit k and moment of the run", "why_tests_cant": "A bound on the work for all graphs and limits; tests cover single limits.", "anchors": ["src/nographs/_strategies/traversals/with_weights/extra_infinite_branching.py:TraversalShortestPathsInfBranchingSortedFlex.start_from", "src/nographs/_strategies/traversals/with_weights/extra_infinite_branching.py:TraversalShortestPathsInfBranchingSortedFlex._traverse"]}
{"id": "C67", "title": "Paths and distances with infinite branching", "statement": "TraversalShortestPathsInfBranchingSorted with build_paths: from the report of a vertex on, paths shows a path along edges from a start vertex to it, whose total weight is the distance of the vertex, and empty paths for start vertices. With store_distances, the attribute distances contains exactly 0 for start vertices and the distances of the vertices reported so far; infinity for all others.", "quantifier": "every graph with sorted sequences of edges, set of start vertices, options, gears that can store the vertices, and moment of the run", "why_tests_cant": "The predecessors are taken from paths of an auxiliary state graph; correctness must hold in every state of every search.", "anchors": ["src/nographs/_strategies/traversals/with_weights/extra_infinite_branching.py:TraversalShortestPathsInfBranchingSortedFlex._traverse", "src/nographs/_paths.py:Paths"]}
{"id": "C68", "title": "Iterables of start vertices with infinite branching", "statement": "TraversalShortestPathsInfBranchingSorted started with start_vertices given as any iterable, e.g. a generator, gives the same results as when it is started with the collection of these vertices.", "quantifier": "every graph, iterable of start vertices and combination of options", "why_tests_cant": "Depends on how often the iterable is iterated for each combination of options.", "anchors": ["src/nographs/_strategies/traversals/with_weights/extra_infinite_branching.py:TraversalShortestPathsInfBranchingSortedFlex.start_from", "src/nographs/_strategies/traversals/traversal.py:Traversal._start_from"]}
{"id": "C69", "title": "Any kind of iterable of start vertices", "statement": "The behaviour of a started strategy (its reports, attributes, exceptions and results) depends only on the sequence of start vertices, not on how it is given: as start_vertex or as start_vertices, and, in the latter case, as collection, as iterable that can be iterated again, or as iterator that can be used only once; with and without build_paths, is_tree, already_visited, known distances, and stored distances.", "quantifier": "all strategies, all graphs, all option combinations, all iterables of start vertices", "why_tests_cant": "the claim ranges over all graphs and combinations of options with kinds of iterables; a missed copy of an iterator shows up only for some combination", "anchors": ["src/nographs/_strategies/traversals/traversal.py: _start_from", "src/nographs/_strategies/traversals/without_weights/traversal_without_weights.py: _start_without_weights_with_visited", "src/nographs/_strategies/utils.py: define_visited, define_distances, create_paths", "src/nographs/_strategies/traversals/with_weights/shortest_paths.py: start_from", "src/nographs/_strategies/bidirectional_search/shortest_path.py: start_from", "src/nographs/_strategies/bidirectional_search/breadth_first.py: start_from"]}
{"id": "C70", "title": "Search-aware graphs are ordinary graphs", "statement": "If the edges function uses its second parameter (the traversal object: depth, distance, paths, visited) or any other state, the traversal behaves exactly (same reports in the same order with the same attributes, same exceptions, same end) as in the ordinary graph of the edges that the function has returned. The function is called at most once for a vertex (id), and the state information it gets is valid for this vertex: in breadth-first search the depth is the distance of the vertex in edges, in shortest paths the distance is that of the vertex, in the depth-oriented strategies the depth is the length of a path; the trace of depth-first search is a path to the vertex; with build_paths, the paths object shows a path to the vertex along edges returned so far. The set of visited vertices shows at each call, besides vertices given as already visited: in breadth-first search and neighbors-then-depth exactly the start vertices and what the calls before have returned; in topological sort exactly the start vertices and the vertices the function has been called for; in depth-first search at least the vertices the function has been called for, and exactly these if nothing is skipped. The distances (shortest paths with keep_distances) and path lengths (A*) show at each call, for each vertex, the least value offered by the start vertices and the edges returned so far. For breadth-first search, shortest paths, depth-first search (mode DFS_TREE, with and without trace), neighbors-then-depth, topological sort, minimum spanning tree, and A* (if the heuristic function is consistent for the returned edges and has no infinite estimates; the path length is the distance of the vertex).", "quantifier": "every edges function with arbitrary dependency on the call number and the attributes of the traversal, distinct start vertices, limits, and numbers of steps of the run", "why_tests_cant": "the edges function is an arbitrary stateful program that is interleaved with the traversal; the claim ranges over all of them and over infinite graphs", "anchors": ["docs/source/search_aware_graphs.rst", "src/nographs/_strategies/traversals/without_weights/breadth_first.py:_traverse", "src/nographs/_strategies/traversals/without_weights/depth_first.py:_traverse", "src/nographs/_strategies/traversals/without_weights/neighbors_then_depth.py:_traverse", "src/nographs/_strategies/traversals/with_weights/shortest_paths.py:_traverse", "src/nographs/_strategies/traversals/with_weights/minimum_spanning_tree.py:_traverse", "src/nographs/_strategies/traversals/without_weights/topological_sort.py:_traverse_in_non_tree", "src/nographs/_strategies/traversals/with_weights/a_star.py:_traverse"]}
{"id": "C71", "title": "Progress in infinite graphs", "statement": "Also if infinitely many vertices can be reached, each vertex that a strategy has to come to is reported after finitely many steps: breadth-first search reports each reachable vertex; shortest paths reports (with a distance of at most d) each vertex to which a path of length d leads, if only finitely many vertices are within distance d; the same holds with infinitely branching graphs, if of each of these vertices only finitely many edges have a weight up to d; and A* with an admissible heuristic reports the goal, even if infinitely many vertices are nearer to the start, if for only finitely many of them path length plus estimate is at most d. And the bidirectional shortest path search ends and returns a connection (of at most twice the length), if there is a connection of length d and, in each of both directions, only finitely many vertices are within distance d. The numbers that occur there have to be below the infinity value of the gear.", "quantifier": "every (finite or infinite) graph, start vertices, reachable vertex, and option values other than is_tree", "why_tests_cant": "the graphs are infinite and the claim is a liveness property: a test can only observe a finite prefix of a single run", "anchors": ["docs/source/concept_and_examples.rst", "src/nographs/_strategies/traversals/without_weights/breadth_first.py:_traverse", "src/nographs/_strategies/traversals/with_weights/shortest_paths.py:_traverse", "src/nographs/_strategies/traversals/with_weights/extra_infinite_branching.py:_traverse", "src/nographs/_strategies/traversals/with_weights/a_star.py:_traverse", "src/nographs/_strategies/bidirectional_search/shortest_path.py:start_from"]}
{"id": "C72", "title": "Traversals that share a set of visited vertices", "statement": "If several traversals (breadth-first, neighbors-then-depth, depth-first, in any mixture) are started with the same set as already_visited, and the program iterates them alternately in any order and starts further ones in between, then: no vertex is reported twice in total; a report is never a vertex that was in the set when the program began, nor a vertex that is in the set at that moment, nor a start vertex of a breadth-first or neighbors-then-depth traversal that has been started before; each report is reachable from the start vertices of the reporting traversal by edges that avoid the vertices in the set at the beginning; and when all of them have come to their end, the set contains exactly its original content and the ids of all vertices that are reachable in this way from start vertices of the traversals, and each such vertex that is not a start vertex has been reported by one of them (if reporting has been demanded).", "quantifier": "all graphs, sets, numbers and kinds of traversals, start vertices, and all interleavings of their steps and starts", "why_tests_cant": "Tests iterate one traversal after the other, or a few interleavings; the number of schedules grows exponentially, and the correctness depends on when one traversal sees the marks of another one.", "anchors": ["src/nographs/_strategies/utils.py: define_visited", "src/nographs/_strategies/traversals/without_weights/traversal_without_weights.py: _start_without_weights_with_visited", "src/nographs/_strategies/traversals/without_weights/breadth_first.py: _traverse", "src/nographs/_strategies/traversals/without_weights/neighbors_then_depth.py: _traverse", "src/nographs/_strategies/traversals/without_weights/depth_first.py: _traverse_without_trace"]}
{"id": "C73", "title": "Distances of a C-native integer type are stored exactly, or OverflowError is raised", "statement": "For the gears with distances in arrays of C-native integers: the infinity value chosen for a type code, and all numbers between zero and it, can be stored in an array with that type code on each platform, and it is the largest such number. During a shortest paths traversal, an A* search or a bidirectional shortest path search with non-negative weights, all numbers that are stored in arrays of distances (and path length guesses) can be stored in arrays of the type. Compared to a run with a larger infinity value, a shortest paths traversal or A* search reports the same vertices in the same order with the same attributes and ends in the same way, unless it raises OverflowError; in this case its reports are the first reports of the other run. A bidirectional search never answers \"no path\" where the search with another infinity value finds a path, and vice versa.", "quantifier": "all type codes, actual item sizes, graphs with non-negative weights, start and goal vertices, calculation limits, and moments of a run", "why_tests_cant": "Item sizes depend on the platform, and wrong results need a sum that meets the boundary of the type on some path of some graph.", "anchors": ["src/nographs/_gears.py: max_value_for_integer_array_type_code, GearForIntVertexIDsAndCInts, GearForIntVerticesAndIDsAndCInts", "src/nographs/_strategies/traversals/with_weights/shortest_paths.py: TraversalShortestPathsFlex", "src/nographs/_strategies/traversals/with_weights/a_star.py: TraversalAStarFlex", "src/nographs/_strategies/bidirectional_search/shortest_path.py: BSearchShortestPathFlex"]}
{"id": "C74", "title": "Gear independence of topological sorting and of depth-first search with events", "statement": "Topological sorting, and depth-first search with trace, events or special modes, make the same reports (vertex, depth, event, trace, index), with the same content of the bookkeeping collections, end in the same way, and expose the same cycle, whatever gear collections are in use (hash based, boolean sequence, bit-packed sequence, list).", "quantifier": "every graph, start collection, set of visited vertices, accepted options, pair of gears, calculation limit", "why_tests_cant": "equality of two implementations on all graphs and for all options; the difference (an AssertionError with sequences only) needs ids beyond the length of a sequence that depends on the history", "anchors": ["src/nographs/_strategies/traversals/without_weights/topological_sort.py", "src/nographs/_strategies/traversals/without_weights/depth_first.py", "src/nographs/_gear_collections.py", "src/nographs/_gears.py"]}
{"id": "C75", "title": "Shortest paths with rounded (floating point) weights", "statement": "If the addition of weights rounds its result (as floating point addition does; the rounding is monotone, keeps the numbers of the format and zero), TraversalShortestPaths still reports, for each vertex, the least computed weight of all walks to it (weights added in the order of the walk), each vertex once, in non-decreasing order of these distances, and completely; the stored path has exactly the reported distance as computed weight; and the distance differs from the exact weights by at most one rounding error per edge: it is at most (1+eps)^n times the exact weight of each walk with n edges, and at least (1-eps)^depth times the exact weight of a walk with depth edges.", "quantifier": "all rounding functions and their error bounds, all weighted graphs with non-negative weights, all start vertices, gears, limits and moments of the traversal", "why_tests_cant": "the combinations of rounding errors along all paths of all graphs cannot be enumerated; tests use a few weights for which sums are exact", "anchors": ["src/nographs/_strategies/traversals/with_weights/shortest_paths.py:TraversalShortestPaths", "src/nographs/_gears.py:GearDefault"]}
{"id": "C76", "title": "A started traversal is one sequence of reports with one position, for every history of calls", "statement": "After an accepted start_from, all ways to fetch vertices (next, for loops that are left and resumed, go_to, and iterators created by go_for_vertices_in, go_for_depth_range and go_for_distance_range, used in any order, interleaved, and partly) continue one traversal: what they deliver are reports of the run for the given parameters, in the order of the run, each at most once; each call does what its documentation says for the reports that are left; fetching behind the last report gives the exception of the run, if any, once, and StopIteration from then on. A traversal can be restarted at any time, and then the outcomes of all calls are those of a new object, whatever has been done before.", "quantifier": "all sequences of method calls on a traversal object (including rejected and repeated starts, interrupted iterations, several interleaved iterators), all strategies, graphs, start vertices, options, gears and limits", "why_tests_cant": "the histories of calls on a stateful object with several live iterators are unbounded; tests use a few fixed call sequences", "anchors": ["src/nographs/_strategies/traversals/traversal.py:Traversal", "src/nographs/_strategies/traversals/without_weights/breadth_first.py:TraversalBreadthFirstFlex.go_for_depth_range", "src/nographs/_strategies/traversals/with_weights/traversal_with_weights.py", "docs/source/traversals.rst"]}
{"id": "C77", "title": "Calls that are not allowed are rejected and have no effect", "statement": "A call of start_from that raises an exception leaves the traversal object as it was: a traversal that was started before can be continued as if the call had not been made. Methods that fetch vertices raise RuntimeError as long as the traversal has not been started.", "quantifier": "all traversal objects in any state, all rejected parameters of start_from, all sequences of fetching calls on objects that are not started", "why_tests_cant": "ranges over all states of an object and all combinations of rejected options; tests check that the exception is raised, not that the state is kept", "anchors": ["src/nographs/_strategies/traversals/traversal.py:Traversal", "src/nographs/_strategies/traversals/without_weights/depth_first.py:TraversalDepthFirstFlex.start_from", "docs/source/traversals.rst"]}
{"id": "C78", "title": "Gear collections behave like Python sets and mappings for all their operations", "statement": "The vertex sets and vertex mappings of the gears for integer vertex ids, which are made of sequences and implement only a few methods themselves, behave as a mathematical set resp. partial map under every history of all the operations that a Python mutable set or mapping has: operators and in-place operators with sets, with other iterables and with the collection itself, comparisons, isdisjoint, remove, pop, clear, get, items, values, popitem, update, setdefault, equality. Each operation ends, gives the answer of the mathematical object, and raises KeyError only where it should; the sets that operators create behave in the same way again.", "quantifier": "all histories of operations, all operands, all keys and values other than the value reserved for gaps, all settings of pre-allocation, extension and bit packing", "why_tests_cant": "ranges over unbounded operation histories and operands on a stateful collection", "anchors": ["src/nographs/_gear_collections.py:VertexSetWrappingSequenceNoBitPacking", "src/nographs/_gear_collections.py:VertexSetWrappingSequenceBitPacking", "src/nographs/_gear_collections.py:VertexMappingWrappingSequence"]}
{"id": "C79", "title": "Traversals read edges on demand, in a determined order", "statement": "A traversal asks for the edges of a vertex only if the vertex is a start vertex or has already been reported (for depth-first search: if entered successors are reported; otherwise, and for topological sorting, only if it is a start vertex or a neighbor of a vertex whose edges have been read before; topological sorting reports a vertex only after reading its edges). Hence what a traversal has done so far depends on the edges of these vertices only, and the rest of the graph may be unknown, infinite or expensive. For breadth-first search and neighbors-before-depth, the sequence of reports and reads is exactly that of the textbook algorithm with a queue resp. with a stack.", "quantifier": "all graphs (also infinite), start vertices, options, gears, limits, and all moments of the run", "why_tests_cant": "says something about each moment of each run in each graph, and about vertices of the graph that are never touched", "anchors": ["src/nographs/_strategies/traversals/without_weights/breadth_first.py:_traverse", "src/nographs/_strategies/traversals/without_weights/neighbors_then_depth.py:_traverse", "src/nographs/_strategies/traversals/without_weights/depth_first.py:_traverse_without_trace", "src/nographs/_strategies/traversals/without_weights/depth_first.py:_traverse_with_trace", "src/nographs/_strategies/traversals/without_weights/topological_sort.py:_traverse", "src/nographs/_strategies/traversals/with_weights/shortest_paths.py:_traverse", "src/nographs/_strategies/traversals/with_weights/a_star.py:_traverse", "src/nographs/_strategies/traversals/with_weights/minimum_spanning_tree.py:_traverse"]}
{"id": "C80", "title": "The heap behind the weighted strategies gives the smallest candidate and never compares vertices", "statement": "The strategies that work with weights (shortest paths, A*, minimum spanning tree, bidirectional shortest path, infinite branching) keep candidates as tuples (weight, unique number, vertex, ...) in the binary heap of Python's heapq. Whatever operations are done on the heap, each time the tuple of lowest weight is taken, ties are decided by the number, and two vertices are never compared, so vertices need not be comparable. Hence a strategy that runs on the binary heap makes the same reports with the same attributes, the same reads of edges, and ends in the same way as one that always takes the minimum of all its candidates.", "quantifier": "all heap contents and histories of operations; all graphs, start vertices, options, gears, limits, and all moments of the runs", "why_tests_cant": "the layout of a binary heap depends on the complete history of the operations on it; a wrong sift position or a repeated number shows only for particular histories and ties", "anchors": ["src/nographs/_strategies/traversals/with_weights/shortest_paths.py:_traverse", "src/nographs/_strategies/traversals/with_weights/a_star.py:_traverse", "src/nographs/_strategies/traversals/with_weights/minimum_spanning_tree.py:_traverse", "src/nographs/_strategies/bidirectional_search/shortest_path.py:start_from", "src/nographs/_strategies/traversals/with_weights/extra_infinite_branching.py:_traverse"]}
{"id": "C81", "title": "Search-aware start vertices: depth-first search takes them one at a time", "statement": "TraversalDepthFirst takes its start vertices one at a time from the given iterable: it asks for a further start vertex only when the traversal from all start vertices it got before is complete, and at this moment a generator of start vertices sees the complete results of that traversal (visited ids, paths, trace state; in a traversal that is not pruned, exactly the ids that can be reached from the former start vertices are visited). Whatever the generator does with these results, the traversal behaves exactly (same reports with the same attributes, same edges read, same end) as for the list of the start vertices that the generator returned. This holds in all modes and for all events; in mode DFS_TREE also if the edges function is search-aware, too: then, the traversal is the one in the ordinary graph of the returned edges.", "quantifier": "every source of start vertices with arbitrary dependency on the state of the traversal and on the number of the demand, also infinite ones; every graph and every edges function; options, limits, and numbers of steps", "why_tests_cant": "the generator is an arbitrary stateful program that is interleaved with the traversal", "anchors": ["docs/source/search_aware_graphs.rst", "src/nographs/_strategies/traversals/without_weights/depth_first.py:_traverse_with_trace", "src/nographs/_strategies/traversals/without_weights/depth_first.py:_traverse_without_trace", "src/nographs/_strategies/traversals/traversal.py:_start_from"]}
{"id": "C82", "title": "Mutable copies of arrays", "statement": "Array.mutable_copy succeeds for every array with one or more dimensions, also if its sequences are immutable or if the same row object occurs in it several times, and it changes nothing that existed before. The copy has the same size and content. After any assignments to the copy and to other objects, in any order: reading from the copy gives what was assigned to this cell of the copy last (each assignment changes one cell only), or else the content of the original array at the time of the copy; assignments to cells of the copy succeed, and outside of the array they raise IndexError; and all other objects, in particular those of the original array, are as if there were no assignments to the copy. Negative coordinates count from the end, as for Python sequences.", "quantifier": "every store of sequence objects (shared or not, mutable or not), number of dimensions, sizes, positions (also negative or out of range), and every sequence of later assignments", "why_tests_cant": "aliasing depends on which objects the nested sequences share; the claim ranges over all sharing patterns, dimensions and assignment histories", "anchors": ["src/nographs/_extra_matrix_gadgets.py:Array.mutable_copy", "src/nographs/_extra_matrix_gadgets.py:Array.__getitem__", "src/nographs/_extra_matrix_gadgets.py:Array.__setitem__", "src/nographs/_extra_matrix_gadgets.py:Array.size"]}
{"id": "C83", "title": "Gears that store distances as C-native floats", "statement": "The choice of a gear for C-native floats (GearForIntVertexIDsAndCFloats, GearForIntVerticesAndIDsAndCFloats, with distance type code \"f\" or \"d\") does not change results: for float weights in the range of the type, TraversalShortestPaths, TraversalAStar and BSearchShortestPath report the same vertices with the same distances, paths and endings as with a gear that keeps Python floats.", "quantifier": "every graph with non-negative weights, start and goal vertices, heuristic function, limit, way of storing numbers (conversion), and pre-allocation", "why_tests_cant": "whether a stored number is rounded up, down, or not at all depends on each sum of weights; tests use small integers, which are stored exactly", "anchors": ["src/nographs/_gears.py:GearForIntVertexIDsAndCFloats", "src/nographs/_gears.py:GearForIntVerticesAndIDsAndCFloats", "src/nographs/_strategies/traversals/with_weights/shortest_paths.py:_traverse", "src/nographs/_strategies/traversals/with_weights/a_star.py:_traverse", "src/nographs/_strategies/bidirectional_search/shortest_path.py:start_from"]}
{"id": "C84", "title": "Options of the gears for integers do not change results", "statement": "For GearForIntVertexIDs and GearForIntVerticesAndIDs, all options (no_arrays, no_bit_packing, pre_allocate, vertex_type_code) only influence memory and runtime: every traversal and search makes the same reports, with the same visited ids, distances, predecessors and labels, and ends in the same way, as with GearForHashableVertexIDs. All documented vertices can be stored on every platform. pre_allocate reserves space for that number of vertices, so that ids below it need no extension of the collections.", "quantifier": "every graph with non-negative integers as ids, strategy, start and goal vertices, given visited ids, option values, limit", "why_tests_cant": "the tests use few option values and small ids; whether an id is in the allocated range depends on all ids used before", "anchors": ["src/nographs/_gears.py:GearForIntVertexIDs", "src/nographs/_gears.py:GearForIntVerticesAndIDs", "src/nographs/_gears.py:vertex_id_set", "src/nographs/_strategies/traversals/without_weights/topological_sort.py:_traverse_in_non_tree", "src/nographs/_strategies/traversals/without_weights/depth_first.py:_traverse_with_trace"]}
{"id": "C85", "title": "Labels can be any object", "statement": "As documented, labels of edges can be any kind of object, also None: for each vertex with a stored path, the iterations of labeled edges of Paths give all edges of the path with the labels with which the edges have been stored.", "quantifier": "every gear, history of appended edges, vertex, and labels, also None", "why_tests_cant": "tests use few labels, and never None", "anchors": ["src/nographs/_paths.py:_iter_path_edges", "src/nographs/_paths.py:iter_labeled_edges_from_start", "src/nographs/_paths.py:append_edge", "docs/source/api.rst:T_labels"]}
{"id": "C86", "title": "A*: known distances and known path length guesses", "statement": "With known_distances, TraversalAStar reports a vertex only with a path length smaller than the known distance of the vertex, and the path length belongs to a walk that begins at a start vertex (with its known distance, or zero) and improves the known distance of each further vertex; when the traversal ends, each vertex such a walk leads to has been reported with the minimal length of such walks (or is a start vertex with minimal known distance), and attribute distances holds these minima; with an admissible heuristic each report of a goal is minimal; the traversal terminates for finitely many reachable ids. Given known_path_length_guesses have an effect for start vertices only.", "quantifier": "every graph with non-negative weights, start collection, gear, heuristic function (also inconsistent), map of known distances, map of known guesses, calculation limit, moment of the run", "why_tests_cant": "depends on the interplay of arbitrary pre-set distances, estimates, and all walks", "anchors": ["src/nographs/_strategies/traversals/with_weights/a_star.py: TraversalAStarFlex.start_from, _traverse", "src/nographs/_strategies/utils.py: define_distances"]}
{"id": "C87", "title": "The set visited at each report", "statement": "When a traversal reports a vertex, its attribute visited contains exactly the ids that were in it before the start (already_visited), and: breadth-first and neighbors-then-depth search: those of the start vertices and of the vertices reported so far, including the current one; depth-first search: those of the vertices reported so far, and, if entering start vertices is not reported, possibly those of start vertices; depth-first search with trace in mode DFS_TREE: those of the vertices whose entering has been reported so far, at reports of all events; topological sorting: those of the start vertices, of the vertices reported so far, and of the vertices on a walk from a start vertex to the reported vertex that has depth edges.", "quantifier": "every graph, start collection, already visited set, gear, calculation limit and moment of the run (no is_tree)", "why_tests_cant": "concerns the state shown at every moment of every run, for all graphs and set implementations", "anchors": ["src/nographs/_strategies/traversals/without_weights/breadth_first.py: TraversalBreadthFirstFlex._traverse", "src/nographs/_strategies/traversals/without_weights/neighbors_then_depth.py: TraversalNeighborsThenDepthFlex._traverse", "src/nographs/_strategies/traversals/without_weights/depth_first.py: TraversalDepthFirstFlex._traverse_with_trace, _traverse_without_trace", "src/nographs/_strategies/traversals/without_weights/topological_sort.py: TraversalTopologicalSortFlex._traverse"]}
{"id": "C88", "title": "Options for bookkeeping do not change a depth-first search", "statement": "Depth-first search has two implementations; which one is used depends on the options. For all options that start_from accepts, and in each mode, the reports of entering vertices are those of the recursive search of this mode: in the same order, with the same events and depths. So two traversals of the same graph from the same start vertices, with the same mode, already visited vertices, requested entering events and skipped expansions report the same entered vertices in the same order with the same events and depths, whatever else is requested: other events, build_paths, compute_trace, compute_on_trace, compute_index, labels, gear. At each moment, what one of them has reported begins what the other reports; and if both have ended, it is the same. And what is requested is provided: if a trace, the on-trace set, indices or other events than entering are requested, or the mode is not DFS_TREE, the trace at each report is a path to the reported vertex, the on-trace set (if requested) has the ids of the trace when a vertex is entered or left, and the indices (if requested) number the entered vertices.", "quantifier": "every graph, pair of accepted option combinations and gears, start collection, already visited set, consumer that skips expansions, calculation limits and moments of the two runs (no is_tree)", "why_tests_cant": "compares two different algorithms for all pairs of option combinations on all graphs, including infinite ones", "anchors": ["src/nographs/_strategies/traversals/without_weights/depth_first.py: TraversalDepthFirstFlex.start_from, _traverse, _traverse_with_trace, _traverse_without_trace"]}
{"id": "C89", "title": "Access to paths", "statement": "What an application gets from the attribute paths of a traversal depends only on the paths that have been stored: (1) Before the traversal is started, and if it is started without build_paths, \"v in paths\" is false, and every method that asks for a path raises RuntimeError. (2) With build_paths, for a vertex with a stored path, paths[v] is the sequence of labeled edges of this path if the traversal knows labels, and otherwise the sequence of its vertices; the iterations of labeled edges give these edges, respectively raise RuntimeError; all other methods give the vertices and edges of the path. (3) For a vertex without a stored path, and for None, every method other than \"in\" raises RuntimeError, and no loop sees an element before the exception. (4) iter(path) for the path objects of bidirectional searches gives the labeled edges, respectively the vertices, of the whole path.", "quantifier": "every history of stored paths, gear that can store the vertices and labels, injective vertex identity, vertex or None, labeled or unlabeled graph", "why_tests_cant": "ranges over all histories of stored paths, and over all paths that any of the strategies shows", "anchors": ["src/nographs/_paths.py: Paths, PathsDummy, PathsOfUnlabeledEdges, PathsOfLabeledEdges", "src/nographs/_path.py: Path, PathOfUnlabeledEdges, PathOfLabeledEdges", "src/nographs/_strategies/utils.py: create_paths", "src/nographs/_strategies/traversals/traversal.py: Traversal.__init__"]}
{"id": "C90", "title": "Own kind of set for already visited vertices", "statement": "If an application gives its own set of already visited vertices (parameter already_visited), the way how this set is implemented makes no difference: breadth-first search, neighbors-then-depth search and depth-first search make the same reports, with the same paths, end in the same way, and the given set contains the same ids at each report, as with a set of the gear with the same content. For topological sorting, the same holds if the given set is of the kind of the sets of the gear.", "quantifier": "every graph, vertex identity, start vertices, gear, lawful implementation of the given set, content of it, calculation limit and (for depth-first search) choice of mode, events and bookkeeping", "why_tests_cant": "ranges over all graphs, all implementations and contents of the given set, and all points in time of the iteration", "anchors": ["src/nographs/_strategies/traversals/without_weights/depth_first.py: TraversalDepthFirstFlex.start_from, _traverse_with_trace", "src/nographs/_strategies/traversals/without_weights/topological_sort.py: TraversalTopologicalSortFlex._traverse_in_non_tree", "src/nographs/_strategies/traversals/without_weights/breadth_first.py: TraversalBreadthFirstFlex.start_from", "src/nographs/_strategies/traversals/without_weights/neighbors_then_depth.py: TraversalNeighborsThenDepthFlex.start_from", "src/nographs/_gear_collections.py: access_to_vertex_set"]}
{"id": "C91", "title": "Exceptions of the edges function", "statement": "The function that gives the edges of a vertex (or the iterable that it returns, after some edges) may raise an exception for some vertices. The exception of the first such vertex whose edges are read ends the traversal: it is passed to the application, no further edges are read and nothing more is reported; and a traversal that ends normally has not lost an exception. Until then, the traversal has read the edges of the same vertices and made the same reports (vertex, depth or distance, paths, visited vertices), in the same order, as it would have done without the exception.", "quantifier": "every graph, set of vertices with exceptions, number of edges given before the exception, start vertices, gear, options and calculation limit, and every point in time of the iteration; all traversal strategies without infinite branching", "why_tests_cant": "ranges over all graphs, all points where an exception can occur, and all numbers of edges before it", "anchors": ["src/nographs/_strategies/traversals/without_weights/breadth_first.py: TraversalBreadthFirstFlex._traverse", "src/nographs/_strategies/traversals/without_weights/neighbors_then_depth.py: TraversalNeighborsThenDepthFlex._traverse", "src/nographs/_strategies/traversals/without_weights/depth_first.py: TraversalDepthFirstFlex._traverse_without_trace, _traverse_with_trace", "src/nographs/_strategies/traversals/without_weights/topological_sort.py: TraversalTopologicalSortFlex._traverse_in_tree, _traverse_in_non_tree", "src/nographs/_strategies/traversals/with_weights/shortest_paths.py: TraversalShortestPathsFlex._traverse", "src/nographs/_strategies/traversals/with_weights/a_star.py: TraversalAStarFlex._traverse", "src/nographs/_strategies/traversals/with_weights/minimum_spanning_tree.py: TraversalMinimumSpanningTreeFlex._traverse"]}
{"id": "C92", "title": "Only which vertices have the same id matters, not the ids", "statement": "Two functions vertex_to_id that identify the same vertices lead to the same result, whatever ids they compute and whatever gear is used for them: the same reports in the same order (vertices, depths, distances, events, traces, edges of the spanning tree), for each vertex the same answer whether it has been visited and the same predecessor, label, distance and number, the same way to end, and the same result of a bidirectional search. In particular, with an injective function, the result is as if vertices were used as ids.", "quantifier": "every graph, pair of functions that identify the same vertices, pair of gears, start vertices, given visited vertices, options and calculation limit; all strategies without infinite branching", "why_tests_cant": "ranges over all pairs of functions and all graphs", "anchors": ["src/nographs/_strategies/traversals/without_weights/breadth_first.py: TraversalBreadthFirstFlex", "src/nographs/_strategies/traversals/without_weights/neighbors_then_depth.py: TraversalNeighborsThenDepthFlex", "src/nographs/_strategies/traversals/without_weights/depth_first.py: TraversalDepthFirstFlex", "src/nographs/_strategies/traversals/without_weights/topological_sort.py: TraversalTopologicalSortFlex", "src/nographs/_strategies/traversals/with_weights/shortest_paths.py: TraversalShortestPathsFlex", "src/nographs/_strategies/traversals/with_weights/a_star.py: TraversalAStarFlex", "src/nographs/_strategies/traversals/with_weights/minimum_spanning_tree.py: TraversalMinimumSpanningTreeFlex", "src/nographs/_strategies/bidirectional_search/breadth_first.py: BSearchBreadthFirstFlex", "src/nographs/_strategies/bidirectional_search/shortest_path.py: BSearchShortestPathFlex"]}
{"id": "C93", "title": "Bidirectional searches read the graph only as far as needed", "statement": "The bidirectional breadth-first search calls the function for outgoing edges only for vertices of a depth d with 2d < n, and the function for incoming edges only for vertices of a depth d (from the goal vertices) with 2d + 1 < n, where n is the number of edges of any walk from a start to a goal vertex: each direction reads at most half of the way. It reads nothing if a start vertex is a goal vertex. The bidirectional search for shortest paths calls the edges functions only for vertices whose distance from the start (resp. goal) vertices is at most the total weight of any walk from a start to a goal vertex.", "quantifier": "every graph (also infinite) with matching edges functions, gear, start and goal vertices, calculation limit, and number of steps, also if the search does not end", "why_tests_cant": "ranges over all graphs and all moments of a search", "anchors": ["src/nographs/_strategies/bidirectional_search/breadth_first.py: BSearchBreadthFirstFlex.start_from", "src/nographs/_strategies/bidirectional_search/shortest_path.py: BSearchShortestPathFlex.start_from"]}
{"id": "C94", "title": "Graph adapters of arrays do not hide missing cells", "statement": "The sizes of an array are taken from its first elements, and nothing checks that the array is rectangular. For every array with non-empty first elements, the edges functions made from it behave as follows at every position: if all neighbors inside the sizes have a cell, exactly the allowed (weighted) ones are given, and no exception is raised. If a neighbor inside the sizes has no cell, the iteration ends with an IndexError, and everything given before is an allowed neighbor; without wrapping, it is exactly what comes before the first missing cell in the order of positions. Cells outside of the sizes are never given.", "quantifier": "every nested sequences of every number of dimensions, position, forbidden content or weights, and options", "why_tests_cant": "ranges over all arrays, shapes and positions", "anchors": ["src/nographs/_extra_matrix_gadgets.py: Array.next_vertices_from_forbidden", "src/nographs/_extra_matrix_gadgets.py: Array.next_edges_from_cell_weights", "src/nographs/_extra_matrix_gadgets.py: Array.size"]}
{"id": "C95", "title": "The strategies agree with each other", "statement": "Complete runs of different strategies on the same graph and start vertices, with any gears, limits and options: breadth-first and neighbors-then-depth report the same vertices, each once, namely the reachable ones that are no start vertices. Depth-first search (not pruned) reports these and in addition only start vertices, and, if start vertices are to be reported, each of them exactly once; topological sorting reports these and the start vertices. On a weighted graph with the same edges, shortest paths and minimum spanning tree report the same vertices as breadth-first, and A* the same set of vertices (each once for consistent heuristics without infinite estimates). If all edges have the weight x, the reported distance is the breadth-first depth times x. Bidirectional breadth-first search finds the depth that breadth-first reports for the goal, and nothing if breadth-first does not report it. If shortest paths reports the goal with distance m, bidirectional shortest path search never says that there is no path, and its result is at least m and at most 2m (that it is m is false of the code, see C31).", "quantifier": "all graphs, start vertices, goals, gears, options, limits, complete runs", "why_tests_cant": "ranges over all graphs and pairs of strategies", "anchors": ["src/nographs/_strategies/traversals/without_weights/breadth_first.py", "src/nographs/_strategies/traversals/without_weights/neighbors_then_depth.py", "src/nographs/_strategies/traversals/without_weights/depth_first.py", "src/nographs/_strategies/traversals/without_weights/topological_sort.py", "src/nographs/_strategies/traversals/with_weights/shortest_paths.py", "src/nographs/_strategies/traversals/with_weights/minimum_spanning_tree.py", "src/nographs/_strategies/traversals/with_weights/a_star.py"]}
{"id": "C96", "title": "Requesting paths changes nothing else", "statement": "A run with build_paths=True and a run with build_paths=False, on the same graph and with the same other arguments, read edges and make reports in the same order, with the same vertices, depths, distances, events, tree edges and visited vertices, and they end in the same way, after any number of steps. Without build_paths, no predecessor and no label is stored. For the bidirectional searches, the length, the failure or the exception are the same. Nothing is assumed about the collections for predecessors and labels. Exception: a depth-first search with is_tree=True does not enter vertices given as already visited if it builds paths, and does enter them if not; it is covered if no vertex is given.", "quantifier": "all graphs, start and goal vertices, options, sets of already visited vertices, known distances, limits, gears (with arbitrary, even unlawful, collections), numbers of steps", "why_tests_cant": "ranges over all graphs, options and collections", "anchors": ["src/nographs/_strategies/traversals/without_weights/breadth_first.py", "src/nographs/_strategies/traversals/without_weights/neighbors_then_depth.py", "src/nographs/_strategies/traversals/without_weights/depth_first.py: _traverse_without_trace", "src/nographs/_strategies/traversals/without_weights/topological_sort.py", "src/nographs/_strategies/traversals/with_weights/shortest_paths.py", "src/nographs/_strategies/traversals/with_weights/a_star.py", "src/nographs/_strategies/traversals/with_weights/minimum_spanning_tree.py", "src/nographs/_strategies/bidirectional_search/breadth_first.py", "src/nographs/_strategies/bidirectional_search/shortest_path.py"]}
{"id": "C97", "title": "The order and the repetition of edges do not change what is found", "statement": "If the edges function gives its edges in another order, or gives some edges (or, with weights, further parallel edges that are not lighter) repeatedly, and the start vertices are given in another order or repeatedly, then complete traversals find the same: breadth-first the same vertices with the same depths, neighbors-then-depth and depth-first the same vertices, topological sorting (one start vertex) the same vertices or in both cases a cycle, shortest paths the same vertices with the same distances, minimum spanning tree the same vertices and a tree of the same total weight, A* with an admissible heuristic the same distance of a goal, bidirectional breadth-first the same length or in both cases nothing. Bidirectional shortest path should find the same length, too, but does not: two parallel edges that change places can change the returned length; proved: the lengths differ by at most the factor 2, and both find a path or none.", "quantifier": "all pairs of graphs that differ only in order, repetition and labels of edges, all start and goal vertices, gears, options, limits, numbers of steps", "why_tests_cant": "ranges over all graphs and all orders of edges", "anchors": ["src/nographs/_strategies/traversals/without_weights/breadth_first.py", "src/nographs/_strategies/traversals/without_weights/neighbors_then_depth.py", "src/nographs/_strategies/traversals/without_weights/depth_first.py", "src/nographs/_strategies/traversals/without_weights/topological_sort.py", "src/nographs/_strategies/traversals/with_weights/shortest_paths.py", "src/nographs/_strategies/traversals/with_weights/a_star.py", "src/nographs/_strategies/traversals/with_weights/minimum_spanning_tree.py", "src/nographs/_strategies/bidirectional_search/breadth_first.py", "src/nographs/_strategies/bidirectional_search/shortest_path.py"]}
{"id": "C98", "title": "The edges of a vertex are asked for only once", "statement": "During a traversal (or, per direction, a bidirectional search), the edges function is called at most once for vertices with equal ids (\"for each vertex, NoGraphs asks for next edges only once\", documentation on graph operations), for distinct start vertices. And for each option and any graph, it is called for a vertex at most as often as the vertex is given as start vertex and reported, together. The first part is violated for start vertices given twice (all strategies but depth-first), for A* with estimates that are inconsistent or infinite, and for depth-first search in the modes ALL_PATHS and ALL_WALKS.", "quantifier": "all graphs, start vertices, gears, options, limits and numbers of steps", "why_tests_cant": "ranges over all graphs and all prefixes of runs; repeated calls give the same results, so that tests of results do not see them", "anchors": ["src/nographs/_strategies/traversals/without_weights/breadth_first.py", "src/nographs/_strategies/traversals/without_weights/neighbors_then_depth.py", "src/nographs/_strategies/traversals/without_weights/depth_first.py", "src/nographs/_strategies/traversals/without_weights/topological_sort.py", "src/nographs/_strategies/traversals/with_weights/shortest_paths.py", "src/nographs/_strategies/traversals/with_weights/a_star.py", "src/nographs/_strategies/traversals/with_weights/minimum_spanning_tree.py", "src/nographs/_strategies/bidirectional_search/breadth_first.py", "src/nographs/_strategies/bidirectional_search/shortest_path.py", "docs/source/graph_operations.rst"]}
{"id": "C99", "title": "The search depth after the end of a breadth-first traversal", "statement": "When a breadth-first traversal has ended, attribute depth is the largest depth of a vertex that can be reached: each reachable vertex can be reached with at most this number of edges, and some need that many (the eccentricity of the set of start vertices). With each option, it is the depth of the vertex reported last, 0 if nothing was reported, and -1 if there are no start vertices.", "quantifier": "all graphs, start vertices, gears, options, limits and numbers of steps for which the traversal ends", "why_tests_cant": "ranges over all graphs; the value is corrected after the last report, where no report shows it", "anchors": ["src/nographs/_strategies/traversals/without_weights/breadth_first.py:TraversalBreadthFirstFlex._traverse", "src/nographs/_strategies/traversals/without_weights/breadth_first.py:TraversalBreadthFirstFlex.depth"]}
