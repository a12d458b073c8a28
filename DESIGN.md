# Design of the formal model of NoGraphs

The model is written in Lean 4 (4.33.0) with selected Mathlib modules. It lives in `lean/Verif/`:

* `Spec/*.lean`   – small specifications that do not mention the model (walks, distances, simple paths, ...).
* `Model/*.lean`  – the model of the Python code, function by function, each definition citing file and lines.
* `Proofs/*.lean` – invariants and helper lemmas.
* `Props/*.lean`  – the property theorems, one file per group, each theorem with an `example` that its
  hypotheses are met by a non-trivial case.

## Modelling approach

* **Generators become step machines** (`Model/Machine.lean`). A generator is a step function from its local variables
  (including a program counter for the position in nested loops) to one of: stop, raise an error, silent step, yield
  a report, expand a vertex (the place where the calculation limit is checked). `runMachine` runs it for
  any number of steps. Each report carries a snapshot of what the user can observe at the moment of the `yield` (vertex,
  depth/distance, paths, visited). Theorems quantify over every number of steps, so they cover consumers that stop
  early and infinite graphs; "the traversal ends" is stated as existence of a sufficient number of steps.
* **Other functions** become total functions, by structural recursion.
* **Exceptions** are values of an enumeration of errors; a run that raises keeps the reports made before.
* **`next_vertices` / `next_edges`** are pure functions from a vertex to a finite list of edges (for the
  infinite-branching strategy: to a stream). Search-aware graphs (the function reads the traversal object, or any other state)
  are modelled separately, by running the strategy models with an edges function that may change from step to step (C70).
  Likewise, generators of start vertices that use the results of the running traversal (C81).
* **Vertex identity** (`vertex_to_id`) is a parameter `vid : V → K`. Vertices with equal id have to have the same
  out-edges up to ids (that is the documented contract of the function).
* **Gear collections** are operation records (`SetOps`, `MapOps`, `DistOps`) with laws. The traversal models are
  parametric in them. The concrete collections (hash based; boolean sequence; bit-packed sequence; list/array
  sequence with default value) are modelled separately down to the sequence operations with `IndexError`, and are
  proved to satisfy the laws.
* **Weights** are elements of any linearly ordered additive commutative monoid (for some properties: group), with
  `zero = 0` and an arbitrary element `inf` as infinity value of the gear. This covers `int`, `Decimal`-like exact
  arithmetic, integer gears with a finite maximum, and extended numbers. The shortest paths traversal is verified for
  weights without associativity of addition, which covers floating point rounding (C75); for the other traversals with
  weights, arithmetic is exact.
* **`heapq`**: in the strategy models, the heap is a sorted list from which the smallest tuple is taken. In the code the
  tuples contain a unique number after the weight, so the minimum is unique. `Model/HeapArray` models the binary heap of
  CPython's `Lib/heapq.py` itself, and C80 proves that all strategies behave on it as they do on the sorted list, and
  that vertices are never compared.

## Trusted base

* Lean's kernel. Axioms: at most `propext`, `Classical.choice`, `Quot.sound`. No own axioms, no `sorry`,
  no `native_decide`, no `bv_decide`.
* The reading of the Python code (done by hand, cited line by line in the model).
* Python library behaviour: `dict`, `set`, `collections.deque`, `itertools`, list/bytearray/array indexing.
* Purity of the user-supplied functions, and exact arithmetic (except for the shortest paths traversal, C75).

## Not modelled

Floating point rounding of sums outside of the shortest paths traversal, fractions and negative numbers in the concrete conversion to 4-byte floats (C83; the theorems there are for any conversion), not-a-number values, exceptions of functions of the application other than the edges function and the heuristic function, memory and run time, `__str__`/`repr`, deprecated aliases, type checking,
threads. Search-aware graphs with A* and inconsistent or infinite estimates, DFS with trace in the modes `ALL_PATHS` and `ALL_WALKS`, and the bidirectional strategies. Nested sequences that share row objects, other than for `Array.mutable_copy` and assignments (C82). Debug prints and `assert` statements that only serve type checkers.

## Properties

| id | model | plan |
|----|-------|------|
| C01–C03 | `Model/Bfs` | invariant over the level loop: visited = ids with hop distance ≤ level or reported so far; no dup; order; completeness from closedness; termination by counting |
| C04 | `Model/Bfs`, `Model/Paths` | invariant: predecessor of a reported vertex was reported one level before; path by induction; stability because entries of visited ids are never written again |
| C05 | all traversal models | the limited run is compared with the unlimited run by induction over the loop |
| C06–C07, C65 | `Model/NeighborsThenDepth` | invariant over stack and markers; order: recursive specification (`Spec/NeighborsThenDepth`), continuation invariant |
| C08–C09 | `Model/DepthFirst` | simulation of recursive DFS (`Spec/Dfs`) by the explicit stack, with a ghost stack of paths; pruning by the consumer is a parameter |
| C10–C15, C57–C59 | `Model/DepthFirstTrace` | simulation of recursive DFS (`Spec/Dfs`, `Spec/DfsEvents`) with ghost frames; defects in C12, C14, C15, C57, C59 (see below): negation by witness, positive part as `_partial` |
| C16–C17, C56 | `Model/Topological` | invariant over the stack with marks for the trace; defect for several start vertices: negation and `_partial`; tree mode by simulation |
| C18–C23 | `Model/Dijkstra` | classical invariant with superseded heap entries, generic weights |
| C24–C25, C62–C64 | `Model/AStar` | invariant "some open vertex on an optimal walk has its final distance"; chains of found walks for the stored paths; simulation by the shortest paths traversal for zero estimates; defect for infinite estimates |
| C26–C27, C60–C61 | `Model/MinimumSpanningTree` | the reports are a Prim sequence (`Spec/SpanningTree`); cut/exchange argument as pairing of edges; stored paths by invariant |
| C28–C30 | `Model/BiBfs` | level-wise invariant of both directions; one-shot iterators as separate input kind (suspected defect) |
| C31–C32 | `Model/BiDijkstra` | invariants of both directions; suspected defect of the stop criterion: negation by witness and `_partial` |
| C33–C34 | `Model/Paths` | induction over histories |
| C35–C39 | `Model/GearCollections` | refinement to finite sets/maps over operation histories; gear independence by simulation |
| C40–C42 | `Model/TraversalMethods` | induction over the report list |
| C43 | `Model/EdgeGadgets` | induction over edge lists |
| C44–C46 | `Model/MatrixGadgets` | algebra on integer lists; induction over dimension |
| C47, C66–C68 | `Model/InfBranching` | filtered simulation by the shortest path model on the graph of states (vertex, edge number), with weights of states as differences; ghost list of states taken from the heap; counted machine for C66 |
| C48–C50 | `Model/Tsp` | algebra on tours; bit sets; bijection of state walks and tours; C50 by the theorems about the bidirectional search for a backward graph without the edges to the start state; defects in C49, C50 (see below) |
| C51–C52 | `Model/Bfs`, `Model/Dijkstra`, `Model/DepthFirst`, `Model/Topological`, `Model/AStar`, `Model/DepthFirstTrace` | corollaries / simulation (`Proofs/AStarTree`, `Proofs/TraceTree` for A* and depth-first search with trace) |
| C53, C69 | `Model/Start` | iterables with state, read by read; the runs started from them are equal to the runs of the strategy models for the list of vertices; decision logic over all option combinations |
| C70 | `Model/SearchAware`, `Model/SearchAwareTrace`, `Model/SearchAwareTopo`, `Model/SearchAwareAStar` | runs with an edges function that changes from step to step; invariant that no id is expanded twice; equality with the run in the graph of the returned edges, then the invariants of the ordinary graph; for the visited set and the distances shown, invariants that refer to the list of calls made so far |
| C71 | the models of the traversals, unchanged | the graph is cut to the finite part that matters (vertices within the bound); termination and completeness there (C09, C20, C24); the run up to the report is also a run of the original graph, since only vertices of this part have been expanded; for the bidirectional search, the lower bound of C31 shows that no vertex farther away than `d` is expanded, and the run equals that on the cut graph |
| C72 | `Model/Shared`: a shared set, a list of started generators, programs as lists of actions (start, step of the i-th generator) | for each step of each strategy: what it adds to the set, reports and still owes; invariant of the system: each edge of a visited vertex leads to a visited vertex or is owed by some generator |
| C73 | `Model/GearTypes.lean` (type codes, `max_value_for_integer_array_type_code`, distances in arrays), with the models of the three strategies with distances | Arithmetic for the type codes; invariant: each element of the sequence is an old element, the default, or a new value below infinity; simulation between runs with different infinity values up to the first overflow |
| C74 | `Model/Topological.lean`, `Model/DepthFirstTrace.lean` | lockstep simulation of two runs with different gears, with the failing assertion as third alternative; the existing no-assertion theorems remove it for one start vertex, resp. for visited ids in the pre-allocated range; counterexamples by evaluation |
| C75 | `spStep` with weights of type `Rounded rd`: numbers of a format, sums are rounded | weaken all lemmas about the traversal to commutative, monotone addition with neutral zero; computed weights of walks and paths in `Spec/Rounding.lean`; error bounds by induction over walks and paths |
| C76 | `Model/Object.lean`: traversal objects, base iterator, created iterators, calls; `Model/ObjectStrategies.lean`: attributes and `start_from` of seven strategies | refinement: each fetching loop of a generator sees the reports of the run and leaves the remaining ones (`seek_le`); hence every history has the outcomes of the calls on a list of reports (`Spec/Object.lean`); then induction over the list |
| C77 | as C76 | rejected start vertices leave the object unchanged; counterexamples for depth-first search and for objects that are not started |
| C78 | `Model/Mixins.lean`: methods inherited from `collections.abc`, as written in CPython 3.11, on the modelled collections | representation invariant `Rep`, one lemma per method, histories of calls compared with `Spec/Mixins.lean` |
| C79 | `Model/Reads.lean`: the sequence of reports and reads of edges of a run, for the eight traversal strategies | invariant over actions and state (`acts_inv`); locality by `run_local`; order: simulation of the textbook algorithms of `Spec/Reads.lean` (`acts_prefix`) |
| C80 | `Model/HeapArray` | `_siftdown`/`_siftup` with the hole filled virtually: heap order below a position except at the hole, permutation by swaps; refinement of the sorted list; lockstep simulation of the five strategies |
| C81 | `Model/StartSource` | runs with a source of start vertices that is asked at the head of the loop over the start vertices; the strategy looks at its start vertices only there (frame property of the step function), hence equality with the run for the list of the returned vertices, and completeness of the run for the vertices returned before |
| C82 | `Model/ArrayStore` | arrays as objects in a store; invariant that the copy consists of lists that occur once and are not part of anything else, for all histories of assignments |
| C83 | `Model/FloatGear` | distance arrays that convert numbers when they are stored; simulation if no computed number is changed, invariant for soundness with each conversion; counterexamples with the conversion to 4-byte floats (`Spec/CFloats`) |
| C84 | `Model/GearFactories` | the factory methods of the gears with their options; the created collections obey the laws, so that the theorems about independence of the gear apply; invariant that the trace set never shrinks; counterexamples without bit packing |
| C85 | `Model/NoneLabels` | labels as optional values on top of C33; induction over the edges of a path; counterexample for the label `None` |
| C86 | `Model/AStar` | invariant with the initial distances as parameter (`Proofs/AStarKnown`), frontier argument for walks that respect the known distances; termination by the finite set of possible distances; simulation of runs with different guesses |
| C87 | models of the unweighted traversals | the invariants of the traversals, taken at the moment of an emitted report (`Reaches.emitted`) |
| C88 | `Model/DepthFirstBoth` (choice of the variant) | both variants refine the recursive search (C08, C10); two recursive searches with the same pruning for the first `N` entered vertices enter the same first `N` vertices |
| C89 | `Model/PathsKinds` (classes of containers and path objects, exceptions at the call and in the iterator) | from C33 and the observations of stored paths |
| C90 | `Model/GivenSets` (check of the kind of the given set) | from C39 and C74 with a gear that differs in the implementation of the set; counterexample for depth-first search with trace |
| C91 | `Model/Raising` (runs that end at the head of a loop over edges), `Model/InfBranchingRaising` | each strategy meets laws about its loops over edges (`Proofs/Raising`: `Interruptible`); induction over the run, compared with the run in the graph with the missing edges |
| C92 | the models of the strategies; `Spec/SameIdentity` (`SameIdentity`, `withId`) | both functions factor over the classes of identified vertices; a gear is pulled back along an injective renaming of ids (`Proofs/SameIdentity`), runs do not change, the pulled-back collections fulfil the laws, and C39/C74 apply |
| C93 | `Model/SearchReads` (`biReads`, `bdReads`: direction and vertex of each read), on top of the models of the bidirectional searches | invariant: both directions alternate level by level, forwards first, so the finished levels of both directions differ by at most one; levels that do not meet exclude short walks (`Proofs/SearchReads`). Shortest paths: no goal is finished, but all vertices nearer than the read one are |
| C94 | `Model/MatrixGadgets` (unchanged: nested lists need not be rectangular); `Spec/Ragged` (`FirstSizes`, `HasCell`) | the loop over the neighbors splits at the first one that cannot be read; the neighbors are sorted by position (C45) |
| C95 | all strategies (models unchanged); `Spec/Agreement` (`ListsNewIds`, `SameEdges`, `ConstWeight`) | each strategy lists exactly the new ids (from C01-C03, C06, C08, C16, C18-C20, C24-C26); then permutations |
| C96 | all strategies (models unchanged); the statement `SameButPaths` is in `Props/PathsOption` | lockstep simulation of the two runs: the states differ only in predecessors and labels |
| C97 | all strategies (models unchanged); specification `Spec/EdgeOrder` | corollaries of the characterizations of the results (C01–C03, C06, C08, C17–C20, C24, C26–C28, C31–C32), which do not mention the order; bidirectional shortest path: negation by witness and `_partial` |
| C98 | the reads of C79 and C93 (models unchanged); specification `Spec/ReadOnce` | the invariants of C70 (no vertex is expanded twice), for a graph that ignores the state of the traversal; for bidirectional searches an invariant per direction; the bound by reports by counting waiting vertices; negation by witnesses and `_partial` |
| C99 | breadth-first (model unchanged) | invariant on the depth of the last report, together with C01–C03; found since a change of the final correction of `depth` survived a mutation campaign |
| C100 | `Model/Skip`: the conversation of a program with a generator, with `throw` and the `try` statements of `depth_first.py`; PEP 479 for uncaught `StopIteration`; specification `Spec/Skip` | the steps use the decision of the consumer for the n-th entered vertex only there; thus a conversation can be replayed with decisions fixed in advance (induction on the calls); case analysis of the reports for the rest |
| C101 | the models of C18, C24, C26, C31, twice, with different types of weights; `Spec/Units`: conversions | lockstep simulation: the heaps, distances and limits of the two runs correspond entry by entry |
| C102 | `Model/SearchRaising`: the searches of C28 and C32, ended at the head of a loop over edges | induction over the run, compared with the run in the graph with the missing edges; invariant: the suspended traversal is not in a loop over edges |
| C103 | `Model/DirectReads`: the strategies with weights, where a direct read of a distance is an `IndexError` if the sequence is too short | invariant: the ids of all candidates on the heap can be read (bidirectional search: and weights are not negative, best length at most infinity); then the steps with and without exceptions agree; false for `is_tree` with provided containers: witnesses, and what happens in general |
| C104 | runs of shortest paths, breadth-first search and bidirectional breadth-first search from different starts, in the reversed graph, and in a graph with more or lighter edges | from exactness (C18, C20, C01, C03, C28), by joining, reversing and transporting walks |
| C105 | `Model/HeuristicCalls`: A* with observed calls of the heuristic function, which may raise | the step uses only the value asked for (congruence of runs); invariants over states and what has been seen so far |
| C106 | `Model/InfBranchingReads`: calls of the edges function and demands to its iterators, besides the reports | the actions are the image of the actions of the search for states (simulation); invariant of that search: actions come in the order of distances, reported states come from states that have been read; C98 for states |
| C107 | the A* and the shortest paths machines of C24 and C18, no new model | frontier invariant of A* (each walk to an unreported vertex passes an open heap entry), admissibility bounds the key of that entry; C20 for the comparison with Dijkstra's algorithm |
| C108 | the A* machine of C24, no new model | invariant: reports are not below the stored path length, and a vertex whose stored path length has not been reported has a heap entry with its current guess |
| C109 | the A* machine of C24, no new model; specification `Spec/AStarBounded` | frontier invariant of A*, as for C107, with the bound in place of admissibility |
| C54 | `Model/DepthFirst` with array gear | negation by witness, positive part for gears with a distinct gap value |

## Disagreements between code and documentation

Confirmed on the model, with a theorem that gives a witness:

* `BSearchShortestPath` may return a non-minimal length: after a superseded heap entry the direction changes
  without updating the other direction's weight, so the stop criterion adds two weights of the same direction
  (`C31_counterexample`; proved instead: at most twice the minimum, and minimal if no superseded entry is met).
* One-shot iterators in `BSearchBreadthFirst` with common start and goal vertices (`C30_counterexample`).
* `go_for_vertices_in` counts repeated reports (C40); range methods may consume two further reports (C42).
* `TraversalTopologicalSort` with several start vertices that depend on each other: wrong order
  (`C16_counterexample_starts`), undetected cycles (`C17_counterexample_starts`), AssertionError with gears for
  integer ids (`C17_counterexample_assertion`); a start vertex given twice is reported twice
  (`C16_counterexample_duplicate`).
* `cycle_from_start` may contain vertices that only wait on the stack and are not part of the walk
  (`C17_counterexample_cycle`).
* Depth-first search with array based gears: no empty path is stored for a second start vertex, or with
  pre-allocation (`C54_counterexample`).

* `TraversalDepthFirst` with trace and labeled edges: `last_labels` after the last vertex was taken from the stack, so
  the label of the last sibling is used (`C15_counterexample`).
* `FORWARD_OR_CROSS_EDGE` is never reported (`C12_counterexample_group`); `CROSS_EDGE` without `BACK_EDGE` reports
  back edges as cross edges (`C12_counterexample_cross`).
* `ALL_WALKS`: re-entering the start vertex along an edge is reported as ENTERING_START (`C14_counterexample`).
* `ALL_PATHS` with `build_paths` and several start vertices: the stored predecessors can form a cycle
  (`C57_counterexample`).
* `BACK_EDGE` with `already_visited` and bit-packed sets: AssertionError (`C59_counterexample`).
* `ALL_WALKS` with `is_tree` is accepted, against the documentation (`C53_counterexample`).
* `TraversalMinimumSpanningTree`: of edges with the same weight, the one found first is preferred, not the most recent one
  (`C61_counterexample`).

- `traveling_salesman`: the backward edges never lead to the start state, against the requirement of the bidirectional search that
  both directions show the same edges (`C49_counterexample`). Therefore, `KeyError` may be raised although a round trip exists
  (`C50_counterexample_key_error`). And as for the bidirectional search (C31), the returned round trip may not be
  optimal, even for complete graphs (`C50_counterexample_length`).
- `TraversalAStar` with a consistent heuristic function that has infinite estimates reports vertices more than once, and
  with path lengths that are not minimal (`C25_counterexample`). The property holds without infinite estimates
  (`C25_astar_consistent_partial`), and with them for all vertices whose own estimate is finite
  (`C25_astar_infinite_partial`). The guarantee for goals (C24) is not affected.
- The documentation of `TraversalAStar` says that vertices are reported ordered by increasing path length. They are not
  (`C62_counterexample`): for consistent heuristic functions, they are ordered by path length plus estimate
  (`C62_astar_order_partial`); vertices with infinite estimates come last (`C62_astar_order_infinite_partial`).
- The distance mappings of gears with sequence based collections raise `KeyError` for a key without value
  (`C38_counterexample`), although the gear protocol (and the docstring of the method) demand the infinity value.
- `adapt_edge_index` with a sequence as index: a negative number as vertex gets the edges of the vertex at that position
  counted from the end (`C43_counterexample_negative`). With `add_inverted`, edges that are given as lists raise a
  `TypeError` (`C43_counterexample_list_edges`).
- `Array.size`, `Array.limits` and the graph adapters of arrays raise an `IndexError` for arrays with an empty dimension
  (`C46_empty_dimension`).
- The docstring of `Position.wrap_to_cuboid` gives the size of a range as `to - from + 1`; the code uses `to - from`, what
  is right for an exclusive upper limit (`C44_wrap`).
- `TraversalShortestPathsInfBranchingSorted`: if the start vertices are given as an iterator that can be used only once,
  with `store_distances` and without `build_paths`, nothing is reported: storing the distances of the start vertices uses
  up the iterator (`C68_counterexample`).
- `combined_calculation_limit` is documented as maximal number of vertices and edges in sum. The code counts expansions of
  states, so up to twice the number may be read (`C66_counterexample`, `C66_ib_limit_partial`).
- `TraversalDepthFirst.start_from` sets start vertices, paths and limit before it checks its options. If the options are
  rejected, a traversal that has been started before, but from which no vertex has been fetched so far, uses the
  start vertices of the rejected call (`C77_counterexample_dfs`). (If vertices have been fetched, the attributes for paths and
  visited vertices, and `depth`, are replaced under the running generator. This is not modelled.)
- A traversal that has not been started raises `RuntimeError` only for the first fetch. From then on, it behaves like an
  exhausted one (`C77_counterexample_not_started`), because the generator that raises the exception has ended.
- The gears with C-native floats are documented as a way to save memory for float weights, with the same results as other gears. With their
  default type code "f", a distance is rounded to 4 bytes when it is stored, and the stored number is compared with the
  8-byte number in the queue. If it has been rounded down (for example, 0.7 or 16777217), the entry is taken for a superseded one, and the
  vertex is never reported (`C83_missing_counterexample`, `C83_astar_counterexample`); the bidirectional search
  reports that there is no path (`C83_bd_counterexample`). If it has been rounded up, a vertex can be reported twice
  (`C83_twice_counterexample`).
- `pre_allocate` of the gears for integer ids: the number of entries for sets of ids is divided by 8 if bit packing is *not* used, instead of
  if it is used (`C84_pre_allocate_counterexample`). Thus, with `no_bit_packing`, ids below `pre_allocate` can be out of range, and depth-first
  search with `BACK_EDGE`, and topological sorting, raise an `AssertionError` (`C84_trace_counterexample`, `C84_topo_counterexample`).
- Labels are documented as "any kind of object". For an edge with label `None`, the iteration of labeled edges of a path raises an
  `AssertionError` (`C85_counterexample`). In all other parts of the model, labels are not `None`.
- Parameter `already_visited` of depth-first search is documented as a way to provide an own way of storing visited vertices. If an
  option needs the trace (or the mode is not `DFS_TREE`), and the gear uses sequences, a set that is not of the kind of the sets of the
  gear leads to an `AssertionError` at the first fetch (`C90_dfs_counterexample`). For topological sorting, this is documented; there,
  the documentation says that with the default gear "a dict" can be given, but a `dict` has no method `add` (not modelled).
- C96: with `is_tree=True` and a non-empty `already_visited`, depth-first search (without trace) consults the set of visited vertices only if paths are built (`depth_first.py` 1173): `build_paths` changes which vertices are reported (`C96_dfs_tree_counterexample`). The comment in the code ("The results do not change, since visited vertices will not be visited again") is about the mode without `is_tree`.
- C97: the length that `BSearchShortestPath` returns depends on the order in which the edges function gives parallel edges (`C97_bd_counterexample`: 20 or 18). This is a consequence of C31: with the heavier edge first, there is a superseded entry.
- C98: the documentation says that NoGraphs asks for the edges of each vertex only once. Not so if a start vertex is given twice (`C98_starts_counterexample`), for A* with inconsistent or infinite estimates (`C98_astar_counterexample`), and in the modes `ALL_PATHS` and `ALL_WALKS` of depth-first search (`C98_dfs_trace_counterexample`, by design of the modes).
