import Verif.Model.AStar
import Verif.Model.Bfs
import Verif.Model.BiDijkstra
import Verif.Model.DepthFirstTrace
import Verif.Model.InfBranching
import Verif.Model.MinimumSpanningTree
import Verif.Model.NeighborsThenDepth
import Verif.Model.ShortestPaths
import Verif.Model.Topological

/-!
# Model of the creation and the start of strategies

* the choice of the edges function when a strategy is created: `traversal_without_weights.py` 31-66,
  `traversal_with_weights.py` 27-50, `bidirectional_search/base.py` 32-95,
* `Traversal._start_from` (`traversal.py` 102-147), `_start_without_weights_with_visited`
  (`traversal_without_weights.py` 115-157), and what the methods `start_from` and the begin of `_traverse` of the
  strategies do with the start vertices.

An iterable of start vertices is modelled with its state: reading it yields vertices, and may leave it empty. The runs of
the strategies are those of their models; only the values that come from start vertices are computed here, read by read.

Simplifications: `None` is no vertex. Not modelled: the check that `start_from` is called for an object of the right class.
-/

namespace NoGraphs

variable {V K L S M ML F : Type}

/-! ## Edge functions -/

/-- `_create_unified_next` (`traversal_without_weights.py` 31-66) and, for pairs of functions,
`_create_unified_next_bidirectional` (`bidirectional_search/base.py` 32-66, the same code): the chosen function,
`edges_with_data`, and `labeled_edges`. -/
def createUnifiedNext (nextVertices nextEdges nextLabeledEdges : Option F) : Except PyErr (F × Bool × Bool) :=
  match nextVertices with
  | some f =>
    if nextEdges.isSome then .error .runtimeError
    else if nextLabeledEdges.isSome then .error .runtimeError
    else .ok (f, false, false)
  | none =>
    match nextEdges with
    | some f => if nextLabeledEdges.isSome then .error .runtimeError else .ok (f, true, false)
    | none =>
      match nextLabeledEdges with
      | none => .error .runtimeError
      | some f => .ok (f, true, true)

/-- `_create_unified_next_weighted` (`traversal_with_weights.py` 27-50) and
`_create_unified_next_weighted_bidirectional` (`bidirectional_search/base.py` 69-95, the same code): the chosen function
and `labeled_edges`. -/
def createUnifiedNextWeighted (nextEdges nextLabeledEdges : Option F) : Except PyErr (F × Bool) :=
  match nextEdges with
  | some f => if nextLabeledEdges.isSome then .error .runtimeError else .ok (f, false)
  | none =>
    match nextLabeledEdges with
    | none => .error .runtimeError
    | some f => .ok (f, true)

/-! ## Iterables -/

/-- A Python iterable, with its state: a `Collection`; an object with `__iter__` that can be iterated again and again, but
is no `Collection`; an iterator with the elements that are left. -/
inductive PyIter (V : Type) where
  | collection (xs : List V)
  | reiterable (xs : List V)
  | iterator (rest : List V)

/-- Iterate over all elements: the elements, and the iterable afterwards. -/
def PyIter.read : PyIter V → List V × PyIter V
  | .collection xs => (xs, .collection xs)
  | .reiterable xs => (xs, .reiterable xs)
  | .iterator xs => (xs, .iterator [])

/-- `isinstance(iterable, Collection)`. -/
def PyIter.isCollection : PyIter V → Bool
  | .collection _ => true
  | _ => false

/-- `gear.sequence_of_vertices(iterable)` (`_gears.py` 349-352, 576-579, 831-834): a new collection. -/
def PyIter.toSequence (it : PyIter V) : PyIter V := .collection it.read.1

/-! ## The start -/

/-- `Traversal._start_from` (`traversal.py` 102-147): the attribute `_start_vertices` afterwards, and the vertices that
get an empty path. -/
def startFrom (startVertex : Option V) (startVertices : Option (PyIter V)) (buildPaths emptyPaths : Bool) :
    Except PyErr (PyIter V × List V) :=
  let create (it : PyIter V) : PyIter V × List V :=                    -- lines 138-144, `create_paths`
    if emptyPaths && buildPaths then (it.read.2, it.read.1) else (it, [])
  match startVertex with
  | some v => if startVertices.isSome then .error .runtimeError else .ok (create (.collection [v]))   -- lines 117-120
  | none =>
    match startVertices with
    | none => .error .runtimeError                                     -- lines 122-123
    | some it =>
      if buildPaths && emptyPaths && !it.isCollection then .ok (create it.toSequence)    -- lines 124-132
      else .ok (create it)

/-- `_start_without_weights_with_visited` (`traversal_without_weights.py` 115-157): `_start_vertices`, the vertices with
empty paths, and the vertices that are marked as visited. (With `is_tree`, `define_visited` does not read the vertices:
`_strategies/utils.py` 119-129.) -/
def startWithVisited (startVertex : Option V) (startVertices : Option (PyIter V))
    (buildPaths emptyPaths isTree visitedForStarts : Bool) : Except PyErr (PyIter V × List V × List V) :=
  match startFrom startVertex startVertices buildPaths emptyPaths with
  | .error e => .error e
  | .ok (it, ps) =>
    let it := if visitedForStarts && !(startVertices.any PyIter.isCollection) then it.toSequence else it  -- lines 143-147
    if visitedForStarts && !isTree then .ok (it.read.2, ps, it.read.1) else .ok (it, ps, [])

/-! ## The strategies without weights -/

section
variable (g : TravGear V K L S M ML) (c : TravCfg V K L)

/-- The predecessors with an entry for each start vertex (`create_paths`, `_strategies/utils.py` 171-182). -/
def startPreds (buildPaths : Bool) (vid : V → K) (mo : MapOps M K V) (ps : List V) : M :=
  if buildPaths then mo.setAll mo.empty (ps.map (fun v => (vid v, v))) else mo.empty

/-- Breadth-first search: `start_from` (`breadth_first.py` 198-205), the reads of start vertices in `_traverse`
(line 267), and the iteration. -/
def bfsStartRun (already : S) (startVertex : Option V) (startVertices : Option (PyIter V)) (limit : Option Int)
    (fuel : Nat) : Except PyErr (RunResult (BfsState V L S M ML) (BfsReport V S M ML)) :=
  match startWithVisited startVertex startVertices c.buildPaths true c.isTree true with
  | .error e => .error e
  | .ok (it, ps, vs) => .ok (runMachine (bfsStep g c false) fuel (prepareLimit limit)
    { bfsInit g c already it.read.1 with
      visited := g.so.addAll already (vs.map c.vid), preds := startPreds c.buildPaths c.vid g.mo ps })

/-- Neighbors-then-depth: `neighbors_then_depth.py` 202-216, 277-287. -/
def ntdStartRun (c : NtdCfg V K L) (already : S) (startVertex : Option V) (startVertices : Option (PyIter V))
    (limit : Option Int) (fuel : Nat) : Except PyErr (RunResult (NtdState V L S M ML) (NtdReport V S M ML)) :=
  match startWithVisited startVertex startVertices c.buildPaths true c.isTree true with
  | .error e => .error e
  | .ok (it, ps, vs) => .ok (runMachine (ntdStep g c) fuel (prepareLimit limit)
    { ntdInit g c already it.read.1 with
      visited := g.so.addAll already (vs.map c.vid), preds := startPreds c.buildPaths c.vid g.mo ps })

/-- Topological sort: `topological_sort.py` 183-194, 264, 406. -/
def topoStartRun (already : S) (startVertex : Option V) (startVertices : Option (PyIter V)) (limit : Option Int)
    (fuel : Nat) : Except PyErr (RunResult (TopoState V L S M ML) (TopoReport V S M ML)) :=
  match startWithVisited startVertex startVertices c.buildPaths true c.isTree true with
  | .error e => .error e
  | .ok (it, ps, vs) => .ok (runMachine (if c.isTree then topoTreeStep g c else topoStep g c) fuel (prepareLimit limit)
    { topoInit g c already it.read.1 with
      visited := g.so.addAll already (vs.map c.vid), preds := startPreds c.buildPaths c.vid g.mo ps })

/-- Depth-first search without trace: `depth_first.py` 278-287, 1045. -/
def dfsStartRun [DecidableEq V] (c : DfsCfg V K L) (already : S) (startVertex : Option V)
    (startVertices : Option (PyIter V)) (limit : Option Int) (fuel : Nat) :
    Except PyErr (RunResult (DfsState V L S M ML) (DfsReport V S M ML)) :=
  match startWithVisited startVertex startVertices c.buildPaths false c.isTree false with
  | .error e => .error e
  | .ok (it, ps, vs) => .ok (runMachine (dfsStep g c) fuel (prepareLimit limit)
    { dfsInit g c already it.read.1 with
      visited := g.so.addAll already (vs.map c.vid), preds := startPreds c.buildPaths c.vid g.mo ps })

/-- Depth-first search with trace: `depth_first.py` 278-287, 562. -/
def trStartRun [DecidableEq V] [DecidableEq K] (c : TraceCfg V K L) (already : S) (startVertex : Option V)
    (startVertices : Option (PyIter V)) (limit : Option Int) (fuel : Nat) :
    Except PyErr (RunResult (TraceState V K L S M ML) (TraceReport V K L S M ML)) :=
  match startWithVisited startVertex startVertices c.buildPaths false c.isTree false with
  | .error e => .error e
  | .ok (it, ps, vs) => .ok (runMachine (trStep g c) fuel (prepareLimit limit)
    { trInit g already it.read.1 with
      visited := g.so.addAll already (vs.map c.vid), preds := startPreds c.buildPaths c.vid g.mo ps })

end

/-! ## The strategies with weights -/

section
variable {W D : Type} [AddCommMonoid W] [LinearOrder W] (g : WGear V K L W M ML D) (c : WCfg V K L W)

/-- Shortest paths: `shortest_paths.py` 173-200, 263-271. The start vertices are read into the tuple
`_start_vertices_and_ids`. -/
def spStartRun (known : Option D) (startVertex : Option V) (startVertices : Option (PyIter V)) (limit : Option Int)
    (fuel : Nat) : Except PyErr (RunResult (SpState V L W M ML D) (SpReport V W M ML D)) :=
  match startFrom startVertex startVertices c.buildPaths true with
  | .error e => .error e
  | .ok (it, ps) => .ok (runMachine (spStep g c) fuel (prepareLimit limit)
    { spInit g c known it.read.1 with preds := startPreds c.buildPaths c.vid g.mo ps })

/-- A*: `a_star.py` 205-236, 299-329. -/
def aStartRun (c : AStarCfg V K L W) (known knownGuesses : Option D) (startVertex : Option V)
    (startVertices : Option (PyIter V)) (limit : Option Int) (fuel : Nat) :
    Except PyErr (RunResult (AStarState V L W M ML D) (AStarReport V W M ML D)) :=
  match startFrom startVertex startVertices c.buildPaths true with
  | .error e => .error e
  | .ok (it, ps) => .ok (runMachine (aStep g c) fuel (prepareLimit limit)
    { aInit g c known knownGuesses it.read.1 with preds := startPreds c.buildPaths c.vid g.mo ps })

/-- Minimum spanning tree: `minimum_spanning_tree.py` 145-157, 199-227. -/
def mstStartRun (g : TravGear V K L S M ML) (c : MstCfg V K L W) (startVertex : Option V)
    (startVertices : Option (PyIter V)) (limit : Option Int) (fuel : Nat) :
    Except PyErr (RunResult (MstState V L W S M ML) (MstReport V L W M ML)) :=
  match startFrom startVertex startVertices c.buildPaths true with
  | .error e => .error e
  | .ok (it, ps) =>
    let s := { mstInit g c it.read.1 with preds := startPreds c.buildPaths c.vid g.mo ps }
    if limit.any (fun k : Int => 0 ≤ k && k < it.read.1.length) then
      .ok { events := [], ending := .raised .runtimeError, final := s }
    else .ok (runMachine (mstStep g c) fuel (prepareLimit limit) s)

/-- Shortest paths with infinite branching: `extra_infinite_branching.py` 160-183, 238. If distances are stored, the start
vertices are read once more. -/
def ibStartRun {Mo Do : Type} [DecidableEq V] (g : WGear (V × Nat) (V × Nat) Unit W M ML D) (o : IbGear V W Mo Do)
    (c : IbCfg V W) (startVertex : Option V) (startVertices : Option (PyIter V)) (limit : Option Int) (fuel : Nat) :
    Except PyErr (RunResult (IbState V W M ML D Mo Do) (IbReport V W Mo Do)) :=
  match startFrom startVertex startVertices c.buildPaths true with
  | .error e => .error e
  | .ok (it, ps) =>
    let (ds, it) := if c.storeDistances then it.read else ([], it)
    .ok (runMachine (ibStep g o c) fuel (prepareLimit limit)
      { ibInit g o c true it.read.1 with
        preds := startPreds c.buildPaths id o.mo ps
        dist := if c.storeDistances then o.dd.setAll o.dd.empty (ds.map (fun v => (v, 0))) else o.dd.empty })

/-! ## The bidirectional searches -/

/-- The choice of start and goal vertices (`bidirectional_search/breadth_first.py` 176-190, `shortest_path.py` 161-175). -/
def bdStartGoal (pair : Option (V × V)) (vertices : Option (PyIter V × PyIter V)) :
    Except PyErr (PyIter V × PyIter V) :=
  match pair with
  | some (s, t) => if vertices.isSome then .error .runtimeError else .ok (.collection [s], .collection [t])
  | none =>
    match vertices with
    | none => .error .runtimeError
    | some its => .ok its

/-- Bidirectional shortest path: `shortest_path.py` 161-198, 257-263. The containers for paths get `starts` and `goals`
from a first read, everything else is taken from the tuples of a second read. -/
def bdStartSearch [DecidableEq V] [DecidableEq K] (c : BdCfg V K L W) (pair : Option (V × V))
    (vertices : Option (PyIter V × PyIter V)) (limit : Option Int) (fuel pathFuel : Nat) :
    Except PyErr (SearchResult W V L) :=
  match bdStartGoal pair vertices with
  | .error e => .error e
  | .ok (fi, bi) =>
    let conv (it : PyIter V) := if pair.isNone && c.buildPath && !it.isCollection then it.toSequence else it  -- 176-183
    let create (it : PyIter V) : List V × PyIter V := if c.buildPath then it.read else ([], it)               -- 185-198
    let (fp, fi) := create (conv fi)
    let (bp, bi) := create (conv bi)
    let starts := fi.read.1                                              -- lines 257-263
    let goals := bi.read.1
    .ok (match starts, goals with
    | [], _ => .notFound
    | _, [] => .notFound
    | start :: _, _ :: _ =>
      match biCommon c.vid starts goals true true with
      | some v => .found 0 (.fromVertex v)
      | none =>
        let s := bdInit g c start starts goals limit
        let s := { s with
          fw := { s.fw with preds := startPreds c.buildPath c.vid g.mo fp }
          bw := { s.bw with preds := startPreds c.buildPath c.vid g.mo bp } }
        let r := runMachine (bdStep g c) fuel none s
        match r.ending with
        | .done => if r.final.found then .found r.final.best (bdPath g c r.final pathFuel) else .notFound
        | .raised e => .raised e
        | .outOfFuel => .outOfFuel)

end

/-- Bidirectional breadth-first search: `bidirectional_search/breadth_first.py` 176-255. The two traversals are started
with the iterables (which they read completely, see `startWithVisited`), and afterwards the iterables are read again. -/
def biStartSearch [DecidableEq V] [DecidableEq K] (g : TravGear V K L S M ML) (c : BiCfg V K L) (pair : Option (V × V))
    (vertices : Option (PyIter V × PyIter V)) (limit : Option Int) (fuel : Nat) : Except PyErr (SearchResult Int V L) :=
  match bdStartGoal pair vertices with
  | .error e => .error e
  | .ok (fi, bi) =>
    match startWithVisited none (some fi) c.buildPath true false true,
      startWithVisited none (some bi) c.buildPath true false true with
    | .error e, _ => .error e
    | _, .error e => .error e
    | .ok (ft, fp, fv), .ok (bt, bp, bv) =>
      let starts := fi.read.2.read.1                                     -- lines 238-255
      let goals := bi.read.2.read.1
      .ok (match biCommon c.vid starts goals true true with
      | some v => .found 0 (.fromVertex v)
      | none =>
        let s := biInit g c ft.read.1 bt.read.1 limit
        let s := { s with
          fw := { s.fw with st := { s.fw.st with
            visited := g.so.addAll g.so.empty (fv.map c.vid), preds := startPreds c.buildPath c.vid g.mo fp } }
          bw := { s.bw with st := { s.bw.st with
            visited := g.so.addAll g.so.empty (bv.map c.vid), preds := startPreds c.buildPath c.vid g.mo bp } } }
        let r := runMachine (biStep g c) fuel none s
        match r.ending with
        | .done =>
          match r.final.result with
          | some (n, p) => .found n p
          | none => .notFound
        | .raised e => .raised e
        | .outOfFuel => .outOfFuel)

end NoGraphs
