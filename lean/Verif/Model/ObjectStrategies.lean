import Verif.Model.Object

/-!
# The traversal classes as strategies of traversal objects

For each class: its attributes, the assignments in `start_from`, and what the generator reads from the attributes when it
begins. (Attributes that are set by `__init__` only, i.e., edges function, `vertex_to_id`, `is_tree` and gear, are parameters.
The attributes that are only there to be read by the program, like `path_length` or `edge`, are part of the reports and
not listed.)
-/

namespace NoGraphs

variable {V K L S M ML : Type}

/-! ## Strategies without weights -/

/-- Parameters of `start_from` that all strategies without weights have. -/
structure StartArgs (V S : Type) where
  startVertex : Option V
  startVertices : Option (PyIter V)
  buildPaths : Bool
  limit : Option Int
  already : Option S

/-- Attributes of `Traversal` (`traversal.py` 71-99) and of `_TraversalWithoutWeightsWithVisited`
(`traversal_without_weights.py` 100-113). -/
structure VAttrs (V S M ML : Type) where
  starts : PyIter V
  buildPaths : Bool
  limit : Option Int
  preds : M
  labels : ML
  visited : S

variable (g : TravGear V K L S M ML)

/-- `_start_without_weights_with_visited` (`traversal_without_weights.py` 115-157). If the check at the begin of `_start_from`
(`traversal.py` 117-125) fails, no attribute has been changed. -/
def startV (vid : V → K) (isTree emptyPaths visitedForStarts : Bool) (a : StartArgs V S) (p : VAttrs V S M ML) :
    VAttrs V S M ML × Option PyErr :=
  match startWithVisited a.startVertex a.startVertices a.buildPaths emptyPaths isTree visitedForStarts with
  | .error e => (p, some e)
  | .ok (it, ps, vs) =>
    ({ starts := it
       buildPaths := a.buildPaths
       limit := a.limit
       preds := startPreds a.buildPaths vid g.mo ps
       labels := g.lo.empty
       visited := g.so.addAll (a.already.getD g.so.empty) (vs.map vid) }, none)

/-- `TraversalBreadthFirstFlex`: `start_from` (`breadth_first.py` 198-210), begin of `_traverse` (212-276). -/
def bfsStrat (c : TravCfg V K L) :
    Strat (StartArgs V S) (VAttrs V S M ML) Unit (TravCfg V K L) (BfsState V L S M ML) (BfsReport V S M ML) where
  start := startV g c.vid c.isTree true true
  kind _ := ()
  body _ p := .ok ({ c with buildPaths := p.buildPaths }, prepareLimit p.limit,
    { pc := .check, toExpand := p.starts.read.1, nextToExpand := [], depth := 1
      visited := p.visited, preds := p.preds, labels := p.labels })
  step c := bfsStep g c false

/-- `TraversalTopologicalSortFlex`: `start_from` (`topological_sort.py` 183-194), begin of `_traverse`
(196-271, 336-418). -/
def topoStrat (c : TravCfg V K L) :
    Strat (StartArgs V S) (VAttrs V S M ML) Unit (TravCfg V K L) (TopoState V L S M ML) (TopoReport V S M ML) where
  start := startV g c.vid c.isTree true true
  kind _ := ()
  body _ p := .ok ({ c with buildPaths := p.buildPaths }, prepareLimit p.limit,
    { pc := .loop, stack := p.starts.read.1.reverse, leave := p.starts.read.1.map (fun _ => false), trace := g.so.empty
      depth := 0, visited := p.visited, preds := p.preds, labels := p.labels, cycleFromStart := [] })
  step c := if c.isTree then topoTreeStep g c else topoStep g c

/-- Attributes of `TraversalNeighborsThenDepthFlex` (`neighbors_then_depth.py` 119-130). -/
structure NtdAttrs (V S M ML : Type) where
  base : VAttrs V S M ML
  computeDepth : Bool

/-- `TraversalNeighborsThenDepthFlex`: `start_from` (`neighbors_then_depth.py` 202-217), begin of `_traverse`
(219-287). Second component of the parameters: `compute_depth`. -/
def ntdStrat (c : TravCfg V K L) :
    Strat (StartArgs V S × Bool) (NtdAttrs V S M ML) Unit (NtdCfg V K L) (NtdState V L S M ML) (NtdReport V S M ML) where
  start a p :=
    match startV g c.vid c.isTree true true a.1 p.base with
    | (b, some e) => ({ p with base := b }, some e)
    | (b, none) => ({ base := b, computeDepth := a.2 }, none)
  kind _ := ()
  body _ p := .ok (⟨{ c with buildPaths := p.base.buildPaths }, p.computeDepth⟩, prepareLimit p.base.limit,
    { pc := .loop, toExpand := p.base.starts.read.1.reverse
      markers := if p.computeDepth then List.replicate p.base.starts.read.1.length false else []
      depth := -1, selfDepth := if p.computeDepth then 0 else -1
      visited := p.base.visited, preds := p.base.preds, labels := p.base.labels })
  step c := ntdStep g c

/-! ## Depth-first search -/

/-- Parameters of `start_from` of `TraversalDepthFirstFlex` (`depth_first.py` 177-196). -/
structure DfsArgs (V S : Type) where
  base : StartArgs V S
  computeDepth : Bool
  mode : DfsMode
  report : DfsEvent → Bool
  computeTrace : Bool
  computeOnTrace : Bool
  computeIndex : Bool

/-- The parameters as options to be checked. -/
def DfsArgs.options (a : DfsArgs V S) (isTree : Bool) : DfsOptions where
  isTree := isTree
  mode := a.mode
  report := a.report
  buildPaths := a.base.buildPaths
  computeTrace := a.computeTrace
  computeOnTrace := a.computeOnTrace
  computeIndex := a.computeIndex
  alreadyGiven := a.base.already.isSome

/-- Attributes of `TraversalDepthFirstFlex` (`depth_first.py` 133-175). -/
structure DfsAttrs (V S M ML : Type) where
  base : VAttrs V S M ML
  depth : Int
  computeDepth : Bool
  mode : DfsMode
  report : DfsEvent → Bool
  computeTrace : Bool
  computeOnTrace : Bool
  computeIndex : Bool

/-- What is fixed at the creation of a depth-first traversal; `skip` as for the strategies. -/
structure DfsFixed (V K L : Type) where
  next : V → List (V × L)
  vid : V → K
  isTree : Bool
  labeled : Bool
  skip : Nat → Bool

/-- Reports of the two variants of depth-first search. -/
def dfsSumStep [DecidableEq V] [DecidableEq K] :
    DfsCfg V K L ⊕ TraceCfg V K L → DfsState V L S M ML ⊕ TraceState V K L S M ML →
    Step (DfsState V L S M ML ⊕ TraceState V K L S M ML) (DfsReport V S M ML ⊕ TraceReport V K L S M ML)
  | .inl c, .inl s =>
    match dfsStep g c s with
    | .stop s => .stop (.inl s)
    | .fail e => .fail e
    | .tau s => .tau (.inl s)
    | .emit r s => .emit (.inl r) (.inl s)
    | .expand s => .expand (.inl s)
  | .inr c, .inr s =>
    match trStep g c s with
    | .stop s => .stop (.inr s)
    | .fail e => .fail e
    | .tau s => .tau (.inr s)
    | .emit r s => .emit (.inr r) (.inr s)
    | .expand s => .expand (.inr s)
  | _, s => .stop s

/-- `start_from` of `TraversalDepthFirstFlex` (`depth_first.py` 278-389): attributes are set before the check of the options
(lines 279-290), and after it (lines 376-386). -/
def dfsStart (f : DfsFixed V K L) (a : DfsArgs V S) (p : DfsAttrs V S M ML) : DfsAttrs V S M ML × Option PyErr :=
  match startV g f.vid f.isTree false false a.base p.base with
  | (b, some e) => ({ p with base := b }, some e)
  | (b, none) =>
    let p := { p with base := b, depth := if a.computeDepth then 0 else -1 }        -- lines 279-290
    match dfsOptions (a.options f.isTree) with
    | none => (p, some .runtimeError)                                               -- lines 292-374
    | some o =>                                                                     -- lines 376-386
      ({ p with
         report := a.report, mode := a.mode, computeDepth := a.computeDepth
         computeTrace := o.computeTrace, computeOnTrace := o.computeOnTrace, computeIndex := o.computeIndex }, none)

/-- `TraversalDepthFirstFlex`. The variant (`true`: with trace) is chosen when the generator is created (lines 391-398);
begin of the generators: lines 400-560 and 938-1043. -/
def dfsStrat [DecidableEq V] [DecidableEq K] (f : DfsFixed V K L) :
    Strat (DfsArgs V S) (DfsAttrs V S M ML) Bool (DfsCfg V K L ⊕ TraceCfg V K L)
      (DfsState V L S M ML ⊕ TraceState V K L S M ML) (DfsReport V S M ML ⊕ TraceReport V K L S M ML) where
  start := dfsStart g f
  kind p := p.computeTrace || p.mode != .dfsTree
  body t p :=
    let c : TravCfg V K L := ⟨f.next, f.vid, f.isTree, p.base.buildPaths⟩
    if t then
      .ok (.inr { c with
          computeDepth := p.computeDepth, mode := p.mode, report := p.report, computeOnTrace := p.computeOnTrace
          computeIndex := p.computeIndex, labeled := f.labeled, skip := f.skip },
        prepareLimit p.base.limit,
        .inr { trInit g p.base.visited p.base.starts.read.1 with
          depth := if p.computeDepth then p.depth - 1 else p.depth                  -- lines 480-483
          preds := p.base.preds, labels := p.base.labels })
    else
      .ok (.inl { c with
          computeDepth := p.computeDepth, reportStart := p.report .enteringStart
          reportSucc := p.report .enteringSuccessor, skip := f.skip },
        prepareLimit p.base.limit,
        .inl { pc := .start, starts := p.base.starts.read.1, cur := none, toVisit := [], markers := [], depth := -1
               selfDepth := if p.computeDepth then p.depth else -1, n := 0, event := .none   -- lines 1012-1015
               visited := p.base.visited, preds := p.base.preds, labels := p.base.labels })
  step := dfsSumStep g

/-! ## Strategies with weights -/

/-- Parameters of `start_from` of the strategies with weights. -/
structure WStartArgs (V : Type) where
  startVertex : Option V
  startVertices : Option (PyIter V)
  buildPaths : Bool
  limit : Option Int

/-- Attributes of `Traversal` (`traversal.py` 71-99), and `_start_vertices_and_ids`. -/
structure WAttrs (V M ML : Type) where
  starts : List V
  buildPaths : Bool
  limit : Option Int
  preds : M
  labels : ML

/-- `_start_from` (`traversal.py` 102-147), followed by the list of the start vertices (for example
`shortest_paths.py` 182-184). -/
def startW (vid : V → K) (mo : MapOps M K V) (lo : MapOps ML K L) (a : WStartArgs V) (p : WAttrs V M ML) :
    WAttrs V M ML × Option PyErr :=
  match startFrom a.startVertex a.startVertices a.buildPaths true with
  | .error e => (p, some e)
  | .ok (it, ps) =>
    ({ starts := it.read.1
       buildPaths := a.buildPaths
       limit := a.limit
       preds := startPreds a.buildPaths vid mo ps
       labels := lo.empty }, none)

section
variable {W D : Type} [AddCommMonoid W] [LinearOrder W] (g : WGear V K L W M ML D)

/-- Attributes of `TraversalShortestPathsFlex` (`shortest_paths.py` 104-120). -/
structure SpAttrs (V M ML D : Type) where
  base : WAttrs V M ML
  keepDistances : Bool
  dist : D

/-- `TraversalShortestPathsFlex`: `start_from` (`shortest_paths.py` 173-208), begin of `_traverse` (210-272). The parameters are
the general ones, `keep_distances`, and `known_distances`. -/
def spStrat (c : WCfg V K L W) :
    Strat (WStartArgs V × Bool × Option D) (SpAttrs V M ML D) Unit (WCfg V K L W) (SpState V L W M ML D)
      (SpReport V W M ML D) where
  start a p :=
    match startW c.vid g.mo g.lo a.1 p.base with
    | (b, some e) => ({ p with base := b }, some e)
    | (b, none) => ({ base := b, keepDistances := a.2.1, dist := spDistances g c a.2.2 b.starts }, none)
  kind _ := ()
  body _ p := .ok ({ c with buildPaths := p.base.buildPaths, keepDistances := p.keepDistances }, prepareLimit p.base.limit,
    { pc := .loop, heap := heapify (spStartEntries g c p.dist p.base.starts 256), no := 256 - p.base.starts.length
      dist := p.dist, preds := p.base.preds, labels := p.base.labels })
  step c := spStep g c

/-- Attributes of `TraversalAStarFlex` (`a_star.py` 122-144). -/
structure AStarAttrs (V W M ML D : Type) where
  base : WAttrs V M ML
  heur : V → W
  guesses : Option D
  dist : D

/-- Parameters of `start_from` of `TraversalAStarFlex` (`a_star.py` 146-163). -/
structure AStarArgs (V W D : Type) where
  base : WStartArgs V
  heur : V → W
  known : Option D
  guesses : Option D

/-- `TraversalAStarFlex`: `start_from` (`a_star.py` 205-244), begin of `_traverse` (246-330). -/
def aStrat (c : AStarCfg V K L W) :
    Strat (AStarArgs V W D) (AStarAttrs V W M ML D) Unit (AStarCfg V K L W) (AStarState V L W M ML D)
      (AStarReport V W M ML D) where
  start a p :=
    match startW c.vid g.mo g.lo a.base p.base with
    | (b, some e) => ({ p with base := b }, some e)
    | (b, none) => ({ base := b, heur := a.heur, guesses := a.guesses, dist := aDistances g c a.known b.starts }, none)
  kind _ := ()
  body _ p :=
    let c := { c with buildPaths := p.base.buildPaths, heur := p.heur }
    let gu := aGuesses g c p.guesses p.dist p.base.starts
    .ok (c, prepareLimit p.base.limit,
      { pc := .loop, heap := heapify (aStartEntries g c gu p.base.starts 256), no := 256 - p.base.starts.length
        dist := p.dist, guesses := gu, preds := p.base.preds, labels := p.base.labels })
  step c := aStep g c

end

/-- `TraversalMinimumSpanningTreeFlex`: `start_from` (`minimum_spanning_tree.py` 145-165), begin of `_traverse` (167-231). A
limit that is lower than the number of start vertices leads to an exception (lines 203-213). -/
def mstStrat {W : Type} [LinearOrder W] (c : MstCfg V K L W) :
    Strat (WStartArgs V) (WAttrs V M ML) Unit (MstCfg V K L W) (MstState V L W S M ML) (MstReport V L W M ML) where
  start := startW c.vid g.mo g.lo
  kind _ := ()
  body _ p :=
    if p.limit.any (fun k : Int => 0 ≤ k && k < p.starts.length) then .error .runtimeError
    else .ok ({ c with buildPaths := p.buildPaths }, prepareLimit p.limit,
      { pc := .starts p.starts, heap := [], no := 0, visited := g.so.addAll g.so.empty (p.starts.map c.vid)
        preds := p.preds, labels := p.labels })
  step c := mstStep g c

end NoGraphs
