import Verif.Model.DepthFirst

/-!
# Model of `src/nographs/_strategies/traversals/without_weights/depth_first.py`, variant with trace

`_traverse_with_trace` (lines 400-936), and the part of `start_from` that checks the options and derives further ones
(lines 292-374, 391-398).

As in the variant without trace, `skip n` says whether the consumer throws `StopIteration` into the generator at the
report of the `n`-th entered vertex (`skip_expanding_entered_vertex`, lines 1326-1342).

Simplification: the mapping from vertex ids to indices is a function with default value 0. (In the code, it is a
`defaultdict` or a sequence. It is only read for ids that have got an index before, so a read is never out of range.)
-/

namespace NoGraphs

variable {V K L S M ML : Type}

/-- `DFSMode` (`depth_first_enum_types.py` 101-128). -/
inductive DfsMode where
  | dfsTree | allPaths | allWalks
deriving DecidableEq

/-- The parameters of `start_from` that matter for the check of options (`depth_first.py` 177-190), and `is_tree`.
`report` is the set of requested events. -/
structure DfsOptions where
  isTree : Bool
  mode : DfsMode
  report : DfsEvent → Bool
  buildPaths : Bool
  computeTrace : Bool
  computeOnTrace : Bool
  computeIndex : Bool
  /-- `already_visited is not None` -/
  alreadyGiven : Bool

/-- One of the events of `NON_TREE_EDGES` is requested (`depth_first_enum_types.py` 95). -/
def DfsOptions.nonTree (o : DfsOptions) : Bool :=
  o.report .forwardEdge || o.report .backEdge || o.report .crossEdge

/-- The check of options and the derived ones (`depth_first.py` 292-374). `none`: `RuntimeError`. -/
def dfsOptions (o : DfsOptions) : Option DfsOptions :=
  if o.report .someNonTreeEdge && o.nonTree then none                                      -- lines 293-297
  else if o.report .forwardOrCrossEdge && (o.report .forwardEdge || o.report .crossEdge) then none  -- 298-304
  else
    let onTrace := o.computeOnTrace ||
      (!o.isTree && (o.nonTree || o.report .forwardOrCrossEdge || o.mode == .allPaths))     -- lines 305-318
    let index := o.computeIndex || (!o.isTree && (o.report .forwardEdge || o.report .crossEdge))  -- 319-322
    let onlyEntering := !(o.report .leavingStart || o.report .leavingSuccessor || o.report .skippingStart ||
      o.report .backEdge || o.report .forwardEdge || o.report .crossEdge || o.report .someNonTreeEdge ||
      o.report .forwardOrCrossEdge)
    let trace := o.computeTrace || !onlyEntering || index || onTrace                        -- lines 323-331
    if (o.nonTree || o.report .someNonTreeEdge || o.report .forwardOrCrossEdge) &&
      (o.isTree || o.mode == .allWalks) then none                                           -- lines 334-344
    else if onTrace && (o.isTree || o.mode == .allWalks) then none                          -- lines 345-349
    else if (o.report .forwardEdge || o.report .crossEdge || o.report .someNonTreeEdge ||
      o.report .forwardOrCrossEdge) && o.mode == .allPaths then none                        -- lines 350-364
    else if o.buildPaths && o.mode == .allWalks then none                                   -- lines 365-369
    else if index && o.alreadyGiven then none                                               -- lines 370-374
    else some { o with computeTrace := trace, computeOnTrace := onTrace, computeIndex := index }

/-- `_traverse` chooses the variant with trace (lines 391-398). -/
def DfsOptions.withTrace (o : DfsOptions) : Bool := o.computeTrace || o.mode != .dfsTree

/-- The options of the traversal. -/
structure TraceCfg (V K L : Type) extends TravCfg V K L where
  computeDepth : Bool
  mode : DfsMode
  report : DfsEvent → Bool
  computeOnTrace : Bool
  computeIndex : Bool
  labeled : Bool
  skip : Nat → Bool

/-- The options of the traversal are the result of the check of some options given to `start_from` (lines 292-381), and the
variant with trace is used. `given`: `already_visited is not None`. -/
def TraceCfg.Accepted (c : TraceCfg V K L) (given : Bool) : Prop :=
  ∃ o o', dfsOptions o = some o' ∧ o'.withTrace = true ∧ c.isTree = o'.isTree ∧ c.mode = o'.mode ∧
    c.report = o'.report ∧ c.buildPaths = o'.buildPaths ∧ c.computeOnTrace = o'.computeOnTrace ∧
    c.computeIndex = o'.computeIndex ∧ o'.alreadyGiven = given

/-- Where the generator is. -/
inductive TracePc (V L : Type) where
  /-- head of `for start_vertex in self._start_vertices` (line 562) -/
  | start
  /-- head of `while to_leave_markers` (line 578); `nl` is `no_leaving_reported_so_far` -/
  | loop (nl : Bool)
  /-- `v` is left and, if requested, this has been reported (before line 597, resp. 604); `last`: it is the only vertex
  on the trace -/
  | leave (v : V) (last : Bool) (nl : Bool)
  /-- a skipped start vertex has been reported (before line 705) -/
  | startShown
  /-- a non-tree edge has been reported (before line 817) -/
  | edgeShown
  /-- `v` has been entered and, if `rep`, reported (before line 917) -/
  | entered (v : V) (rep : Bool)
  /-- head of `for edge_or_vertex in next_edge_or_vertex(...)` (line 922), remaining edges -/
  | edges (v : V) (es : List (V × L))

/-- The variables of `_traverse_with_trace`. All stacks have their top (end of the Python sequence) first. `starts` is
the rest of `self._start_vertices`, `cur` is `start_vertex`, `toLabels` is `to_visit_labels`, `markers` is
`to_leave_markers`, `lab` is the local variable `labels` (`none`: not bound yet), `depth` is `self.depth`, and `n` counts
entered vertices (a ghost variable used as argument of `skip`). -/
structure TraceState (V K L S M ML : Type) where
  pc : TracePc V L
  starts : List V
  cur : Option V
  toVisit : List V
  toLabels : List L
  markers : List Bool
  lab : Option L
  depth : Int
  n : Nat
  event : DfsEvent
  time : Nat
  visited : S
  onTrace : S
  trace : List V
  traceLabels : List L
  index : K → Nat
  preds : M
  labels : ML

/-- A report: the vertex and the attributes of the traversal at that moment. Here, `trace` and `traceLabels` are in the
order of the Python sequences. -/
structure TraceReport (V K L S M ML : Type) where
  vertex : V
  depth : Int
  event : DfsEvent
  visited : S
  onTrace : S
  trace : List V
  traceLabels : List L
  index : K → Nat
  preds : M
  labels : ML

/-- `yield v`. -/
def TraceState.yield (s : TraceState V K L S M ML) (v : V) :
    Step (TraceState V K L S M ML) (TraceReport V K L S M ML) :=
  .emit ⟨v, s.depth, s.event, s.visited, s.onTrace, s.trace.reverse, s.traceLabels.reverse, s.index, s.preds, s.labels⟩ s

variable (g : TravGear V K L S M ML) (c : TraceCfg V K L)

/-- From `It is allowed to visit the vertex` to the report, if any (lines 846-915, without the handling of
`StopIteration`). -/
def trEnter [DecidableEq V] [DecidableEq K] (s : TraceState V K L S M ML) (v : V) :
    Step (TraceState V K L S M ML) (TraceReport V K L S M ML) :=
  if c.labeled && !s.trace.isEmpty && s.lab.isNone then .fail .unboundLocalError       -- lines 866, 904
  else
    let event := if some v = s.cur then DfsEvent.enteringStart else .enteringSuccessor   -- lines 899-901
    let s := { s with
      index := if c.computeIndex then fun k => if k = c.vid v then s.time else s.index k else s.index  -- 849-854
      time := if c.computeIndex then s.time + 1 else s.time
      preds := if c.buildPaths then                                                     -- lines 856-888
          match s.trace, s.cur with
          | u :: _, _ => g.mo.set s.preds (c.vid v) u
          | [], some st => setStart g s.preds (c.vid st) st
          | [], none => s.preds
        else s.preds
      labels := if c.buildPaths then
          match s.trace, c.labeled, s.lab with
          | _ :: _, true, some l => g.lo.set s.labels (c.vid v) l
          | _, _, _ => s.labels
        else s.labels
      markers := true :: s.markers                                                      -- line 893
      depth := if c.computeDepth then s.depth + 1 else s.depth                          -- lines 895-896
      event := event
      traceLabels := if c.labeled && !s.trace.isEmpty then s.lab.toList ++ s.traceLabels else s.traceLabels  -- 903
      trace := v :: s.trace                                                             -- line 905
      pc := .entered v (c.report event) }
    if c.report event then s.yield v else .tau s                                        -- lines 909-915

/-- Report a non-tree edge, if there is an event to be reported (lines 809-821). -/
def trShowEdge (s : TraceState V K L S M ML) (v : V) (event : DfsEvent) :
    Step (TraceState V K L S M ML) (TraceReport V K L S M ML) :=
  if event ≠ .none && c.report event then
    if c.labeled && s.lab.isNone then .fail .unboundLocalError
    else
      TraceState.yield { s with
        event := event
        trace := v :: s.trace
        traceLabels := if c.labeled then s.lab.toList ++ s.traceLabels else s.traceLabels
        pc := .edgeShown } v
  else .tau { s with pc := .loop true }

/-- The vertex has already been visited, and it is not a start vertex taken from the start vertices (lines 741-821).
`event` is the value of the local variable at line 741. -/
def trRevisit (s : TraceState V K L S M ML) (v : V) (event : DfsEvent) :
    Step (TraceState V K L S M ML) (TraceReport V K L S M ML) :=
  if c.report .someNonTreeEdge then trShowEdge c s v .someNonTreeEdge                    -- lines 745-747
  else if c.report .backEdge || c.report .forwardEdge || c.report .crossEdge || c.report .forwardOrCrossEdge then
    let back : Option DfsEvent :=                                                       -- lines 760-786
      if c.report .backEdge && event ≠ .backEdge then
        match g.so.mustContain s.onTrace (c.vid v) with
        | none => none
        | some b => some (if b then .backEdge else event)
      else some event
    match back with
    | none => .fail .assertionError
    | some event =>
      if event = .none && (c.report .forwardEdge || c.report .crossEdge) then           -- lines 790-805
        match s.trace with
        | [] => .fail .indexError
        | u :: _ =>
          let event :=
            if s.index (c.vid u) < s.index (c.vid v) then (if c.report .forwardEdge then DfsEvent.forwardEdge else .none)
            else (if c.report .crossEdge then .crossEdge else .none)
          trShowEdge c s v event
      else trShowEdge c s v event
  else .tau { s with pc := .loop true }                                                 -- lines 806-807

/-- A vertex `v` has been taken from the stack (lines 646-844). -/
def trTry [DecidableEq V] [DecidableEq K] (s : TraceState V K L S M ML) (v : V) :
    Step (TraceState V K L S M ML) (TraceReport V K L S M ML) :=
  if c.isTree then trEnter g c s v                                                      -- line 656
  else match c.mode with
    | .allWalks => trEnter g c s v
    | .dfsTree =>
      let chk := g.so.checkAdd s.visited (c.vid v)                                      -- lines 667-696
      if chk.1 then
        if s.trace.isEmpty then                                                         -- lines 697-706
          if c.report .skippingStart then
            TraceState.yield { s with event := .skippingStart, trace := [v], pc := .startShown } v
          else .tau { s with pc := .loop true }
        else trRevisit g c s v .none
      else
        trEnter g c { s with
          visited := chk.2
          onTrace := if c.computeOnTrace then g.so.add s.onTrace (c.vid v) else s.onTrace } v  -- lines 826-844
    | .allPaths =>
      let chk := g.so.checkAdd s.onTrace (c.vid v)                                      -- lines 708-740
      if chk.1 then trRevisit g c s v (if c.report .backEdge then .backEdge else .none)
      else
        trEnter g c { s with onTrace := if c.computeOnTrace then g.so.add chk.2 (c.vid v) else chk.2 } v

/-- An enter marker has been found (lines 633-645): take the vertex from the stack, and its label, if there are further
vertices on the stack. -/
def trPop [DecidableEq V] [DecidableEq K] (s : TraceState V K L S M ML) :
    Step (TraceState V K L S M ML) (TraceReport V K L S M ML) :=
  match s.toVisit with
  | [] => .fail .indexError
  | v :: tv =>
    if c.labeled && !tv.isEmpty then
      match s.toLabels with
      | [] => .fail .indexError
      | l :: tl => trTry g c { s with toVisit := tv, lab := some l, toLabels := tl } v
    else trTry g c { s with toVisit := tv } v

/-- One step of `_traverse_with_trace` (lines 562-936). -/
def trStep [DecidableEq V] [DecidableEq K] (s : TraceState V K L S M ML) :
    Step (TraceState V K L S M ML) (TraceReport V K L S M ML) :=
  match s.pc with
  | .start =>
    match s.starts with
    | [] => .stop s
    | v :: rest => .tau { s with                                                        -- lines 562-575
        pc := .loop true, starts := rest, cur := some v, toVisit := v :: s.toVisit
        markers := false :: s.markers }
  | .loop nl =>
    match s.markers with
    | [] => .tau { s with pc := .start }                                                -- lines 627-631
    | false :: ms => trPop g c { s with markers := ms }                                 -- lines 579-583
    | true :: ms =>
      match s.trace with
      | [] => .fail .indexError
      | v :: _ =>                                                                       -- line 585
        if !ms.isEmpty then                                                             -- lines 587-596
          if c.report .leavingSuccessor then
            TraceState.yield { s with
              markers := ms
              event := if nl then .leavingSuccessor else s.event
              pc := .leave v false false } v
          else .tau { s with markers := ms, pc := .leave v false nl }
        else if c.report .leavingStart then                                             -- lines 599-603
          TraceState.yield { s with markers := ms, event := .leavingStart, pc := .leave v true nl } v
        else .tau { s with markers := ms, pc := .leave v true nl }
  | .leave v last nl =>
    if c.labeled && !last && s.traceLabels.isEmpty then .fail .indexError               -- lines 597-598
    else match (if c.computeOnTrace then g.so.drop s.onTrace (c.vid v) else .ok s.onTrace) with  -- lines 607-623
      | .error e => .fail e
      | .ok onTrace => .tau { s with
        pc := .loop nl
        traceLabels := if c.labeled && !last then s.traceLabels.tail else s.traceLabels
        trace := s.trace.tail                                                           -- line 605
        onTrace := onTrace
        depth := if c.computeDepth then s.depth - 1 else s.depth }                      -- lines 625-626
  | .startShown => .tau { s with pc := .loop true, trace := s.trace.tail }              -- lines 705-706
  | .edgeShown => .tau { s with                                                         -- lines 817-821
      pc := .loop true, trace := s.trace.tail
      traceLabels := if c.labeled then s.traceLabels.tail else s.traceLabels }
  | .entered v rep =>
    if rep && c.skip s.n then .tau { s with pc := .loop true, n := s.n + 1 }            -- lines 909-915
    else .expand { s with pc := .edges v (c.next v), n := s.n + 1 }                     -- lines 917-922
  | .edges _ [] => .tau { s with pc := .loop true }
  | .edges v (e :: es) => .tau { s with                                                 -- lines 922-936
      pc := .edges v es
      toVisit := e.1 :: s.toVisit
      lab := if c.labeled then some e.2 else s.lab
      toLabels := if c.labeled then e.2 :: s.toLabels else s.toLabels
      markers := false :: s.markers }

/-- State at the start of the generator (lines 279-290, 376-386, 480-543). -/
def trInit (already : S) (starts : List V) : TraceState V K L S M ML where
  pc := .start
  starts := starts
  cur := none
  toVisit := []
  toLabels := []
  markers := []
  lab := none
  depth := -1
  n := 0
  event := .none
  time := 1
  visited := already
  onTrace := g.so.empty
  trace := []
  traceLabels := []
  index := fun _ => 0
  preds := g.mo.empty
  labels := g.lo.empty

/-- A depth-first traversal with trace, started from `starts` and iterated (at most `fuel` steps). -/
def trRun [DecidableEq V] [DecidableEq K] (already : S) (starts : List V) (limit : Option Int) (fuel : Nat) :
    RunResult (TraceState V K L S M ML) (TraceReport V K L S M ML) :=
  runMachine (trStep g c) fuel (prepareLimit limit) (trInit g already starts)

end NoGraphs
