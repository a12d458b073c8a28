import Verif.Model.Bfs
import Verif.Spec.DfsEvent

/-!
# Model of `src/nographs/_strategies/traversals/without_weights/depth_first.py`, variant without trace

`_traverse_without_trace` (lines 938-1254). It is chosen for mode `DFS_TREE` if only `ENTERING_START` and
`ENTERING_SUCCESSOR` are to be reported, and neither the trace, the on-trace set nor vertex indices are demanded
(lines 308-337, 391-398).

A consumer can throw `StopIteration` into the generator when a vertex is reported
(`skip_expanding_entered_vertex`, lines 1326-1342): `skip n` says whether it does so at the `n`-th entered vertex (of
course, only if this vertex is reported). All consumers are covered, since `skip` is an arbitrary function.
-/

namespace NoGraphs

variable {V K L S M ML : Type}

/-- The options of the traversal. -/
structure DfsCfg (V K L : Type) extends TravCfg V K L where
  computeDepth : Bool
  reportStart : Bool
  reportSucc : Bool
  skip : Nat → Bool

/-- Where the generator is. -/
inductive DfsPc (V L : Type) where
  /-- head of `for start_vertex in self._start_vertices` (line 1045) -/
  | start
  /-- head of `while True` (line 1070) -/
  | loop
  /-- `v` has been entered and, if `rep`, reported (before line 1165) -/
  | entered (v : V) (rep : Bool)
  /-- head of `for edge_or_vertex in next_edge_or_vertex(...)` (line 1170), remaining edges -/
  | edges (v : V) (es : List (V × L))

/-- The variables of `_traverse_without_trace`. `starts` holds the rest of `self._start_vertices`, `cur` is
`start_vertex`, `toVisit` and `markers` are `to_visit` and `to_leave_markers` with their top (end of the Python
sequence) first, `depth` is the local variable, `selfDepth` is `self.depth`, and `n` counts entered vertices (a
ghost variable used as argument of `skip`). -/
structure DfsState (V L S M ML : Type) where
  pc : DfsPc V L
  starts : List V
  cur : Option V
  toVisit : List V
  markers : List Bool
  depth : Int
  selfDepth : Int
  n : Nat
  event : DfsEvent
  visited : S
  preds : M
  labels : ML

/-- A report: the vertex and the attributes of the traversal at that moment. -/
structure DfsReport (V S M ML : Type) where
  vertex : V
  depth : Int
  event : DfsEvent
  visited : S
  preds : M
  labels : ML

/-- `while to_leave_markers and to_leave_markers_pop(): depth -= 1` (lines 1081-1083). -/
def popTrue : List Bool → Int → List Bool × Int
  | [], d => ([], d)
  | true :: ms, d => popTrue ms (d - 1)
  | false :: ms, d => (ms, d)

variable (g : TravGear V K L S M ML) (c : DfsCfg V K L)

/-- Store the empty path of a start vertex "if there is none so far" (lines 1052-1067; also 873-888): the value is
stored if reading `predecessors_sequence[sv_id]` fails or gives `None`. -/
def setStart (preds : M) (k : K) (v : V) : M :=
  match g.mo.raw preds k with
  | some (some _) => preds
  | some none => g.mo.set preds k v
  | none => g.mo.set preds k v

/-- From `We will now enter the vertex` to the report, if any (lines 1126-1163). -/
def dfsEnter [DecidableEq V] (s : DfsState V L S M ML) (v : V) :
    Step (DfsState V L S M ML) (DfsReport V S M ML) :=
  let depth := if c.computeDepth then s.depth + 1 else s.depth
  let selfDepth := if c.computeDepth then depth else s.selfDepth
  let markers := if c.computeDepth then true :: s.markers else s.markers
  if some v = s.cur then
    let s := { s with depth, selfDepth, markers, event := .enteringStart, pc := .entered v c.reportStart }
    if c.reportStart then .emit ⟨v, selfDepth, s.event, s.visited, s.preds, s.labels⟩ s else .tau s
  else
    let s := { s with depth, selfDepth, markers, pc := .entered v c.reportSucc }
    if c.reportSucc then .emit ⟨v, selfDepth, s.event, s.visited, s.preds, s.labels⟩ s else .tau s

/-- The update of the depth w.r.t. the vertices that are left (lines 1071-1083). -/
def dfsPop (s : DfsState V L S M ML) : DfsState V L S M ML :=
  if c.computeDepth then
    { s with markers := (popTrue s.markers s.depth).1, depth := (popTrue s.markers s.depth).2 }
  else s

/-- One step of `_traverse_without_trace` (lines 1045-1254). -/
def dfsStep [DecidableEq V] (s : DfsState V L S M ML) : Step (DfsState V L S M ML) (DfsReport V S M ML) :=
  match s.pc with
  | .start =>
    match s.starts with
    | [] => .stop { s with selfDepth := -1 }                                  -- line 1254
    | v :: rest => .tau { s with                                              -- lines 1045-1067
        pc := .loop, starts := rest, cur := some v, toVisit := v :: s.toVisit
        markers := if c.computeDepth then false :: s.markers else s.markers
        preds := if c.buildPaths then setStart g s.preds (c.vid v) v else s.preds }
  | .loop =>
    let s := dfsPop c s                                                       -- lines 1071-1083
    match s.toVisit with
    | [] => .tau { s with pc := .start }                                      -- lines 1085-1088
    | v :: rest =>                                                            -- line 1091
      if c.isTree then dfsEnter c { s with toVisit := rest } v
      else
        let chk := g.so.checkAdd s.visited (c.vid v)                          -- lines 1092-1124
        if chk.1 then .tau { s with toVisit := rest }
        else dfsEnter c { s with toVisit := rest, visited := chk.2 } v
  | .entered v rep =>
    let event := if some v = s.cur then .enteringSuccessor else s.event
    if rep && c.skip s.n then .tau { s with pc := .loop, n := s.n + 1, event }    -- lines 1144-1163
    else .expand { s with pc := .edges v (c.next v), n := s.n + 1 }           -- lines 1165-1170
  | .edges v [] =>                                                            -- lines 1241-1247
    .tau { s with pc := .loop, event := if some v = s.cur then .enteringSuccessor else s.event }
  | .edges v (e :: es) =>                                                     -- lines 1170-1239
    if (!c.isTree || c.buildPaths) && g.so.contains s.visited (c.vid e.1) then .tau { s with pc := .edges v es }
    else .tau { s with
      pc := .edges v es
      toVisit := e.1 :: s.toVisit
      markers := if c.computeDepth then false :: s.markers else s.markers
      preds := if c.buildPaths then g.mo.set s.preds (c.vid e.1) v else s.preds
      labels := if c.buildPaths then g.lo.set s.labels (c.vid e.1) e.2 else s.labels }

/-- State at the start of the generator (`start_from` lines 279-290, 376-386; 1013-1027): neither visited marks nor
empty paths for the start vertices. -/
def dfsInit (already : S) (starts : List V) : DfsState V L S M ML where
  pc := .start
  starts := starts
  cur := Option.none
  toVisit := []
  markers := []
  depth := -1
  selfDepth := if c.computeDepth then 0 else -1
  n := 0
  event := .none
  visited := already
  preds := g.mo.empty
  labels := g.lo.empty

/-- A depth-first traversal without trace, started from `starts` and iterated (at most `fuel` steps). -/
def dfsRun [DecidableEq V] (already : S) (starts : List V) (limit : Option Int) (fuel : Nat) :
    RunResult (DfsState V L S M ML) (DfsReport V S M ML) :=
  runMachine (dfsStep g c) fuel (prepareLimit limit) (dfsInit g c already starts)

end NoGraphs
