import Verif.Model.Bfs

/-!
# Model of `src/nographs/_strategies/traversals/without_weights/topological_sort.py`
-/

namespace NoGraphs

variable {V K L S M ML : Type}

/-- Where the generator is. -/
inductive TopoPc (V L : Type) where
  /-- head of `while to_enter_or_leave:` (line 452; for trees: line 281) -/
  | loop
  /-- head of `for edge_or_vertex in next_edge_or_vertex(...)` (line 545; for trees: line 300),
  remaining edges -/
  | edges (v : V) (es : List (V × L))
  /-- `_report_cycle` has set `cycle_from_start` and now raises (line 664) -/
  | cycle

/-- The variables of `_traverse_in_non_tree` and `_traverse_in_tree`.
`stack` holds `to_enter_or_leave`, top (end of the Python list) first; `trace` holds `trace_set`
(used for non-trees only), `leave` holds `to_leave_markers` (used for trees only), top first. -/
structure TopoState (V L S M ML : Type) where
  pc : TopoPc V L
  stack : List V
  leave : List Bool
  trace : S
  depth : Int
  visited : S
  preds : M
  labels : ML
  cycleFromStart : List V

/-- A report: the vertex and the attributes of the traversal at that moment. -/
structure TopoReport (V S M ML : Type) where
  vertex : V
  depth : Int
  visited : S
  preds : M
  labels : ML

variable (g : TravGear V K L S M ML) (c : TravCfg V K L)

/-- `_report_cycle` up to the exception (lines 646-663): the vertices of the stack, bottom first, whose
ids are on the trace, and then the neighbor. -/
def topoReportCycle (neighbor : V) (stack : List V) (trace : S) : List V :=
  stack.reverse.filter (fun v => g.so.contains trace (c.vid v)) ++ [neighbor]

/-- The handling of a neighbor that is not skipped: lines 619-641 (for trees: 309-332). -/
def topoPush (s : TopoState V L S M ML) (v : V) (e : V × L) (es : List (V × L)) : TopoState V L S M ML :=
  { s with
    pc := .edges v es
    stack := e.1 :: s.stack
    preds := if c.buildPaths then g.mo.set s.preds (c.vid e.1) v else s.preds
    labels := if c.buildPaths then g.lo.set s.labels (c.vid e.1) e.2 else s.labels }

/-- One step of `_traverse_in_non_tree` (lines 452-644).
The three variants of the code (hash sets, byte sequences, bits) are the operations `g.so`. -/
def topoStep (s : TopoState V L S M ML) : Step (TopoState V L S M ML) (TopoReport V S M ML) :=
  match s.pc with
  | .cycle => .fail .runtimeError                                    -- line 664
  | .loop =>
    match s.stack with
    | [] => .stop s                                                  -- line 452
    | v :: rest =>                                                   -- line 453
      let vId := c.vid v
      if g.so.contains s.trace vId then                              -- lines 473-478, 489-497, 516-525
        .emit ⟨v, s.depth - 1, s.visited, s.preds, s.labels⟩
          { s with stack := rest, trace := g.so.discard s.trace vId, depth := s.depth - 1 }
      else if 0 < s.depth then                                       -- lines 479-484, 498-506, 526-535
        let chk := g.so.checkAdd s.visited vId
        if chk.1 then .tau { s with stack := rest }
        else .expand { s with                                        -- lines 485, 507-510, 536-539, 541-545
          pc := .edges v (c.next v), visited := chk.2, trace := g.so.add s.trace vId }
      else .expand { s with pc := .edges v (c.next v), trace := g.so.add s.trace vId }
  | .edges v (e :: es) =>                                            -- line 545
    if g.so.contains s.visited (c.vid e.1) then                      -- lines 566-617
      match g.so.mustContain s.trace (c.vid e.1) with
      | none => .fail .assertionError
      | some true => .tau { s with
          pc := .cycle, cycleFromStart := topoReportCycle g c e.1 s.stack s.trace }
      | some false => .tau { s with pc := .edges v es }
    else .tau (topoPush g c s v e es)                                -- lines 619-641
  | .edges _ [] => .tau { s with pc := .loop, depth := s.depth + 1 } -- line 644

/-- One step of `_traverse_in_tree` (lines 281-334). -/
def topoTreeStep (s : TopoState V L S M ML) : Step (TopoState V L S M ML) (TopoReport V S M ML) :=
  match s.pc with
  | .cycle => .fail .runtimeError                                    -- not used
  | .loop =>
    match s.stack, s.leave with
    | [], _ => .stop s                                               -- line 281
    | _ :: _, [] => .fail .indexError                                -- line 282 on an empty sequence
    | v :: rest, true :: ls =>                                       -- lines 282-288
      .emit ⟨v, s.depth - 1, s.visited, s.preds, s.labels⟩
        { s with stack := rest, leave := ls, depth := s.depth - 1 }
    | v :: _, false :: ls =>                                         -- lines 290-300
      .expand { s with pc := .edges v (c.next v), leave := true :: ls }
  | .edges v (e :: es) =>                                            -- lines 300-332
    .tau { topoPush g c s v e es with leave := false :: s.leave }
  | .edges _ [] => .tau { s with pc := .loop, depth := s.depth + 1 } -- line 334

/-- State at the start of `_traverse` (`topological_sort.py` 183-194, 258-271, 403-418;
`utils.py` 111-129 `define_visited`, 155-199 `create_paths`). -/
def topoInit (already : S) (starts : List V) : TopoState V L S M ML where
  pc := .loop
  stack := starts.reverse
  leave := starts.map (fun _ => false)
  trace := g.so.empty
  depth := 0
  visited := if c.isTree then already else g.so.addAll already (starts.map c.vid)
  preds := if c.buildPaths then g.mo.setAll g.mo.empty (starts.map (fun v => (c.vid v, v)))
    else g.mo.empty
  labels := g.lo.empty
  cycleFromStart := []

/-- A topological sorting, started from `starts` and iterated (at most `fuel` steps);
`_traverse` (lines 196-203) chooses the variant by `is_tree`. -/
def topoRun (already : S) (starts : List V) (limit : Option Int) (fuel : Nat) :
    RunResult (TopoState V L S M ML) (TopoReport V S M ML) :=
  runMachine (if c.isTree then topoTreeStep g c else topoStep g c) fuel (prepareLimit limit)
    (topoInit g c already starts)

end NoGraphs
