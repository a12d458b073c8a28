import Verif.Model.Bfs

/-!
# Model of `src/nographs/_strategies/traversals/without_weights/neighbors_then_depth.py`
-/

namespace NoGraphs

variable {V K L S M ML : Type}

/-- The options of the traversal. -/
structure NtdCfg (V K L : Type) extends TravCfg V K L where
  computeDepth : Bool

/-- Where the generator `_traverse` is. -/
inductive NtdPc (V L : Type) where
  /-- test of `while to_expand:` (line 307) -/
  | loop
  /-- head of `for edge_or_vertex in next_edge_or_vertex(...)` (line 324), remaining edges -/
  | edges (v : V) (es : List (V × L))

/-- The variables of `_traverse`. `toExpand` and `markers` are `to_expand` and `to_leave_marker` with their top (end of
the Python sequence) first, `depth` is the local variable, `selfDepth` is `self.depth`. -/
structure NtdState (V L S M ML : Type) where
  pc : NtdPc V L
  toExpand : List V
  markers : List Bool
  depth : Int
  selfDepth : Int
  visited : S
  preds : M
  labels : ML

/-- A report: the vertex and the attributes of the traversal at that moment. -/
structure NtdReport (V S M ML : Type) where
  vertex : V
  depth : Int
  visited : S
  preds : M
  labels : ML

/-- `while to_leave_marker_pop(): depth -= 1` (lines 312-313); `none`: `IndexError`, pop from an empty array. -/
def ntdPop : List Bool → Int → Option (List Bool × Int)
  | [], _ => none
  | true :: ms, d => ntdPop ms (d - 1)
  | false :: ms, d => some (ms, d)

variable (g : TravGear V K L S M ML) (c : NtdCfg V K L)

/-- One step of `_traverse` (lines 307-383). The test whether the neighbor has been visited, and the storing of its data
(lines 327-374), are literally the same code as in `breadth_first.py` (`bfsVisit`). -/
def ntdStep (s : NtdState V L S M ML) : Step (NtdState V L S M ML) (NtdReport V S M ML) :=
  match s.pc with
  | .loop =>
    match s.toExpand with
    | [] => .stop s                                                            -- line 307
    | v :: rest =>                                                             -- line 308
      if c.computeDepth then
        match ntdPop s.markers (s.depth + 1) with                              -- lines 309-313
        | none => .fail .indexError
        | some (ms, d) => .expand { s with                                     -- lines 314-324
            pc := .edges v (c.next v), toExpand := rest, markers := true :: ms, depth := d, selfDepth := d + 1 }
      else .expand { s with pc := .edges v (c.next v), toExpand := rest }
  | .edges _ [] => .tau { s with pc := .loop }
  | .edges v (e :: es) =>                                                      -- lines 324-374
    match bfsVisit g c.isTree c.buildPaths c.vid s.visited s.preds s.labels v e with
    | none => .tau { s with pc := .edges v es }
    | some (vis, pr, la) =>
      .emit ⟨e.1, s.selfDepth, vis, pr, la⟩                                    -- line 376
        { s with pc := .edges v es, visited := vis, preds := pr, labels := la
                 toExpand := e.1 :: s.toExpand                                 -- line 379
                 markers := if c.computeDepth then false :: s.markers else s.markers }   -- lines 381-383

/-- State at the start of `_traverse` (`start_from` lines 202-216; `_traverse` 271-287; `define_visited` and `create_paths` in
`_strategies/utils.py` 111-129, 155-199). -/
def ntdInit (already : S) (starts : List V) : NtdState V L S M ML where
  pc := .loop
  toExpand := starts.reverse
  markers := if c.computeDepth then List.replicate starts.length false else []
  depth := -1
  selfDepth := if c.computeDepth then 0 else -1
  visited := if c.isTree then already else g.so.addAll already (starts.map c.vid)
  preds := if c.buildPaths then g.mo.setAll g.mo.empty (starts.map (fun v => (c.vid v, v))) else g.mo.empty
  labels := g.lo.empty

/-- A traversal, started from `starts` and iterated (at most `fuel` steps). -/
def ntdRun (already : S) (starts : List V) (limit : Option Int) (fuel : Nat) :
    RunResult (NtdState V L S M ML) (NtdReport V S M ML) :=
  runMachine (ntdStep g c) fuel (prepareLimit limit) (ntdInit g c already starts)

end NoGraphs
