import Verif.Model.Machine
import Verif.Model.Paths

/-!
# Model of `src/nographs/_strategies/traversals/without_weights/breadth_first.py`
-/

namespace NoGraphs

variable {V K L S M ML : Type}

/-- What all traversals get: `next_edge_or_vertex` (as list of neighbors with labels; for unlabeled
edges `L` is `Unit`), `vertex_to_id`, and the flags. Simplification: the edges function depends on
the vertex only (not on the traversal object it also gets). -/
structure TravCfg (V K L : Type) where
  next : V → List (V × L)
  vid : V → K
  isTree : Bool
  buildPaths : Bool

/-- The collections a gear provides for traversals without weights. -/
structure TravGear (V K L S M ML : Type) where
  so : SetOps S K
  mo : MapOps M K V
  lo : MapOps ML K L

/-- Where the generator `_traverse` is. -/
inductive BfsPc (V L : Type) where
  /-- test of `while to_expand:` (line 300) -/
  | check
  /-- head of `for vertex in to_expand:` (line 301) -/
  | loop
  /-- head of `for edge_or_vertex in next_edge_or_vertex(...)` (line 307), remaining edges -/
  | edges (v : V) (es : List (V × L))
  /-- after the report of a depth increase (line 375ff) -/
  | levelEnd

/-- The variables of `_traverse`; `toExpand` holds what the `for` loop has not yet taken. -/
structure BfsState (V L S M ML : Type) where
  pc : BfsPc V L
  toExpand : List V
  nextToExpand : List V
  depth : Int
  visited : S
  preds : M
  labels : ML

/-- A report: the vertex and the attributes of the traversal at that moment. -/
structure BfsReport (V S M ML : Type) where
  vertex : V
  depth : Int
  visited : S
  preds : M
  labels : ML

variable (g : TravGear V K L S M ML) (c : TravCfg V K L)

/-- The membership test and the storing of the neighbor: lines 310-345 and 347-362.
`none`: `continue`. (Storing labels for `labeled_edges = False` is storing `()`, never read.) -/
def bfsVisit (isTree buildPaths : Bool) (vid : V → K) (s : S) (m : M) (ml : ML) (v : V) (e : V × L) :
    Option (S × M × ML) :=
  let nId := vid e.1
  let chk : Bool × S := if isTree then (false, s) else g.so.checkAdd s nId
  if chk.1 then none
  else if buildPaths then some (chk.2, g.mo.set m nId v, g.lo.set ml nId e.2)
  else some (chk.2, m, ml)

/-- One step of `_traverse` (`breadth_first.py` 300-390). `rdi` is `_report_depth_increase`. -/
def bfsStep (rdi : Bool) (s : BfsState V L S M ML) :
    Step (BfsState V L S M ML) (BfsReport V S M ML) :=
  match s.pc with
  | .check =>                                          -- line 300
    match s.toExpand with
    | [] => .stop { s with depth := s.depth - 2 }      -- line 390
    | _ :: _ => .tau { s with pc := .loop }
  | .loop =>                                           -- line 301
    match s.toExpand with
    | v :: rest => .expand { s with pc := .edges v (c.next v), toExpand := rest }  -- lines 302-307
    | [] =>
      match rdi, s.nextToExpand.getLast? with          -- lines 368-373
      | true, some last =>
        .emit ⟨last, s.depth, s.visited, s.preds, s.labels⟩ { s with pc := .levelEnd }
      | _, _ => .tau { s with pc := .levelEnd }
  | .edges _ [] => .tau { s with pc := .loop }
  | .edges v (e :: es) =>                              -- lines 307-366
    match bfsVisit g c.isTree c.buildPaths c.vid s.visited s.preds s.labels v e with
    | none => .tau { s with pc := .edges v es }
    | some (vis, pr, la) =>
      .emit ⟨e.1, s.depth, vis, pr, la⟩
        { s with pc := .edges v es, visited := vis, preds := pr, labels := la,
                 nextToExpand := s.nextToExpand ++ [e.1] }
  | .levelEnd =>                                       -- lines 375-386
    .tau { s with pc := .check, toExpand := s.nextToExpand, nextToExpand := [], depth := s.depth + 1 }

/-- State at the start of `_traverse`: `already` is the set given as `already_visited`, or an empty
set of the gear (`utils.py` 111-129 `define_visited`; 155-199 `create_paths`;
`breadth_first.py` 267-282). -/
def bfsInit (already : S) (starts : List V) : BfsState V L S M ML where
  pc := .check
  toExpand := starts
  nextToExpand := []
  depth := 1
  visited := if c.isTree then already else g.so.addAll already (starts.map c.vid)
  preds := if c.buildPaths then g.mo.setAll g.mo.empty (starts.map (fun v => (c.vid v, v)))
    else g.mo.empty
  labels := g.lo.empty

/-- A breadth-first traversal, started from `starts` and iterated (at most `fuel` steps). -/
def bfsRun (already : S) (starts : List V) (limit : Option Int) (fuel : Nat) :
    RunResult (BfsState V L S M ML) (BfsReport V S M ML) :=
  runMachine (bfsStep g c false) fuel (prepareLimit limit) (bfsInit g c already starts)

end NoGraphs
