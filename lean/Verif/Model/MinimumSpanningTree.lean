import Mathlib.Algebra.Order.Monoid.Defs
import Verif.Model.Machine
import Verif.Model.Paths
import Verif.Model.Heap
import Verif.Model.Bfs

/-!
# Model of `src/nographs/_strategies/traversals/with_weights/minimum_spanning_tree.py`

Weights are elements of any linear order; the strategy only compares them.
-/

namespace NoGraphs

variable {V K L W S M ML : Type}

/-- What the traversal gets: the edges function (neighbor, weight, label; for unlabeled edges `L` is `Unit`),
`vertex_to_id`, and the option `build_paths`. Simplification: the edges function depends on the vertex only. -/
structure MstCfg (V K L W : Type) where
  next : V → List (V × W × L)
  vid : V → K
  buildPaths : Bool

/-- Where the generator `_traverse` is. -/
inductive MstPc (V L W : Type) where
  /-- in the comprehension over the start vertices (lines 219-227), remaining start vertices -/
  | starts (vs : List V)
  /-- test of `while to_visit:` (line 246) -/
  | loop
  /-- after the `yield` (line 313); `to_vertex` -/
  | expand (v : V)
  /-- head of `for n_to_edge in next_edges(...)` (line 318), remaining edges; `v` is `to_vertex` -/
  | edges (v : V) (es : List (V × W × L))

/-- The variables of `_traverse`. A heap element is `(weight, unique_no, from_vertex, edge)`; `no` is the next value of
`unique_no`. -/
structure MstState (V L W S M ML : Type) where
  pc : MstPc V L W
  heap : List (HEntry W (V × V × W × L))
  no : Int
  visited : S
  preds : M
  labels : ML

/-- A report: the vertex and the attributes of the traversal at that moment. `edge` is (from, to, weight, labels). -/
structure MstReport (V L W M ML : Type) where
  vertex : V
  edge : V × V × W × L
  preds : M
  labels : ML

/-- Heap elements for the edges of `v`, with numbers from `no` (lines 223-227). -/
def mstEntries (v : V) : List (V × W × L) → Int → List (HEntry W (V × V × W × L))
  | [], _ => []
  | e :: es, no => ⟨e.2.1, no, (v, e)⟩ :: mstEntries v es (no + 1)

variable [LinearOrder W] (g : TravGear V K L S M ML) (c : MstCfg V K L W)

/-- One step of `_traverse` (`minimum_spanning_tree.py` 218-351). -/
def mstStep (s : MstState V L W S M ML) : Step (MstState V L W S M ML) (MstReport V L W M ML) :=
  match s.pc with
  | .starts [] => .tau { s with pc := .loop, heap := heapify s.heap }           -- line 228
  | .starts (v :: vs) => .expand { s with                                       -- lines 224-227
      pc := .starts vs
      heap := s.heap ++ mstEntries v (c.next v) s.no
      no := s.no + (c.next v).length }
  | .loop =>
    match s.heap with
    | [] => .stop s                                                             -- line 246
    | e :: rest =>                                                              -- lines 248-249
      let u := e.item.1
      let v := e.item.2.1
      let l := e.item.2.2.2
      let chk := g.so.checkAdd s.visited (c.vid v)                              -- lines 256-286
      if chk.1 then .tau { s with heap := rest }
      else
        let pr := if c.buildPaths then g.mo.set s.preds (c.vid v) u else s.preds      -- lines 288-303
        let la := if c.buildPaths then g.lo.set s.labels (c.vid v) l else s.labels
        .emit ⟨v, e.item, pr, la⟩                                               -- lines 309-313
          { s with heap := rest, visited := chk.2, preds := pr, labels := la, pc := .expand v }
  | .expand v => .expand { s with pc := .edges v (c.next v) }                   -- lines 315-318
  | .edges _ [] => .tau { s with pc := .loop }
  | .edges v (e :: es) =>                                                       -- lines 318-351
    if g.so.contains s.visited (c.vid e.1) then .tau { s with pc := .edges v es }
    else .tau { s with
      pc := .edges v es
      heap := heapPush s.heap ⟨e.2.1, s.no, (v, e)⟩
      no := s.no + 1 }

/-- State at the start of `_traverse` (lines 145-165, 192-201; `create_paths` in `_strategies/utils.py` 155-199). -/
def mstInit (starts : List V) : MstState V L W S M ML where
  pc := .starts starts
  heap := []
  no := 0
  visited := g.so.addAll g.so.empty (starts.map c.vid)
  preds := if c.buildPaths then g.mo.setAll g.mo.empty (starts.map (fun v => (c.vid v, v))) else g.mo.empty
  labels := g.lo.empty

/-- A traversal, started from `starts` and iterated (at most `fuel` steps). A limit smaller than the number of start
vertices leads to the exception before any edges are read (lines 203-213); then, each start vertex counts, and later
each expanded vertex (lines 230-232, 315-316). -/
def mstRun (starts : List V) (limit : Option Int) (fuel : Nat) :
    RunResult (MstState V L W S M ML) (MstReport V L W M ML) :=
  if limit.any (fun k : Int => 0 ≤ k && k < starts.length) then
    { events := [], ending := .raised .runtimeError, final := mstInit g c starts }
  else runMachine (mstStep g c) fuel (prepareLimit limit) (mstInit g c starts)

end NoGraphs
