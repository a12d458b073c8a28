import Mathlib.Algebra.Order.Monoid.Defs
import Verif.Model.Machine
import Verif.Model.Paths
import Verif.Model.Heap

/-!
# Model of `src/nographs/_strategies/traversals/with_weights/shortest_paths.py`

Weights are elements of any linearly ordered commutative monoid (natural numbers, integers,
rationals, ...): rounding of floating point numbers is not modelled.
-/

namespace NoGraphs

variable {V K L W M ML D : Type}

/-- What weighted traversals get: the edges function (neighbor, weight, label; for unlabeled edges
`L` is `Unit`), `vertex_to_id`, the flags, and the infinity value of the gear. Simplification: the
edges function depends on the vertex only. -/
structure WCfg (V K L W : Type) where
  next : V → List (V × W × L)
  vid : V → K
  isTree : Bool
  buildPaths : Bool
  keepDistances : Bool
  inf : W

/-- The collections a gear provides for traversals with weights. -/
structure WGear (V K L W M ML D : Type) where
  mo : MapOps M K V
  lo : MapOps ML K L
  dd : DistOps D K W

/-- Where the generator `_traverse` is. -/
inductive SpPc (V L W : Type) where
  /-- test of `while to_visit:` (line 276) -/
  | loop
  /-- after the `yield` (line 310); `vertex`, `path_weight`, `path_edge_count` -/
  | expand (v : V) (w : W) (ec : Nat)
  /-- head of `for edge in next_edges(...)` (line 315), remaining edges -/
  | edges (v : V) (w : W) (ec : Nat) (es : List (V × W × L))

/-- The variables of `_traverse`. -/
structure SpState (V L W M ML D : Type) where
  pc : SpPc V L W
  heap : List (HEntry W (V × Nat))
  no : Int
  dist : D
  preds : M
  labels : ML

/-- A report: the vertex and the attributes of the traversal at that moment. -/
structure SpReport (V W M ML D : Type) where
  vertex : V
  distance : W
  depth : Nat
  dist : D
  preds : M
  labels : ML

variable [Add W] [Zero W] [LinearOrder W] (g : WGear V K L W M ML D) (c : WCfg V K L W)

/-- The check and update of the distance of the neighbor, lines 328-341. `none`: `continue`. -/
def spImprove (d : D) (nId : K) (nw : W) : Option D :=
  if c.isTree then some d else g.dd.improve d nId nw

/-- One step of `_traverse` (`shortest_paths.py` 276-372). -/
def spStep (s : SpState V L W M ML D) : Step (SpState V L W M ML D) (SpReport V W M ML D) :=
  match s.pc with
  | .loop =>
    match s.heap with
    | [] => .stop s                                                   -- line 276
    | e :: rest =>                                                    -- line 278
      let v := e.item.1
      let ec := e.item.2
      if !c.isTree && decide (g.dd.get s.dist (c.vid v) < e.key) then
        .tau { s with heap := rest }                                  -- lines 283-292
      else
        let d := if !c.isTree && !c.keepDistances then g.dd.set s.dist (c.vid v) 0
          else s.dist                                                 -- lines 293-300
        let s' := { s with heap := rest, dist := d, pc := .expand v e.key ec }
        if ec > 0 then .emit ⟨v, e.key, ec, d, s.preds, s.labels⟩ s'  -- lines 303-308
        else .tau s'
  | .expand v w ec => .expand { s with pc := .edges v w ec (c.next v) }  -- lines 310-315
  | .edges _ _ _ [] => .tau { s with pc := .loop }
  | .edges v w ec ((n, x, l) :: es) =>                                -- lines 315-372
    let nw := x + w
    if c.inf ≤ nw then .fail .overflowError                           -- lines 321-322
    else
      match spImprove g c s.dist (c.vid n) nw with
      | none => .tau { s with pc := .edges v w ec es }                -- lines 337-338
      | some d =>
        .tau { pc := .edges v w ec es
               heap := heapPush s.heap ⟨nw, s.no, (n, ec + 1)⟩        -- lines 364-372
               no := s.no - 1
               dist := d
               preds := if c.buildPaths then g.mo.set s.preds (c.vid n) v else s.preds
               labels := if c.buildPaths then g.lo.set s.labels (c.vid n) l else s.labels }

/-- The distances after `start_from` (lines 194-200, `define_distances` in `_strategies/utils.py` 132-152).
(For `is_tree` with given `known_distances`, the direct read of a missing entry of a sequence-based
mapping in line 265, an `IndexError`, reads as infinity here; see `Model/DirectReads` for the exception.) -/
def spDistances (known : Option D) (starts : List V) : D :=
  match known with
  | none => g.dd.setAll g.dd.empty (starts.map (fun v => (c.vid v, 0)))
  | some d => if c.isTree then d else g.dd.setDefaults d (starts.map (fun v => (c.vid v, 0)))

/-- The entries for start vertices, numbered downwards (lines 255, 263-271). -/
def spStartEntries (d : D) : List V → Int → List (HEntry W (V × Nat))
  | [], _ => []
  | v :: vs, no => ⟨g.dd.get d (c.vid v), no, (v, 0)⟩ :: spStartEntries d vs (no - 1)

/-- State at the start of `_traverse` (`shortest_paths.py` 173-200, 255-272). -/
def spInit (known : Option D) (starts : List V) : SpState V L W M ML D where
  pc := .loop
  heap := heapify (spStartEntries g c (spDistances g c known starts) starts 256)
  no := 256 - starts.length
  dist := spDistances g c known starts
  preds := if c.buildPaths then g.mo.setAll g.mo.empty (starts.map (fun v => (c.vid v, v)))
    else g.mo.empty
  labels := g.lo.empty

/-- A traversal, started from `starts` and iterated (at most `fuel` steps). -/
def spRun (known : Option D) (starts : List V) (limit : Option Int) (fuel : Nat) :
    RunResult (SpState V L W M ML D) (SpReport V W M ML D) :=
  runMachine (spStep g c) fuel (prepareLimit limit) (spInit g c known starts)

end NoGraphs
