import Verif.Model.ShortestPaths
import Verif.Model.BiBfs

/-!
# Model of `src/nographs/_strategies/bidirectional_search/shortest_path.py`

All line numbers refer to this file, if no other is named.
-/

namespace NoGraphs

variable {V K L W M ML D : Type} [DecidableEq V] [DecidableEq K]

/-- What the search gets: the two edges functions, `vertex_to_id`, `build_path`, and the infinity value
of the gear. (As in `WCfg`, edges functions depend on the vertex only.) -/
structure BdCfg (V K L W : Type) where
  nextF : V → List (V × W × L)
  nextB : V → List (V × W × L)
  vid : V → K
  buildPath : Bool
  inf : W

/-- The variables that exist once for each direction (lines 352-394). -/
structure BdSide (V W M ML D : Type) where
  heap : List (HEntry W V)
  no : Int
  dist : D
  preds : M
  labels : ML
  lim : Option Int

/-- Where `start_from` is. -/
inductive BdPc (V L W : Type) where
  /-- head of the loop over the directions (line 352) -/
  | loop
  /-- head of `for edge in next_edges(...)` (line 445): `vertex`, `path_weight`, remaining edges -/
  | edges (v : V) (w : W) (es : List (V × W × L))

/-- The variables of `start_from`. `back` tells which direction the loop over directions has chosen. -/
structure BdState (V L W M ML D : Type) where
  pc : BdPc V L W
  fw : BdSide V W M ML D
  bw : BdSide V W M ML D
  back : Bool
  best : W
  node : V
  others : W
  found : Bool

/-- The variables of direction `b` (`true`: backwards). -/
def BdState.get (s : BdState V L W M ML D) (b : Bool) : BdSide V W M ML D := if b then s.bw else s.fw

/-- Replace the variables of the chosen direction. -/
def BdState.setCur (s : BdState V L W M ML D) (x : BdSide V W M ML D) : BdState V L W M ML D :=
  if s.back then { s with bw := x } else { s with fw := x }

variable [AddCommMonoid W] [LinearOrder W] (g : WGear V K L W M ML D) (c : BdCfg V K L W)

/-- The edges function of direction `b`. -/
def BdCfg.next (c : BdCfg V K L W) (b : Bool) : V → List (V × W × L) := if b then c.nextB else c.nextF

/-- One step of the loop (lines 352-515).  (Reading the distance of the other direction at 496-506: an
`IndexError` there is treated by the code as if infinity had been read, and no improvement; here
infinity is read, and as weights are not negative, there is no improvement either: `C103_bd`.) -/
def bdStep (s : BdState V L W M ML D) : Step (BdState V L W M ML D) Unit :=
  let me := s.get s.back
  match s.pc with
  | .loop =>
    match me.heap with
    | [] => .stop s                                                       -- lines 395-402
    | e :: rest =>                                                        -- line 411
      if g.dd.get me.dist (c.vid e.item) < e.key then                     -- lines 422-423
        .tau { s.setCur { me with heap := rest } with back := !s.back }
      else if c.inf ≠ s.best ∧ s.best ≤ e.key + s.others then             -- lines 425-430
        .stop { s with found := true }
      else
        match checkLimit me.lim with                                      -- lines 435-440
        | none => .fail .runtimeError
        | some lim =>
          .expand { s.setCur { me with heap := rest, lim := lim } with
            others := e.key                                               -- line 433
            pc := .edges e.item e.key (c.next s.back e.item) }            -- line 445
  | .edges _ _ [] => .tau { s with pc := .loop, back := !s.back }
  | .edges v w ((n, x, l) :: es) =>
    let nw := x + w                                                       -- line 448
    if c.inf ≤ nw then .fail .overflowError                               -- lines 451-452
    else
      match g.dd.improve me.dist (c.vid n) nw with                        -- lines 464-471
      | none => .tau { s with pc := .edges v w es }
      | some d =>
        let me' : BdSide V W M ML D :=
          { me with
            heap := heapPush me.heap ⟨nw, me.no, n⟩                       -- line 489
            no := me.no - 1
            dist := d
            preds := if c.buildPath then g.mo.set me.preds (c.vid n) v else me.preds    -- lines 475-479
            labels := if c.buildPath then g.lo.set me.labels (c.vid n) l else me.labels }
        let total := nw + g.dd.get (s.get (!s.back)).dist (c.vid n)
        let s' := { s.setCur me' with pc := .edges v w es }
        if s.best ≤ total then .tau s'                                    -- lines 496-500
        else .tau { s' with best := total, node := n }                    -- lines 501-502

/-- The distances at the start (lines 299-316). -/
def bdDistances (starts : List V) : D := g.dd.setAll g.dd.empty (starts.map (fun v => (c.vid v, 0)))

/-- The entries for start vertices, numbered downwards (lines 246-247, 334-342). -/
def bdStartEntries (d : D) : List V → Int → List (HEntry W V)
  | [], _ => []
  | v :: vs, no => ⟨g.dd.get d (c.vid v), no, v⟩ :: bdStartEntries d vs (no - 1)

/-- The variables of one direction at the start (lines 185-198, 210-218, 253-262, 299-343). -/
def bdInitSide (starts : List V) (limit : Option Int) : BdSide V W M ML D where
  heap := heapify (bdStartEntries g c (bdDistances g c starts) starts 256)
  no := 256 - starts.length
  dist := bdDistances g c starts
  preds := if c.buildPath then g.mo.setAll g.mo.empty (starts.map (fun v => (c.vid v, v))) else g.mo.empty
  labels := g.lo.empty
  lim := prepareLimit limit

/-- The variables before the loop (lines 345-350); `start` is the first start vertex. -/
def bdInit (start : V) (starts goals : List V) (limit : Option Int) : BdState V L W M ML D where
  pc := .loop
  fw := bdInitSide g c starts limit
  bw := bdInitSide g c goals limit
  back := false
  best := c.inf
  node := start
  others := 0
  found := false

/-- The returned path (lines 508-514). It is a view on the two containers of paths, and thus shows
their content at the end of the search; `pathFuel` bounds the length of its iterations. (The code creates
the object after each expansion; between the last one and the end, neither the connecting
vertex nor the containers change.) -/
def bdPath (s : BdState V L W M ML D) (pathFuel : Nat) : PathObj V L :=
  if c.buildPath then
    PathObj.fromBidirectionalSearch
      (pathsView g.mo g.lo c.vid s.fw.preds s.fw.labels)
      (pathsView g.mo g.lo c.vid s.bw.preds s.bw.labels) pathFuel s.node
  else PathObj.ofNothing

/-- `start_from` (lines 113-515). -/
def bdSearch (starts goals : List V) (limit : Option Int) (fuel pathFuel : Nat) : SearchResult W V L :=
  match starts, goals with
  | [], _ => .notFound                                                    -- lines 275-279
  | _, [] => .notFound
  | start :: _, _ :: _ =>
    match biCommon c.vid starts goals true true with                      -- lines 286-293
    | some v => .found 0 (.fromVertex v)
    | none =>
      let r := runMachine (bdStep g c) fuel none (bdInit g c start starts goals limit)
      match r.ending with
      | .done => if r.final.found then .found r.final.best (bdPath g c r.final pathFuel) else .notFound
      | .raised e => .raised e
      | .outOfFuel => .outOfFuel

end NoGraphs
