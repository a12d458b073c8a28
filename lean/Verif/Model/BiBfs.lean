import Verif.Model.Bfs

/-!
# Model of `src/nographs/_strategies/bidirectional_search/breadth_first.py`

The search drives two breadth-first traversals (`_traversal_bi`), one over the outgoing edges from the
start vertices and one over the incoming edges from the goal vertices, by alternating between their
generators.  Each traversal is a machine `bfsStep` with `_report_depth_increase=True`.
-/

namespace NoGraphs

variable {V K L S M ML : Type} [DecidableEq V] [DecidableEq K]

/-- What the bidirectional search gets: the two edges functions (`BNextLabeledEdges`; for unlabeled
edges `L` is `Unit`), `vertex_to_id` and `build_path`. -/
structure BiCfg (V K L : Type) where
  nextF : V → List (V × L)
  nextB : V → List (V × L)
  vid : V → K
  buildPath : Bool

/-- The configuration of one of the two traversals (`breadth_first.py` 115-126, 192-198;
`is_tree` is not given, thus `False`). -/
def BiCfg.side (c : BiCfg V K L) (backwards : Bool) : TravCfg V K L where
  next := if backwards then c.nextB else c.nextF
  vid := c.vid
  isTree := false
  buildPaths := c.buildPath

/-- One of the two traversals, as object: state of its generator, whether the generator was already
resumed (before, attribute `depth` is 0, then `_traverse` sets it to 1: `traversals/without_weights/`
`breadth_first.py` 207, 282), and its variable `calculation_limit`. -/
structure BiSide (V L S M ML : Type) where
  st : BfsState V L S M ML
  started : Bool
  lim : Option Int

/-- Attribute `depth` of a traversal. -/
def BiSide.depth (s : BiSide V L S M ML) : Int := if s.started then s.st.depth else 0

/-- The variables of `start_from`. `back` tells which of the two traversals is iterated. -/
structure BiState (V L S M ML : Type) where
  fw : BiSide V L S M ML
  bw : BiSide V L S M ML
  back : Bool
  prev : Option V
  result : Option (Int × PathObj V L)

/-- The iterated traversal. -/
def BiState.cur (s : BiState V L S M ML) : BiSide V L S M ML := if s.back then s.bw else s.fw

/-- The other traversal. -/
def BiState.other (s : BiState V L S M ML) : BiSide V L S M ML := if s.back then s.fw else s.bw

/-- Replace the state of the iterated traversal. -/
def BiState.setCur (s : BiState V L S M ML) (x : BiSide V L S M ML) : BiState V L S M ML :=
  if s.back then { s with bw := x } else { s with fw := x }

variable (g : TravGear V K L S M ML) (c : BiCfg V K L)

/-- The path that is returned for a vertex found from both directions (lines 326-333). The iterations of
the path containers end after at most `depth` steps; the fuel given here suffices
(see `C29_bibfs_path`). -/
def biPath (s : BiState V L S M ML) (v : V) : PathObj V L :=
  if c.buildPath then
    PathObj.fromBidirectionalSearch
      (pathsView g.mo g.lo c.vid s.fw.st.preds s.fw.st.labels)
      (pathsView g.mo g.lo c.vid s.bw.st.preds s.bw.st.labels)
      ((s.fw.depth + s.bw.depth).toNat + 1) v
  else PathObj.ofNothing

/-- One step of the inner loop (lines 257-338). A step of the iterated traversal is one step here. -/
def biStep (s : BiState V L S M ML) : Step (BiState V L S M ML) Unit :=
  match bfsStep g (c.side s.back) true s.cur.st with
  | .stop _ => .stop s                                      -- lines 335-338: nothing reported any more
  | .fail e => .fail e
  | .tau t => .tau (s.setCur { s.cur with st := t, started := true })
  | .expand t =>                                            -- calculation limit of the traversal
    match checkLimit s.cur.lim with
    | none => .fail .runtimeError
    | some l => .expand (s.setCur { st := t, started := true, lim := l })
  | .emit r t =>
    let s' := s.setCur { s.cur with st := t, started := true }
    if s.prev = some r.vertex then                          -- lines 291-292: depth will increase
      .tau { s' with back := !s.back, prev := none }
    else if g.so.contains s.other.st.visited (c.vid r.vertex) then     -- lines 295-334
      .stop { s' with result := some (s'.fw.depth + s'.bw.depth, biPath g c s' r.vertex) }
    else .tau { s' with prev := some r.vertex }             -- lines 293, 301-324

/-- State before the inner loop (lines 192-200). -/
def biInit (starts goals : List V) (limit : Option Int) : BiState V L S M ML where
  fw := ⟨bfsInit g (c.side false) g.so.empty starts, false, prepareLimit limit⟩
  bw := ⟨bfsInit g (c.side true) g.so.empty goals, false, prepareLimit limit⟩
  back := false
  prev := none
  result := none

/-- The result of the search. -/
inductive SearchResult (W V L : Type) where
  | found (length : W) (path : PathObj V L)
  /-- no path: `KeyError`, or `-1` (resp. infinity) and a dummy path, if `fail_silently` -/
  | notFound
  | raised (e : PyErr)
  | outOfFuel
  deriving DecidableEq

/-- Lines 233-255: the first vertex of the second (!) iteration of the start vertices whose id is also an
id of a goal vertex. `reF` and `reB` tell whether start and goal vertices can be iterated again: if
not, they have been consumed by the `start_from` of the traversals (line 192-198). -/
def biCommon (vid : V → K) (starts goals : List V) (reF reB : Bool) : Option V :=
  let starts := if reF then starts else []
  let goals := if reB then goals else []
  starts.find? (fun v => decide (vid v ∈ goals.map vid))

/-- `start_from` (lines 128-343): `reF`, `reB` as for `biCommon`. -/
def biSearch (starts goals : List V) (reF reB : Bool) (limit : Option Int) (fuel : Nat) :
    SearchResult Int V L :=
  match biCommon c.vid starts goals reF reB with
  | some v => .found 0 (.fromVertex v)
  | none =>
    let r := runMachine (biStep g c) fuel none (biInit g c starts goals limit)
    match r.ending with
    | .done =>
      match r.final.result with
      | some (n, p) => .found n p
      | none => .notFound
    | .raised e => .raised e
    | .outOfFuel => .outOfFuel

end NoGraphs
