import Verif.Model.ShortestPaths

/-!
# Model of `src/nographs/_strategies/traversals/with_weights/extra_infinite_branching.py`

The class reduces its problem to a shortest paths problem for states `(vertex, edge_no)`, and runs a
`TraversalShortestPathsFlex` on it (modelled by `spStep`). The edges function of that traversal is stateful: it holds
iterators over the edges of vertices, and it calculates the weights of the edges of states from the distances that the
traversal has found so far.
-/

namespace NoGraphs

variable {V W M ML D Mo Do : Type}

/-- What the traversal gets. `edges v i` is the `i`-th edge (end vertex, weight) that the iteration of
`next_edges(v, ...)` gives; `none`: the iteration has ended before. `sub` is the subtraction of weights, `inf` the
infinity value of the internal gear. Simplifications: the edges depend on the vertex only, and if a state is expanded
whose iterator has been deleted (`KeyError`), this is noticed before the limit check (it is proved that it does not
happen). -/
structure IbCfg (V W : Type) where
  edges : V → Nat → Option (V × W)
  sub : W → W → W
  inf : W
  buildPaths : Bool
  storeDistances : Bool

/-- The collections of the gear of the user (results). -/
structure IbGear (V W Mo Do : Type) where
  mo : MapOps Mo V V
  dd : DistOps Do V W

/-- The variables of `_traverse`: those of the inner traversal, the dictionary `state_iterators` (number of edges that
have been read from the iterator of a vertex), and the attributes of the traversal. -/
structure IbState (V W M ML D Mo Do : Type) where
  sp : SpState (V × Nat) Unit W M ML D
  iters : V → Option Nat
  preds : Mo
  dist : Do
  distance : W

/-- A report: the vertex and the attributes of the traversal at that moment. -/
structure IbReport (V W Mo Do : Type) where
  vertex : V
  distance : W
  dist : Do
  preds : Mo

variable [DecidableEq V] [AddCommMonoid W] [LinearOrder W]
variable (g : WGear (V × Nat) (V × Nat) Unit W M ML D) (o : IbGear V W Mo Do) (c : IbCfg V W)

/-- The configuration of the inner traversal (lines 239-247). Its edges function is modelled separately (`ibEdges`). -/
def ibInner : WCfg (V × Nat) (V × Nat) Unit W where
  next := fun _ => []
  vid := id
  isTree := false
  buildPaths := c.buildPaths
  keepDistances := true
  inf := c.inf

/-- `next_state_edges` (lines 193-225): the edges of a state, and the dictionary `state_iterators` afterwards. -/
def ibEdges (d : D) (iters : V → Option Nat) (st : V × Nat) :
    Except PyErr (List ((V × Nat) × W × Unit) × (V → Option Nat)) :=
  let base := g.dd.get d (st.1, 0)                                               -- line 201
  match (if st.2 = 0 then some 0 else iters st.1) with                           -- lines 202-209
  | none => .error .keyError
  | some pos =>
    match c.edges st.1 pos with
    | none => .ok ([], fun v => if v = st.1 then none else iters v)              -- lines 223-225
    | some (u, w) =>
      let x := c.sub (base + w) (g.dd.get d st)                                  -- lines 212-218
      .ok ([((u, 0), x, ()), ((st.1, st.2 + 1), x, ())],                         -- lines 219-222
        fun v => if v = st.1 then some (pos + 1) else iters v)

/-- The predecessor of a vertex, from the paths of states (lines 258-260). `StopIteration` inside of a generator is
changed to `RuntimeError` by Python. -/
def ibPrev (r : SpReport (V × Nat) W M ML D) : Except PyErr V :=
  match (pathsView g.mo g.lo id r.preds r.labels).iterVerticesToStart 2 r.vertex with
  | (_ :: p :: _, _) => .ok p.1
  | (_, .raised e) => .error e
  | _ => .error .runtimeError

/-- The body of the loop over the reported states (lines 250-266), for a state with edge number 0. -/
def ibReport (s : IbState V W M ML D Mo Do) (r : SpReport (V × Nat) W M ML D) :
    Except PyErr (IbReport V W Mo Do) :=
  let v := r.vertex.1
  let d := if c.storeDistances then o.dd.set s.dist v r.distance else s.dist    -- lines 262-264
  if c.buildPaths then
    match ibPrev g r with
    | .error e => .error e
    | .ok p => .ok ⟨v, r.distance, d, o.mo.set s.preds v p⟩
  else .ok ⟨v, r.distance, d, s.preds⟩

/-- One step: a step of the inner traversal (`spStep`), where an expansion calls `next_state_edges`, and where reported
states are filtered (lines 192-266). -/
def ibStep (s : IbState V W M ML D Mo Do) : Step (IbState V W M ML D Mo Do) (IbReport V W Mo Do) :=
  match s.sp.pc with
  | .expand st w ec =>
    match ibEdges g c s.sp.dist s.iters st with
    | .error e => .fail e
    | .ok (es, it) =>
      .expand { s with
        sp := { s.sp with pc := .edges st w ec es }, iters := it
        distance := if st.2 = 0 then g.dd.get s.sp.dist (st.1, 0) else s.distance }
  | _ =>
    match spStep g (ibInner c) s.sp with
    | .stop sp => .stop { s with sp := sp }
    | .fail e => .fail e
    | .tau sp => .tau { s with sp := sp }
    | .expand sp => .expand { s with sp := sp }
    | .emit r sp =>
      if r.vertex.2 = 0 then
        match ibReport g o c s r with
        | .error e => .fail e
        | .ok r' => .emit r' { s with sp := sp, preds := r'.preds, dist := r'.dist, distance := r'.distance }
      else .tau { s with sp := sp }                                              -- line 252

/-- The start vertices that `_traverse` sees (line 238), if they are given as a collection (`isCollection`) or as an
iterator that can be used only once. For the latter, `start_from` has already used it if `store_distances` is set
(lines 174-183), except if it made a collection from it, for `build_paths` (`traversal.py` 124-134). -/
def ibStarts (isCollection : Bool) (starts : List V) : List V :=
  if isCollection || c.buildPaths || !c.storeDistances then starts else []

/-- State at the start of `_traverse` (lines 160-190, 227-247). -/
def ibInit (isCollection : Bool) (starts : List V) : IbState V W M ML D Mo Do where
  sp := spInit g (ibInner c) none ((ibStarts c isCollection starts).map (fun v => (v, 0)))
  iters := fun _ => none
  preds := if c.buildPaths then o.mo.setAll o.mo.empty (starts.map (fun v => (v, v))) else o.mo.empty
  dist := if c.storeDistances then o.dd.setAll o.dd.empty (starts.map (fun v => (v, 0))) else o.dd.empty
  distance := c.inf

/-- A traversal, started from `starts` and iterated (at most `fuel` steps). -/
def ibRun (isCollection : Bool) (starts : List V) (limit : Option Int) (fuel : Nat) :
    RunResult (IbState V W M ML D Mo Do) (IbReport V W Mo Do) :=
  runMachine (ibStep g o c) fuel (prepareLimit limit) (ibInit g o c isCollection starts)

end NoGraphs
