import Verif.Model.ShortestPaths

/-!
# Model of `src/nographs/_strategies/traversals/with_weights/a_star.py`

Weights are elements of any linearly ordered commutative monoid: rounding of floating point numbers is not modelled.
The infinity value of the gear is any element. (Sums with the value infinity lead to an exception or to the value
infinity; so it does not matter that `inf + x` need not be `inf` here.)
-/

namespace NoGraphs

variable {V K L W M ML D : Type}

/-- What the traversal gets: the edges function (neighbor, weight, label; for unlabeled edges `L` is `Unit`),
`vertex_to_id`, the flags, the infinity value of the gear, and the heuristic function. Simplification: the edges
function and the heuristic function depend on the vertex only. -/
structure AStarCfg (V K L W : Type) where
  next : V → List (V × W × L)
  vid : V → K
  isTree : Bool
  buildPaths : Bool
  inf : W
  heur : V → W

/-- The variables of `_traverse`. `SpPc`: test of `while to_visit:` (line 333); after the `yield` (line 363) with
`vertex`, `path_weight`, `path_edge_count`; head of `for edge in next_edges(...)` (line 370). -/
structure AStarState (V L W M ML D : Type) where
  pc : SpPc V L W
  heap : List (HEntry W (V × Nat))
  no : Int
  dist : D
  guesses : D
  preds : M
  labels : ML

/-- A report: the vertex and the attributes of the traversal at that moment. -/
structure AStarReport (V W M ML D : Type) where
  vertex : V
  pathLength : W
  depth : Nat
  dist : D
  preds : M
  labels : ML

/-- `n_guess` (lines 417-421), without the check for overflow. -/
def aGuess [Add W] [DecidableEq W] (inf w h : W) : W := if h = inf then inf else w + h

variable [AddCommMonoid W] [LinearOrder W] (g : WGear V K L W M ML D) (c : AStarCfg V K L W)

/-- The check and update of the distance of the neighbor (lines 389-396). `none`: `continue`. -/
def aImprove (d : D) (nId : K) (nw : W) : Option D :=
  if c.isTree then some (g.dd.set d nId nw) else g.dd.improve d nId nw

/-- One step of `_traverse` (`a_star.py` 333-435). -/
def aStep (s : AStarState V L W M ML D) : Step (AStarState V L W M ML D) (AStarReport V W M ML D) :=
  match s.pc with
  | .loop =>
    match s.heap with
    | [] => .stop s                                                             -- line 333
    | e :: rest =>                                                              -- line 335
      let v := e.item.1
      let ec := e.item.2
      if !c.isTree && decide (g.dd.get s.guesses (c.vid v) < e.key) then
        .tau { s with heap := rest }                                            -- lines 351-352
      else
        let w := g.dd.get s.dist (c.vid v)                                      -- line 355
        let s' := { s with heap := rest, pc := .expand v w ec }
        if ec > 0 then .emit ⟨v, w, ec, s.dist, s.preds, s.labels⟩ s'           -- lines 358-363
        else .tau s'
  | .expand v w ec => .expand { s with pc := .edges v w ec (c.next v) }         -- lines 365-370
  | .edges _ _ _ [] => .tau { s with pc := .loop }
  | .edges v w ec ((n, x, l) :: es) =>                                          -- lines 370-435
    let nw := x + w
    if c.inf ≤ nw then .fail .overflowError                                     -- lines 376-377
    else
      match aImprove g c s.dist (c.vid n) nw with
      | none => .tau { s with pc := .edges v w ec es }                          -- lines 390-391
      | some d =>
        let h := c.heur n
        let guess := aGuess c.inf nw h                                          -- lines 417-421
        if h ≠ c.inf ∧ c.inf ≤ guess then .fail .overflowError                  -- lines 424-425
        else
          .tau { pc := .edges v w ec es
                 heap := heapPush s.heap ⟨guess, s.no, (n, ec + 1)⟩             -- lines 432-435
                 no := s.no - 1
                 dist := d
                 guesses := if c.isTree then s.guesses else g.dd.set s.guesses (c.vid n) guess  -- lines 427-431
                 preds := if c.buildPaths then g.mo.set s.preds (c.vid n) v else s.preds        -- lines 400-415
                 labels := if c.buildPaths then g.lo.set s.labels (c.vid n) l else s.labels }

/-- The distances after `start_from` (lines 230-236, `define_distances` in `_strategies/utils.py` 132-152). -/
def aDistances (known : Option D) (starts : List V) : D :=
  match known with
  | none => g.dd.setAll g.dd.empty (starts.map (fun v => (c.vid v, 0)))
  | some d => g.dd.setDefaults d (starts.map (fun v => (c.vid v, 0)))

/-- The path length guesses at the start (lines 299-310, `define_distances`). (For `is_tree` with given
`known_path_length_guesses`, the direct read of a missing entry of a sequence-based mapping, an `IndexError`, reads as
infinity here; see `Model/DirectReads` for the exception.) -/
def aGuesses (known : Option D) (d : D) (starts : List V) : D :=
  let kvs := starts.map (fun v => (c.vid v, g.dd.get d (c.vid v) + c.heur v))
  match known with
  | none => g.dd.setAll g.dd.empty kvs
  | some k => if c.isTree then k else g.dd.setDefaults k kvs

/-- The heap entries for start vertices, numbered downwards (lines 290, 318-328). -/
def aStartEntries (gu : D) : List V → Int → List (HEntry W (V × Nat))
  | [], _ => []
  | v :: vs, no => ⟨g.dd.get gu (c.vid v), no, (v, 0)⟩ :: aStartEntries gu vs (no - 1)

/-- State at the start of `_traverse` (`a_star.py` 206-236, 290-329). -/
def aInit (known knownGuesses : Option D) (starts : List V) : AStarState V L W M ML D :=
  let d := aDistances g c known starts
  let gu := aGuesses g c knownGuesses d starts
  { pc := .loop
    heap := heapify (aStartEntries g c gu starts 256)
    no := 256 - starts.length
    dist := d
    guesses := gu
    preds := if c.buildPaths then g.mo.setAll g.mo.empty (starts.map (fun v => (c.vid v, v))) else g.mo.empty
    labels := g.lo.empty }

/-- A traversal, started from `starts` and iterated (at most `fuel` steps). -/
def aRun (known knownGuesses : Option D) (starts : List V) (limit : Option Int) (fuel : Nat) :
    RunResult (AStarState V L W M ML D) (AStarReport V W M ML D) :=
  runMachine (aStep g c) fuel (prepareLimit limit) (aInit g c known knownGuesses starts)

end NoGraphs
