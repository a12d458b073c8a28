import Verif.Model.Bfs
import Verif.Model.DepthFirst
import Verif.Model.MinimumSpanningTree
import Verif.Model.NeighborsThenDepth
import Verif.Model.ShortestPaths

/-!
# Search-aware graphs

The strategies call the edges function with a traversal object as second argument: `next_edge_or_vertex(vertex,
prev_traversal)` in `breadth_first.py` 307 and `neighbors_then_depth.py` 324, `next_edge_or_vertex(vertex, self)` in
`depth_first.py` 1170, `next_edges(vertex, self)` in `shortest_paths.py` 315, `minimum_spanning_tree.py` 226, 318.
(For `topological_sort.py`, see `Model/SearchAwareTopo.lean`. In `a_star.py`, a vertex can be expanded again.) The function
may use the attributes of this object, and everything else the program knows at the time of the call: two calls for the same
vertex can have different results.

In the models of the strategies, the edges function depends on the vertex only. Here, the models are run with an arbitrary
edges function: it gets the number of the call and the attributes of the traversal object at the time of the call. (The
number of the call makes it possible to describe each behaviour that occurs in some execution: functions with side effects,
and generators that compute further edges while the first ones have already been processed by the traversal.)
-/

namespace NoGraphs

variable {σ ρ V E C : Type}

/-- One step of a strategy `m` with an arbitrary edges function `F`. `view s v` is what the function gets in state `s` for
vertex `v`; `n` calls have been made so far. -/
def awareStep (m : (V → List E) → σ → Step σ ρ) (view : σ → V → C) (F : Nat → C → List E) (x : σ × Nat) :
    Step (σ × Nat) ρ :=
  match m (fun v => F x.2 (view x.1 v)) x.1 with
  | .stop s => .stop (s, x.2)
  | .fail e => .fail e
  | .tau s => .tau (s, x.2)
  | .emit r s => .emit r (s, x.2)
  | .expand s => .expand (s, x.2 + 1)

/-- The calls of the edges function during a run (compare `runMachine`): what the function got, and the edges it returned.
`who s` is the vertex whose edges are read in state `s`. -/
def awareCalls (m : (V → List E) → σ → Step σ ρ) (who : σ → Option V) (view : σ → V → C) (F : Nat → C → List E) :
    Nat → Option Int → σ × Nat → List (C × List E)
  | 0, _, _ => []
  | fuel + 1, lim, x =>
    match awareStep m view F x with
    | .stop _ => []
    | .fail _ => []
    | .tau y => awareCalls m who view F fuel lim y
    | .emit _ y => awareCalls m who view F fuel lim y
    | .expand y =>
      match checkLimit lim with
      | none => []
      | some lim' =>
        (who x.1).toList.map (fun v => (view x.1 v, F x.2 (view x.1 v))) ++ awareCalls m who view F fuel lim' y

/-! ## Breadth-first search -/

section
variable {K L S M ML : Type} (g : TravGear V K L S M ML) (c : TravCfg V K L)

/-- The vertex whose edges are read next (`breadth_first.py` 301-307). -/
def bfsWho (s : BfsState V L S M ML) : Option V :=
  match s.pc with
  | .loop => s.toExpand.head?
  | _ => none

/-- What the edges function gets: the vertex, and the attributes of `prev_traversal` (`breadth_first.py` 275, 307, 377): it
shares `visited` and `paths` with the traversal, and its depth is one lower. -/
def bfsView (s : BfsState V L S M ML) (v : V) : BfsReport V S M ML := ⟨v, s.depth - 1, s.visited, s.preds, s.labels⟩

/-- A breadth-first traversal in a search-aware graph. -/
def bfsAwareRun (F : Nat → BfsReport V S M ML → List (V × L)) (already : S) (starts : List V) (limit : Option Int)
    (fuel : Nat) : RunResult (BfsState V L S M ML × Nat) (BfsReport V S M ML) :=
  runMachine (awareStep (fun next => bfsStep g { c with next := next } false) bfsView F) fuel (prepareLimit limit)
    (bfsInit g c already starts, 0)

/-- The calls of the edges function of this traversal. -/
def bfsAwareCalls (F : Nat → BfsReport V S M ML → List (V × L)) (already : S) (starts : List V) (limit : Option Int)
    (fuel : Nat) : List (BfsReport V S M ML × List (V × L)) :=
  awareCalls (fun next => bfsStep g { c with next := next } false) bfsWho bfsView F fuel (prepareLimit limit)
    (bfsInit g c already starts, 0)

end

/-! ## Shortest paths -/

section
variable {K L W M ML D : Type} [AddCommMonoid W] [LinearOrder W] (g : WGear V K L W M ML D) (c : WCfg V K L W)

/-- The vertex whose edges are read next (`shortest_paths.py` 310-315). -/
def spWho (s : SpState V L W M ML D) : Option V :=
  match s.pc with
  | .expand v _ _ => some v
  | _ => none

/-- What the edges function gets: the vertex, and the attributes of the traversal (`shortest_paths.py` 303-304, 315). -/
def spView (s : SpState V L W M ML D) (v : V) : SpReport V W M ML D :=
  match s.pc with
  | .expand _ w ec => ⟨v, w, ec, s.dist, s.preds, s.labels⟩
  | _ => ⟨v, 0, 0, s.dist, s.preds, s.labels⟩

/-- A shortest paths traversal in a search-aware graph. -/
def spAwareRun (F : Nat → SpReport V W M ML D → List (V × W × L)) (known : Option D) (starts : List V) (limit : Option Int)
    (fuel : Nat) : RunResult (SpState V L W M ML D × Nat) (SpReport V W M ML D) :=
  runMachine (awareStep (fun next => spStep g { c with next := next }) spView F) fuel (prepareLimit limit)
    (spInit g c known starts, 0)

/-- The calls of the edges function of this traversal. -/
def spAwareCalls (F : Nat → SpReport V W M ML D → List (V × W × L)) (known : Option D) (starts : List V)
    (limit : Option Int) (fuel : Nat) : List (SpReport V W M ML D × List (V × W × L)) :=
  awareCalls (fun next => spStep g { c with next := next }) spWho spView F fuel (prepareLimit limit)
    (spInit g c known starts, 0)

end

/-! ## Minimum spanning tree -/

section
variable {K L W S M ML : Type} [LinearOrder W] (g : TravGear V K L S M ML) (c : MstCfg V K L W)

/-- The vertex whose edges are read next (`minimum_spanning_tree.py` 225-226, 313-318). -/
def mstWho (s : MstState V L W S M ML) : Option V :=
  match s.pc with
  | .starts (v :: _) => some v
  | .expand v => some v
  | _ => none

/-- What the edges function gets: the vertex, and the paths of the traversal (`minimum_spanning_tree.py` 226, 318).
Simplification: the attribute `edge` is left out. -/
structure MstView (V M ML : Type) where
  vertex : V
  preds : M
  labels : ML

/-- What the edges function gets in state `s` (`minimum_spanning_tree.py` 226, 318). -/
def mstView (s : MstState V L W S M ML) (v : V) : MstView V M ML := ⟨v, s.preds, s.labels⟩

/-- A traversal in a search-aware graph (limit check before the first call: `minimum_spanning_tree.py` 203-213). -/
def mstAwareRun (F : Nat → MstView V M ML → List (V × W × L)) (starts : List V) (limit : Option Int) (fuel : Nat) :
    RunResult (MstState V L W S M ML × Nat) (MstReport V L W M ML) :=
  if limit.any (fun k : Int => 0 ≤ k && k < starts.length) then
    { events := [], ending := .raised .runtimeError, final := (mstInit g c starts, 0) }
  else runMachine (awareStep (fun next => mstStep g { c with next := next }) mstView F) fuel (prepareLimit limit)
    (mstInit g c starts, 0)

/-- The calls of the edges function of this traversal. -/
def mstAwareCalls (F : Nat → MstView V M ML → List (V × W × L)) (starts : List V) (limit : Option Int) (fuel : Nat) :
    List (MstView V M ML × List (V × W × L)) :=
  if limit.any (fun k : Int => 0 ≤ k && k < starts.length) then []
  else awareCalls (fun next => mstStep g { c with next := next }) mstWho mstView F fuel (prepareLimit limit)
    (mstInit g c starts, 0)

end

/-! ## Neighbors before depth -/

section
variable {K L S M ML : Type} (g : TravGear V K L S M ML) (c : NtdCfg V K L)

/-- The vertex whose edges are read next (`neighbors_then_depth.py` 307-324). -/
def ntdWho (s : NtdState V L S M ML) : Option V :=
  match s.pc with
  | .loop =>
    match s.toExpand with
    | [] => none
    | v :: _ => if c.computeDepth then (ntdPop s.markers (s.depth + 1)).map (fun _ => v) else some v
  | _ => none

/-- What the edges function gets: the vertex, and the attributes of `prev_traversal` (`neighbors_then_depth.py` 273, 310-316,
324): it shares `visited` and `paths` with the traversal. -/
def ntdView (s : NtdState V L S M ML) (v : V) : NtdReport V S M ML where
  vertex := v
  depth := if c.computeDepth then ((ntdPop s.markers (s.depth + 1)).map (fun x => x.2)).getD (-1) else -1
  visited := s.visited
  preds := s.preds
  labels := s.labels

/-- A traversal in a search-aware graph. -/
def ntdAwareRun (F : Nat → NtdReport V S M ML → List (V × L)) (already : S) (starts : List V) (limit : Option Int)
    (fuel : Nat) : RunResult (NtdState V L S M ML × Nat) (NtdReport V S M ML) :=
  runMachine (awareStep (fun next => ntdStep g { c with next := next }) (ntdView c) F) fuel (prepareLimit limit)
    (ntdInit g c already starts, 0)

/-- The calls of the edges function of this traversal. -/
def ntdAwareCalls (F : Nat → NtdReport V S M ML → List (V × L)) (already : S) (starts : List V) (limit : Option Int)
    (fuel : Nat) : List (NtdReport V S M ML × List (V × L)) :=
  awareCalls (fun next => ntdStep g { c with next := next }) (ntdWho c) (ntdView c) F fuel (prepareLimit limit)
    (ntdInit g c already starts, 0)

end

/-! ## Depth-first search (without trace) -/

section
variable {K L S M ML : Type} [DecidableEq V] (g : TravGear V K L S M ML) (c : DfsCfg V K L)

/-- The vertex whose edges are read next (`depth_first.py` 1144-1170). -/
def dfsWho (s : DfsState V L S M ML) : Option V :=
  match s.pc with
  | .entered v rep => if rep && c.skip s.n then none else some v
  | _ => none

/-- What the edges function gets: the vertex, and the attributes of the traversal (`depth_first.py` 1170). -/
def dfsView (s : DfsState V L S M ML) (v : V) : DfsReport V S M ML :=
  ⟨v, s.selfDepth, s.event, s.visited, s.preds, s.labels⟩

/-- A traversal in a search-aware graph. -/
def dfsAwareRun (F : Nat → DfsReport V S M ML → List (V × L)) (already : S) (starts : List V) (limit : Option Int)
    (fuel : Nat) : RunResult (DfsState V L S M ML × Nat) (DfsReport V S M ML) :=
  runMachine (awareStep (fun next => dfsStep g { c with next := next }) dfsView F) fuel (prepareLimit limit)
    (dfsInit g c already starts, 0)

/-- The calls of the edges function of this traversal. -/
def dfsAwareCalls (F : Nat → DfsReport V S M ML → List (V × L)) (already : S) (starts : List V) (limit : Option Int)
    (fuel : Nat) : List (DfsReport V S M ML × List (V × L)) :=
  awareCalls (fun next => dfsStep g { c with next := next }) (dfsWho c) dfsView F fuel (prepareLimit limit)
    (dfsInit g c already starts, 0)

end

end NoGraphs
