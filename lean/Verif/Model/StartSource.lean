import Verif.Model.SearchAwareTrace

/-!
# Start vertices from a generator

`start_from` accepts any iterable of start vertices (`traversal.py` 102-159). `TraversalDepthFirst` neither stores its
elements beforehand nor marks them as visited (`depth_first.py` 279-290): the loop `for start_vertex in
self._start_vertices` (lines 562 and 1045) asks the iterator for the next start vertex when it needs it. So, a generator of
start vertices can use the results of the traversal that are available then ("search-aware start vertices", see
`docs/source/search_aware_graphs.rst`).

In the models of depth-first search, the start vertices are a list. Here, these models are run with an arbitrary source: it
gets the number of the demand and the state of the traversal at the time of the demand, and it returns a start vertex, or
`none` (`StopIteration`).
-/

namespace NoGraphs

variable {σ ρ V E : Type}

/-- How a strategy takes its start vertices: `asks s` says that the strategy is at the head of its loop over the start
vertices, and `put s vs` is state `s` with `vs` as the remaining start vertices. -/
structure StartLoop (σ V : Type) where
  asks : σ → Bool
  put : σ → List V → σ

/-- One step of a strategy `m` whose start vertices come from source `G`; `x.2` demands have been made so far. At the
head of the loop, the source is asked, and then the strategy works with its answer. Elsewhere, the strategy does not look
at start vertices. -/
def sourceStep (m : σ → Step σ ρ) (lp : StartLoop σ V) (G : Nat → σ → Option V) (x : σ × Nat) : Step (σ × Nat) ρ :=
  let n := if lp.asks x.1 then x.2 + 1 else x.2
  match m (if lp.asks x.1 then lp.put x.1 (G x.2 x.1).toList else x.1) with
  | .stop s => .stop (s, n)
  | .fail e => .fail e
  | .tau s => .tau (s, n)
  | .emit r s => .emit r (s, n)
  | .expand s => .expand (s, n)

/-- A demand for a start vertex: what happened before, the state of the traversal, and the answer. -/
structure Demand (σ ρ V : Type) where
  past : List (Ev ρ)
  seen : σ
  got : Option V

/-- The demands during a run (compare `runMachine`), in their order; `past` is what happened so far. -/
def demands (m : σ → Step σ ρ) (lp : StartLoop σ V) (G : Nat → σ → Option V) :
    Nat → Option Int → σ × Nat → List (Ev ρ) → List (Demand σ ρ V)
  | 0, _, _, _ => []
  | fuel + 1, lim, x, past =>
    (if lp.asks x.1 then [⟨past, x.1, G x.2 x.1⟩] else []) ++
    match sourceStep m lp G x with
    | .stop _ => []
    | .fail _ => []
    | .tau y => demands m lp G fuel lim y past
    | .emit r y => demands m lp G fuel lim y (past ++ [.rep r])
    | .expand y =>
      match checkLimit lim with
      | none => []
      | some lim' => demands m lp G fuel lim' y (past ++ [.exp])

/-- The start vertices the source has returned. -/
def gotOf (ds : List (Demand σ ρ V)) : List V := ds.filterMap (·.got)

section
variable {K L S M ML : Type}

/-- The loop over the start vertices in the variant without trace (`depth_first.py` 1045). -/
def dfsLoop : StartLoop (DfsState V L S M ML) V where
  asks s := match s.pc with
    | .start => true
    | _ => false
  put s vs := { s with starts := vs }

/-- The loop over the start vertices in the variant with trace (`depth_first.py` 562). -/
def trLoop : StartLoop (TraceState V K L S M ML) V where
  asks s := match s.pc with
    | .start => true
    | _ => false
  put s vs := { s with starts := vs }

variable [DecidableEq V] (g : TravGear V K L S M ML)

/-- A depth-first traversal without trace, with a source of start vertices (compare `dfsRun`). -/
def dfsSourceRun (c : DfsCfg V K L) (G : Nat → DfsState V L S M ML → Option V) (already : S) (limit : Option Int)
    (fuel : Nat) : RunResult (DfsState V L S M ML × Nat) (DfsReport V S M ML) :=
  runMachine (sourceStep (dfsStep g c) dfsLoop G) fuel (prepareLimit limit) (dfsInit g c already [], 0)

/-- The demands for start vertices of this traversal. -/
def dfsDemands (c : DfsCfg V K L) (G : Nat → DfsState V L S M ML → Option V) (already : S) (limit : Option Int)
    (fuel : Nat) : List (Demand (DfsState V L S M ML) (DfsReport V S M ML) V) :=
  demands (dfsStep g c) dfsLoop G fuel (prepareLimit limit) (dfsInit g c already [], 0) []

/-- A depth-first traversal with trace, with a source of start vertices (compare `trRun`). -/
def trSourceRun [DecidableEq K] (c : TraceCfg V K L) (G : Nat → TraceState V K L S M ML → Option V) (already : S)
    (limit : Option Int) (fuel : Nat) : RunResult (TraceState V K L S M ML × Nat) (TraceReport V K L S M ML) :=
  runMachine (sourceStep (trStep g c) trLoop G) fuel (prepareLimit limit) (trInit g already [], 0)

/-- The demands for start vertices of this traversal. -/
def trDemands [DecidableEq K] (c : TraceCfg V K L) (G : Nat → TraceState V K L S M ML → Option V) (already : S)
    (limit : Option Int) (fuel : Nat) : List (Demand (TraceState V K L S M ML) (TraceReport V K L S M ML) V) :=
  demands (trStep g c) trLoop G fuel (prepareLimit limit) (trInit g already [], 0) []

/-! ## Search-aware start vertices in a search-aware graph -/

/-- The loop over the start vertices of a strategy that runs in a search-aware graph. -/
def StartLoop.aware (lp : StartLoop σ V) : StartLoop (σ × Nat) V where
  asks x := lp.asks x.1
  put x vs := (lp.put x.1 vs, x.2)

/-- A depth-first traversal without trace, with arbitrary edges function and arbitrary source of start vertices. (The source
sees also how many calls of the edges function have been made.) -/
def dfsBothRun (c : DfsCfg V K L) (F : Nat → DfsReport V S M ML → List (V × L))
    (G : Nat → DfsState V L S M ML × Nat → Option V) (already : S) (limit : Option Int) (fuel : Nat) :
    RunResult ((DfsState V L S M ML × Nat) × Nat) (DfsReport V S M ML) :=
  runMachine (sourceStep (awareStep (fun next => dfsStep g { c with next := next }) dfsView F) dfsLoop.aware G) fuel
    (prepareLimit limit) ((dfsInit g c already [], 0), 0)

/-- The demands for start vertices of this traversal. -/
def dfsBothDemands (c : DfsCfg V K L) (F : Nat → DfsReport V S M ML → List (V × L))
    (G : Nat → DfsState V L S M ML × Nat → Option V) (already : S) (limit : Option Int) (fuel : Nat) :
    List (Demand (DfsState V L S M ML × Nat) (DfsReport V S M ML) V) :=
  demands (awareStep (fun next => dfsStep g { c with next := next }) dfsView F) dfsLoop.aware G fuel
    (prepareLimit limit) ((dfsInit g c already [], 0), 0) []

/-- A depth-first traversal with trace, with arbitrary edges function and arbitrary source of start vertices. -/
def trBothRun [DecidableEq K] (c : TraceCfg V K L) (F : Nat → TraceReport V K L S M ML → List (V × L))
    (G : Nat → TraceState V K L S M ML × Nat → Option V) (already : S) (limit : Option Int) (fuel : Nat) :
    RunResult ((TraceState V K L S M ML × Nat) × Nat) (TraceReport V K L S M ML) :=
  runMachine (sourceStep (awareStep (fun next => trStep g { c with next := next }) trView F) trLoop.aware G) fuel
    (prepareLimit limit) ((trInit g already [], 0), 0)

/-- The demands for start vertices of this traversal. -/
def trBothDemands [DecidableEq K] (c : TraceCfg V K L) (F : Nat → TraceReport V K L S M ML → List (V × L))
    (G : Nat → TraceState V K L S M ML × Nat → Option V) (already : S) (limit : Option Int) (fuel : Nat) :
    List (Demand (TraceState V K L S M ML × Nat) (TraceReport V K L S M ML) V) :=
  demands (awareStep (fun next => trStep g { c with next := next }) trView F) trLoop.aware G fuel
    (prepareLimit limit) ((trInit g already [], 0), 0) []

end

end NoGraphs
