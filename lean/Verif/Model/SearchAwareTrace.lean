import Verif.Model.Reads

/-!
# Search-aware graphs and depth-first search with trace

Here, the edges function is called with `next_edge_or_vertex(vertex, self)` in `depth_first.py` 922. See
`Verif/Model/SearchAware.lean` for arbitrary edges functions.
-/

namespace NoGraphs

variable {V K L S M ML : Type} [DecidableEq V] [DecidableEq K] (g : TravGear V K L S M ML) (c : TraceCfg V K L)

/-- What the edges function gets: the vertex, and the attributes of the traversal (`depth_first.py` 922). -/
def trView (s : TraceState V K L S M ML) (v : V) : TraceReport V K L S M ML :=
  ⟨v, s.depth, s.event, s.visited, s.onTrace, s.trace.reverse, s.traceLabels.reverse, s.index, s.preds, s.labels⟩

/-- A traversal in a search-aware graph. -/
def trAwareRun (F : Nat → TraceReport V K L S M ML → List (V × L)) (already : S) (starts : List V) (limit : Option Int)
    (fuel : Nat) : RunResult (TraceState V K L S M ML × Nat) (TraceReport V K L S M ML) :=
  runMachine (awareStep (fun next => trStep g { c with next := next }) trView F) fuel (prepareLimit limit)
    (trInit g already starts, 0)

/-- The calls of the edges function of this traversal. -/
def trAwareCalls (F : Nat → TraceReport V K L S M ML → List (V × L)) (already : S) (starts : List V)
    (limit : Option Int) (fuel : Nat) : List (TraceReport V K L S M ML × List (V × L)) :=
  awareCalls (fun next => trStep g { c with next := next }) (trWho c) trView F fuel (prepareLimit limit)
    (trInit g already starts, 0)

end NoGraphs
