import Verif.Model.SearchAware
import Verif.Model.Reads

/-!
# Search-aware graphs: topological sorting

Compare `Model/SearchAware.lean`. The strategy calls `next_edge_or_vertex(vertex, self)` in `topological_sort.py` 545.
-/

namespace NoGraphs

variable {V K L S M ML : Type} (g : TravGear V K L S M ML) (c : TravCfg V K L)

/-- What the edges function gets: the vertex, and the attributes of the traversal (`topological_sort.py` 545). The id of the
vertex has been added to `visited` before (479-484, 498-506, 526-535), except for start vertices, where `visited` contains it
from the beginning. -/
def topoView (s : TopoState V L S M ML) (v : V) : TopoReport V S M ML where
  vertex := v
  depth := s.depth
  visited := if 0 < s.depth then (g.so.checkAdd s.visited (c.vid v)).2 else s.visited
  preds := s.preds
  labels := s.labels

/-- A topological sorting (variant for non-trees) in a search-aware graph. -/
def topoAwareRun (F : Nat → TopoReport V S M ML → List (V × L)) (already : S) (starts : List V) (limit : Option Int)
    (fuel : Nat) : RunResult (TopoState V L S M ML × Nat) (TopoReport V S M ML) :=
  runMachine (awareStep (fun next => topoStep g { c with next := next }) (topoView g c) F) fuel (prepareLimit limit)
    (topoInit g c already starts, 0)

/-- The calls of the edges function of this traversal. -/
def topoAwareCalls (F : Nat → TopoReport V S M ML → List (V × L)) (already : S) (starts : List V) (limit : Option Int)
    (fuel : Nat) : List (TopoReport V S M ML × List (V × L)) :=
  awareCalls (fun next => topoStep g { c with next := next }) (topoWho g c) (topoView g c) F fuel (prepareLimit limit)
    (topoInit g c already starts, 0)

end NoGraphs
