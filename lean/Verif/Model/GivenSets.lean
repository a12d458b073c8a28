import Verif.Model.DepthFirstBoth
import Verif.Model.Topological

/-!
# Model of the check of a given collection of visited vertices

`TraversalDepthFirstFlex._traverse_with_trace` and `TraversalTopologicalSortFlex._traverse_in_non_tree` work with two sets
of vertex ids: one for visited vertices, possibly given by the application, and one for the vertices on the trace, created
by the gear. They access both in the same way, and check that this is possible.
-/

namespace NoGraphs

variable {V K L S M ML : Type}

/-- How a set is accessed: what `access_to_vertex_set` (`_gear_collections.py` 438-479) returns as `uses_sequence`,
`uses_bits` and `index_and_bit_method`. There is only one class with bit packing (lines 923-1010), thus only one
`index_and_bit_method`. -/
inductive SetKind where
  /-- not a wrapper of a sequence, e.g. a `set` of Python, or a `MutableSet` of the application -/
  | other
  /-- a wrapper of a sequence of flags -/
  | flags
  /-- a wrapper of a sequence of integers with bit packing -/
  | bits
  deriving DecidableEq, Repr

/-- Depth-first search with a set `already` of kind `given`, where the sets of the gear are of kind `gear`. The assertions
of the variant with trace (`depth_first.py` 514-534) are evaluated when the first vertex is demanded, before anything else
happens. Simplification: if the kinds are equal, the model uses the same operations for both sets. -/
def depthFirstRunGiven [DecidableEq V] [DecidableEq K] (gear given : SetKind) (g : TravGear V K L S M ML)
    (f : DfsGraph V K L) (o : DfsOptions) (already : S) (starts : List V) (limit : Option Int) (fuel : Nat) :
    Option (DfsSeenRun V K S) :=
  match dfsOptions o with
  | none => none
  | some o' =>
    if o'.withTrace ∧ given ≠ gear then some ⟨[], .raised .assertionError⟩
    else depthFirstRun g f o already starts limit fuel

/-- Topological sorting with a set `already` of kind `given`, where the sets of the gear are of kind `gear`. The assertions
of the variant for non-trees (`topological_sort.py` 425-445) are evaluated when the first vertex is demanded.
Simplification: as above. -/
def topoRunGiven [DecidableEq V] [DecidableEq K] (gear given : SetKind) (g : TravGear V K L S M ML) (c : TravCfg V K L)
    (already : S) (starts : List V) (limit : Option Int) (fuel : Nat) :
    RunResult (TopoState V L S M ML) (TopoReport V S M ML) :=
  if c.isTree = false ∧ given ≠ gear then ⟨[], .raised .assertionError, topoInit g c already starts⟩
  else topoRun g c already starts limit fuel

end NoGraphs
