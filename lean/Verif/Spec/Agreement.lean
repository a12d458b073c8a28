import Verif.Spec.Graph
import Verif.Spec.Weighted

/-! # Specification: what a traversal has to find, independent of the strategy -/

namespace NoGraphs.Spec

variable {V K L L' W : Type}

/-- The ids of the vertices that can be reached from the start vertices, without the ids of the start vertices. -/
def IsNewId (E : V → V → Prop) (vid : V → K) (starts : List V) (k : K) : Prop :=
  k ∉ starts.map vid ∧ ∃ v, Reachable E (· ∈ starts) v ∧ vid v = k

/-- The list contains exactly the new ids, and each of them once. -/
def ListsNewIds (E : V → V → Prop) (vid : V → K) (starts : List V) (ids : List K) : Prop :=
  ids.Nodup ∧ ∀ k, k ∈ ids ↔ IsNewId E vid starts k

/-- The weighted graph has the same edges as the graph without weights. Labels do not matter, and parallel edges may have
several weights. -/
def SameEdges (next : V → List (V × L)) (wnext : V → List (V × W × L')) : Prop :=
  ∀ u v, Edge next u v ↔ ∃ x, WEdge wnext u v x

/-- All edges have the weight `x`. -/
def ConstWeight (wnext : V → List (V × W × L')) (x : W) : Prop := ∀ u v y, WEdge wnext u v y → y = x

end NoGraphs.Spec
