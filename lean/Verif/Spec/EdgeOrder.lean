import Verif.Spec.Graph
import Verif.Spec.Weighted

/-! # Specification: graphs that differ only in the order and the repetition of edges -/

namespace NoGraphs.Spec

variable {V L L' W : Type}

/-- The two edges functions list edges to the same vertices, in any order, any number of times, and with any labels. -/
def SameGraph (next : V → List (V × L)) (next' : V → List (V × L')) : Prop := ∀ u v, Edge next u v ↔ Edge next' u v

/-- The two lists have the same members, in any order, any number of times. -/
def SameMembers (a b : List V) : Prop := ∀ v, v ∈ a ↔ v ∈ b

/-- For each edge of the first graph, the second has an edge between the same vertices that is not heavier. -/
def NotHeavier [LE W] (next : V → List (V × W × L)) (next' : V → List (V × W × L')) : Prop :=
  ∀ u v x, WEdge next u v x → ∃ y, y ≤ x ∧ WEdge next' u v y

/-- The two edges functions list, up to order, repetition and labels, the same edges, or differ in parallel edges that are
not lighter than other ones: for each edge of one graph, the other graph has an edge between the same vertices that is not
heavier. -/
def SameCheapest [LE W] (next : V → List (V × W × L)) (next' : V → List (V × W × L')) : Prop :=
  NotHeavier next next' ∧ NotHeavier next' next

end NoGraphs.Spec
