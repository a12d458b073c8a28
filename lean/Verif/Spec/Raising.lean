import Mathlib.Data.List.Basic

/-! # Specification: exceptions of the function that gives the edges -/

namespace NoGraphs.Spec

/-- For some vertices, the application raises an exception (`raises`). The edges of the vertices `reads` have been read, in this
order; `exception` is the vertex whose exception has ended the traversal, if any; and `done` says that the traversal has
ended normally. Then: no edges are read after those of a vertex with an exception. If the traversal ends with the exception of
a vertex, then the edges of this vertex have been read last, and it has an exception. If it ends normally, none of the read
vertices has one. -/
structure RaisesAtFirst {V : Type} (raises : V → Bool) (reads : List V) (exception : Option V) (done : Prop) : Prop where
  last : ∀ A v B, reads = A ++ v :: B → raises v = true → B = []
  raised : ∀ v, exception = some v → raises v = true ∧ ∃ A, reads = A ++ [v]
  complete : done → ∀ v ∈ reads, raises v = false

end NoGraphs.Spec
