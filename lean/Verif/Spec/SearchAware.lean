/-! # Specification: the graph that an edges function has shown

A call of the edges function is recorded as a pair: what the function got, and the edges that it returned. -/

namespace NoGraphs.Spec

variable {V K C E : Type} [DecidableEq K]

/-- The ordinary graph of the returned edges: the edges of a vertex are those that were returned when the function was
called for it (resp. for a vertex with the same id). `vert` tells for which vertex a call was. -/
def graphOfCalls (vid : V → K) (vert : C → V) (calls : List (C × List E)) (v : V) : List E :=
  match calls.find? (fun call => decide (vid (vert call.1) = vid v)) with
  | some call => call.2
  | none => []

end NoGraphs.Spec
