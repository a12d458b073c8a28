/-! # Specification: edges of a graph given by a collection of edges -/

namespace NoGraphs.Spec

variable {V D : Type} [DecidableEq V]

/-- The edges of a vertex in a graph given by a list of edges (start vertex, end vertex, data), in the given order; with
`inverted`, also each inverted edge. -/
def edgesOf (edges : List (V × V × D)) (inverted : Bool) (v : V) : List (V × D) :=
  edges.flatMap (fun e => (if e.1 = v then [(e.2.1, e.2.2)] else []) ++
    (if inverted = true ∧ e.2.1 = v then [(e.1, e.2.2)] else []))

/-- The edges given by a sequence: position in the sequence, vertex, data. -/
def sequenceEdges {E D : Type} (to : E → Int) (data : E → D) (index : List (List E)) : List (Int × Int × D) :=
  index.zipIdx.flatMap (fun p => p.1.map (fun e => ((p.2 : Int), to e, data e)))

end NoGraphs.Spec
