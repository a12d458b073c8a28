import Verif.Spec.Reads

/-! # Specification: how often the edges of a vertex are asked for -/

namespace NoGraphs.Spec

/-- The edges of a vertex are read at most as often as the vertex is given as start vertex and reported, in total. -/
def ReadPerReport {V : Type} [DecidableEq V] (starts : List V) (acts : List (Act V)) : Prop :=
  ∀ v, (readsOf acts).count v ≤ starts.count v + (reportedOf acts).count v

/-- The edges of no two vertices with the same id are read: for each vertex, the program is asked for edges at most once. -/
def ReadOnce {V K : Type} (vid : V → K) (acts : List (Act V)) : Prop :=
  ((readsOf acts).map vid).Nodup

end NoGraphs.Spec
