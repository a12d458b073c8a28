import Verif.Spec.Graph

/-! # Specification: cycles, independent start vertices, walks as lists -/

namespace NoGraphs.Spec

variable {V K L : Type}

/-- Consecutive vertices of the list are connected by edges. -/
def WalkList (E : V → V → Prop) : List V → Prop
  | [] => True
  | [_] => True
  | a :: b :: r => E a b ∧ WalkList E (b :: r)

/-- A cycle can be reached from the start vertices: from some reachable vertex, a walk with at least one
edge leads to a vertex with the same id. -/
def ReachableCycle (E : V → V → Prop) (starts : List V) (vid : V → K) : Prop :=
  ∃ v, Reachable E (· ∈ starts) v ∧ ∃ n w, WalkN E (· = v) (n + 1) w ∧ vid w = vid v

/-- No walk leads from one start vertex to a different one. (Trivial for a single start vertex.) -/
def Independent (E : V → V → Prop) (vid : V → K) (starts : List V) : Prop :=
  ∀ s ∈ starts, ∀ t ∈ starts, ∀ v, Reachable E (· = s) v → vid v = vid t → vid t = vid s

end NoGraphs.Spec
