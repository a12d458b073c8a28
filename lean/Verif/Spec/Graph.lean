import Mathlib.Algebra.Order.Monoid.Defs

/-! # Specification: graphs, walks, lengths of walks

A graph is given by the function that lists the labeled out-edges of a vertex. -/

namespace NoGraphs.Spec

variable {V K L W : Type}

/-- There is an edge from `u` to `v`. -/
def Edge (next : V → List (V × L)) (u v : V) : Prop := ∃ l, (v, l) ∈ next u

/-- Edges to vertices that are not excluded. -/
def Allowed (next : V → List (V × L)) (vid : V → K) (excl : K → Prop) (u v : V) : Prop :=
  Edge next u v ∧ ¬ excl (vid v)

/-- `WalkN E S n v`: a walk with `n` edges leads from a vertex with `S` to `v`. -/
inductive WalkN (E : V → V → Prop) (S : V → Prop) : Nat → V → Prop
  | start {v} : S v → WalkN E S 0 v
  | step {n u v} : WalkN E S n u → E u v → WalkN E S (n + 1) v

/-- `v` is reachable from a vertex with `S`. -/
def Reachable (E : V → V → Prop) (S : V → Prop) (v : V) : Prop := ∃ n, WalkN E S n v

/-- `n` is the minimal number of edges of walks to a vertex with the same id as `v`. -/
def IsDepth (E : V → V → Prop) (S : V → Prop) (vid : V → K) (v : V) (n : Nat) : Prop :=
  WalkN E S n v ∧ ∀ m v', WalkN E S m v' → vid v' = vid v → n ≤ m

/-- Vertices with the same id have, up to ids, the same successors. (Trivial for an injective `vid`.) -/
def Compat (E : V → V → Prop) (vid : V → K) : Prop :=
  ∀ u u' v, vid u = vid u' → E u v → ∃ v', E u' v' ∧ vid v' = vid v

/-- Only finitely many ids of reachable vertices. -/
def FinitelyReachable (E : V → V → Prop) (S : V → Prop) (vid : V → K) : Prop :=
  ∃ ids : List K, ∀ v, Reachable E S v → vid v ∈ ids

/-- A path of labeled edges of the graph: each step is a listed edge. -/
def IsPath (next : V → List (V × L)) : V → List (V × L) → Prop
  | _, [] => True
  | u, (v, l) :: rest => (v, l) ∈ next u ∧ IsPath next v rest

theorem Compat.of_injective (E : V → V → Prop) (vid : V → K) (h : Function.Injective vid) :
    Compat E vid := by
  intro u u' v e hE
  rw [← h e]; exact ⟨v, hE, rfl⟩

end NoGraphs.Spec

namespace NoGraphs.Spec

variable {V K L : Type}

/-- The part of the graph that is reachable from `starts` is a forest with roots `starts`: different
starts have different ids, no edge leads to a start, the edges of a vertex lead to different ids, and
edges from different vertices lead to different ids. -/
structure IsForest (next : V → List (V × L)) (vid : V → K) (starts : List V) : Prop where
  starts_nodup : (starts.map vid).Nodup
  no_edge_to_start : ∀ u w, Reachable (Edge next) (· ∈ starts) u → Edge next u w → vid w ∉ starts.map vid
  children_nodup : ∀ u, Reachable (Edge next) (· ∈ starts) u → ((next u).map (fun e => vid e.1)).Nodup
  one_parent : ∀ u u' w w', Reachable (Edge next) (· ∈ starts) u → Reachable (Edge next) (· ∈ starts) u' →
    Edge next u w → Edge next u' w' → vid w = vid w' → u = u'

end NoGraphs.Spec

namespace NoGraphs.Spec

variable {V K L : Type}

/-- A walk with `n` edges leads from a start vertex to a goal vertex (a vertex with the id of one). -/
def Connects (E : V → V → Prop) (vid : V → K) (starts goals : List V) (n : Nat) : Prop :=
  ∃ v, ∃ t ∈ goals, vid v = vid t ∧ WalkN E (· ∈ starts) n v

/-- `n` is the minimal number of edges from a start vertex to a goal vertex. -/
def IsMinLength (E : V → V → Prop) (vid : V → K) (starts goals : List V) (n : Nat) : Prop :=
  Connects E vid starts goals n ∧ ∀ m, Connects E vid starts goals m → n ≤ m

/-- The second edges function gives, for each vertex, the incoming edges of the graph of the first. -/
def Opposite (nextF nextB : V → List (V × L)) : Prop :=
  ∀ u v l, (v, l) ∈ nextF u ↔ (u, l) ∈ nextB v

/-- As `Opposite`, without labels. -/
def OppositeEdges (nextF nextB : V → List (V × L)) : Prop :=
  ∀ u v, Edge nextF u v ↔ Edge nextB v u

end NoGraphs.Spec
