import Mathlib.Algebra.Order.Monoid.Defs
import Verif.Spec.Paths

/-! # Specification: weighted graphs, weights of walks, distances

A weighted graph is given by the function that lists the out-edges of a vertex, each with target,
weight, and label. -/

namespace NoGraphs.Spec

variable {V K L W : Type}

/-- There is an edge from `u` to `v` with weight `x`. -/
def WEdge (next : V → List (V × W × L)) (u v : V) (x : W) : Prop := ∃ l, (v, x, l) ∈ next u

variable [Add W] [Zero W]

/-- `WalkW next S w v`: a walk with total weight `w` leads from a vertex with `S` to `v`. -/
inductive WalkW (next : V → List (V × W × L)) (S : V → Prop) : W → V → Prop
  | start {v} : S v → WalkW next S 0 v
  | step {w u v x} : WalkW next S w u → WEdge next u v x → WalkW next S (w + x) v

/-- `w` is the minimal total weight of walks to a vertex with the same id as `v`. -/
def IsDist [LE W] (next : V → List (V × W × L)) (S : V → Prop) (vid : V → K) (v : V) (w : W) : Prop :=
  WalkW next S w v ∧ ∀ w' v', WalkW next S w' v' → vid v' = vid v → w ≤ w'

/-- Vertices with the same id have, up to ids and labels, the same weighted edges. -/
def WCompat (next : V → List (V × W × L)) (vid : V → K) : Prop :=
  ∀ u u' v x, vid u = vid u' → WEdge next u v x → ∃ v', WEdge next u' v' x ∧ vid v' = vid v

/-- A path of edges of the graph from `u`, and a total weight of its edges. -/
inductive IsWPath (next : V → List (V × W × L)) : V → List (V × L) → W → Prop
  | nil {u} : IsWPath next u [] 0
  | cons {u v x l rest w} : (v, x, l) ∈ next u → IsWPath next v rest w →
      IsWPath next u ((v, l) :: rest) (x + w)

/-- A path of edges of the graph from `u`, with the sum of `w` and the weights of its edges, added one after the other
from the first edge to the last. (For weights with rounding, the sum depends on this order.) -/
inductive IsWPathFrom (next : V → List (V × W × L)) : W → V → List (V × L) → W → Prop
  | nil {w u} : IsWPathFrom next w u [] w
  | cons {w u v x l rest w'} : (v, x, l) ∈ next u → IsWPathFrom next (w + x) v rest w' →
      IsWPathFrom next w u ((v, l) :: rest) w'

/-- Laws of addition and comparison of weights. Not required: associativity, which is violated by
rounding. -/
class WeightLaws (W : Type) [Add W] [Zero W] [LE W] : Prop where
  comm : ∀ a b : W, a + b = b + a
  zero : ∀ a : W, a + 0 = a
  mono : ∀ a b c : W, a ≤ b → a + c ≤ b + c

/-- All weights are non-negative. -/
def NonNeg [LE W] (next : V → List (V × W × L)) : Prop := ∀ u v x, WEdge next u v x → 0 ≤ x

/-- Walks that respect known distances: a walk begins at a vertex with `S`, with the distance that is
known for it, and each further vertex has to be reached with a smaller distance than the
one that is known for it. -/
inductive KWalk [LT W] (next : V → List (V × W × L)) (S : V → Prop) (vid : V → K) (known : K → W) :
    W → V → Prop
  | start {v} : S v → KWalk next S vid known (known (vid v)) v
  | step {w u v x} : KWalk next S vid known w u → WEdge next u v x → w + x < known (vid v) →
      KWalk next S vid known (w + x) v

/-- Minimal total weight of walks that respect known distances. -/
def IsKDist [LE W] [LT W] (next : V → List (V × W × L)) (S : V → Prop) (vid : V → K) (known : K → W)
    (v : V) (w : W) : Prop :=
  KWalk next S vid known w v ∧ ∀ w' v', KWalk next S vid known w' v' → vid v' = vid v → w ≤ w'

/-- Only finitely many ids of reachable vertices. -/
def WFinitelyReachable (next : V → List (V × W × L)) (S : V → Prop) (vid : V → K) : Prop :=
  ∃ ids : List K, ∀ w v, WalkW next S w v → vid v ∈ ids

/-- A walk with total weight `w` leads from a start vertex to a goal vertex (a vertex with the id of one). -/
def WConnects (next : V → List (V × W × L)) (vid : V → K) (starts goals : List V) (w : W) : Prop :=
  ∃ v, ∃ t ∈ goals, vid v = vid t ∧ WalkW next (· ∈ starts) w v

/-- `w` is the minimal total weight of walks from a start vertex to a goal vertex. -/
def IsMinWeight [LE W] (next : V → List (V × W × L)) (vid : V → K) (starts goals : List V) (w : W) : Prop :=
  WConnects next vid starts goals w ∧ ∀ w', WConnects next vid starts goals w' → w ≤ w'

/-- The second edges function gives, for each vertex, the incoming edges of the graph of the first. -/
def WOpposite (nextF nextB : V → List (V × W × L)) : Prop :=
  ∀ u v x l, (v, x, l) ∈ nextF u ↔ (u, x, l) ∈ nextB v

/-- As `WOpposite`, without labels. -/
def WOppositeEdges (nextF nextB : V → List (V × W × L)) : Prop :=
  ∀ u v x, WEdge nextF u v x ↔ WEdge nextB v u x

/-- `w` is the minimal total weight of walks to vertices with id `k`. -/
def IsIdDist [LE W] (next : V → List (V × W × L)) (S : V → Prop) (vid : V → K) (k : K) (w : W) : Prop :=
  (∃ v, vid v = k ∧ WalkW next S w v) ∧ ∀ w' v', WalkW next S w' v' → vid v' = k → w ≤ w'

/-- A walk with total weight `w` to `v` that visits no id twice; `ks` are the visited ids. -/
inductive SimpleWalkW (next : V → List (V × W × L)) (S : V → Prop) (vid : V → K) : List K → W → V → Prop
  | start {v} : S v → SimpleWalkW next S vid [vid v] 0 v
  | step {ks w u v x} : SimpleWalkW next S vid ks w u → WEdge next u v x → vid v ∉ ks →
      SimpleWalkW next S vid (vid v :: ks) (w + x) v

/-- The heuristic function gives equal estimates for vertices with equal ids. -/
def HeurCompat (heur : V → W) (vid : V → K) : Prop := ∀ u v, vid u = vid v → heur u = heur v

/-- The heuristic function is admissible for the goals: it never overestimates the weight of a walk to a goal. -/
def Admissible [LE W] (next : V → List (V × W × L)) (heur : V → W) (goal : V → Prop) : Prop :=
  ∀ u w v, WalkW next (· = u) w v → goal v → heur u ≤ w

/-- The heuristic function is consistent: following an edge never reduces the estimate by more than the weight of the
edge. -/
def Consistent [LE W] (next : V → List (V × W × L)) (heur : V → W) : Prop :=
  ∀ u v x, WEdge next u v x → heur u ≤ x + heur v

end NoGraphs.Spec
