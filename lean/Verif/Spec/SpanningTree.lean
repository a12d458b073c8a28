import Verif.Spec.Graph
import Verif.Spec.Weighted

/-! # Specification: spanning trees

Edges with their source are written as (from, to, weight, label). -/

namespace NoGraphs.Spec

variable {V K L W : Type}

/-- The edges of some vertices, in order. -/
def outEdges (next : V → List (V × W × L)) (us : List V) : List (V × V × W × L) :=
  us.flatMap (fun u => (next u).map (fun e => (u, e)))

/-- The edges that lead from the vertices `us` to vertices with other ids than these. -/
def leavingEdges [DecidableEq K] (next : V → List (V × W × L)) (vid : V → K) (us : List V) : List (V × V × W × L) :=
  (outEdges next us).filter (fun e => decide (vid e.2.1 ∉ us.map vid))

/-- `e` is the first one of the lightest edges of a list. -/
def FirstLightest [LT W] [LE W] (l : List (V × V × W × L)) (e : V × V × W × L) : Prop :=
  ∃ A B, l = A ++ e :: B ∧ (∀ a ∈ A, e.2.2.1 < a.2.2.1) ∧ ∀ b ∈ B, e.2.2.1 ≤ b.2.2.1

/-- The edges `T` are chosen one after the other: each of them is the first one of the lightest edges that lead
from the vertices connected so far to other vertices. -/
def PrimSeq [DecidableEq K] [LT W] [LE W] (next : V → List (V × W × L)) (vid : V → K) (starts : List V)
    (T : List (V × V × W × L)) : Prop :=
  ∀ T1 e T2, T = T1 ++ e :: T2 → FirstLightest (leavingEdges next vid (starts ++ T1.map (fun e => e.2.1))) e

/-- The edge `f` (from, to, weight) joins the vertices with ids `j` and `k`, in any direction. -/
def Joins (vid : V → K) (f : V × V × W) (j k : K) : Prop :=
  (vid f.1 = j ∧ vid f.2.1 = k) ∨ (vid f.1 = k ∧ vid f.2.1 = j)

/-- The edges `F`, used in any direction, connect the vertices with ids `j` and `k`. -/
inductive Linked (vid : V → K) (F : List (V × V × W)) : K → K → Prop
  | refl {k} : Linked vid F k k
  | step {f j k m} : f ∈ F → Joins vid f j k → Linked vid F k m → Linked vid F j m

/-- The edges are edges of the graph. -/
def GraphEdges (next : V → List (V × W × L)) (F : List (V × V × W)) : Prop := ∀ f ∈ F, WEdge next f.1 f.2.1 f.2.2

/-- Each edge can also be used in the other direction, with the same weight. -/
def WSymmetric (next : V → List (V × W × L)) : Prop := ∀ u v x, WEdge next u v x → WEdge next v u x

/-- The edges without labels. -/
def plainEdges (T : List (V × V × W × L)) : List (V × V × W) := T.map (fun e => (e.1, e.2.1, e.2.2.1))

/-- The graph that consists of the edges `T` only, without weights. -/
def treeNext [DecidableEq V] (T : List (V × V × W × L)) (u : V) : List (V × L) :=
  (T.filter (fun e => decide (e.1 = u))).map (fun e => (e.2.1, e.2.2.2))

/-- A walk of edges leads from a start vertex to `v`. -/
def WReachable (next : V → List (V × W × L)) (starts : List V) (v : V) : Prop :=
  Reachable (fun u w => ∃ x, WEdge next u w x) (· ∈ starts) v

end NoGraphs.Spec
