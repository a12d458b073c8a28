import Mathlib.Algebra.Order.Monoid.Defs

/-! # Specification: graphs with sequences of edges (possibly infinitely many edges per vertex) -/

namespace NoGraphs.Spec

variable {V W : Type}

/-- There is an edge from `u` to `v` with weight `x`. -/
def SeqEdge (edges : V → Nat → Option (V × W)) (u v : V) (x : W) : Prop := ∃ i, edges u i = some (v, x)

/-- A walk with total weight `w` leads from one of the vertices with `S` to `v`. -/
inductive SeqWalk [Add W] [Zero W] (edges : V → Nat → Option (V × W)) (S : V → Prop) : W → V → Prop
  | start {v} : S v → SeqWalk edges S 0 v
  | step {w u v x} : SeqWalk edges S w u → SeqEdge edges u v x → SeqWalk edges S (w + x) v

/-- `w` is the minimal total weight of walks to `v`. -/
def SeqDist [Add W] [Zero W] [LE W] (edges : V → Nat → Option (V × W)) (S : V → Prop) (v : V) (w : W) : Prop :=
  SeqWalk edges S w v ∧ ∀ w', SeqWalk edges S w' v → w ≤ w'

/-- The vertices `steps` follow a path of edges from `u` with the total weight `w`. -/
inductive IsSeqPath [Add W] [Zero W] (edges : V → Nat → Option (V × W)) : V → List V → W → Prop
  | nil {u} : IsSeqPath edges u [] 0
  | cons {u v x rest w} : SeqEdge edges u v x → IsSeqPath edges v rest w → IsSeqPath edges u (v :: rest) (x + w)

/-- The edges are given as sequences (no further edge after the end), with non-negative weights in ascending order. -/
structure SortedSeqs [Zero W] [LE W] (edges : V → Nat → Option (V × W)) : Prop where
  ended : ∀ v i, edges v i = none → edges v (i + 1) = none
  nonneg : ∀ v u w, edges v 0 = some (u, w) → 0 ≤ w
  sorted : ∀ v i u w u' w', edges v i = some (u, w) → edges v (i + 1) = some (u', w') → w ≤ w'

/-- Subtraction of weights behaves as expected, for weights below infinity. -/
structure SubLaws [Add W] [Zero W] [LE W] [LT W] (sub : W → W → W) (inf : W) : Prop where
  pos : 0 < inf
  cancel : ∀ d a b, d + b < inf → sub (d + a) (d + b) = sub a b
  add : ∀ a b, b ≤ a → b < inf → sub a b + b = a
  nonneg : ∀ a b, b ≤ a → b < inf → 0 ≤ sub a b

end NoGraphs.Spec
