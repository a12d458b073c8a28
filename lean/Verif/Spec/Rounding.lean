import Verif.Spec.Weighted

/-! # Specification: arithmetic with rounding -/

namespace NoGraphs.Spec

/-- A rounding function of an exact arithmetic: it never changes the order of two numbers, it does not change numbers
of the format, and zero is a number of the format. (IEEE 754 rounding is of this kind, with each
rounding mode.) -/
structure IsRounding {A : Type} [AddCommMonoid A] [LinearOrder A] (rd : A → A) : Prop where
  mono : ∀ a b, a ≤ b → rd a ≤ rd b
  idem : ∀ a, rd (rd a) = rd a
  zero : rd 0 = 0

/-- The weight of a walk as it is computed with rounding: begin with zero, and for each edge, add the weight of the
edge and round. -/
inductive RoundedWalk {A V L : Type} [AddCommMonoid A] (rd : A → A) (next : V → List (V × A × L)) (S : V → Prop) :
    A → V → Prop
  | start {v} : S v → RoundedWalk rd next S 0 v
  | step {w u v x} : RoundedWalk rd next S w u → WEdge next u v x → RoundedWalk rd next S (rd (w + x)) v

/-- The computed weight of a path. -/
inductive RoundedPath {A V L : Type} [AddCommMonoid A] (rd : A → A) (next : V → List (V × A × L)) :
    A → V → List (V × L) → A → Prop
  | nil {w u} : RoundedPath rd next w u [] w
  | cons {w u v x l rest w'} : (v, x, l) ∈ next u → RoundedPath rd next (rd (w + x)) v rest w' →
      RoundedPath rd next w u ((v, l) :: rest) w'

/-- Exact weight of a walk, together with its number of edges. -/
inductive CountedWalk {A V L : Type} [AddCommMonoid A] (next : V → List (V × A × L)) (S : V → Prop) : Nat → A → V → Prop
  | start {v} : S v → CountedWalk next S 0 0 v
  | step {n w u v x} : CountedWalk next S n w u → WEdge next u v x → CountedWalk next S (n + 1) (w + x) v

/-- Bounds for the error of one rounding of a non-negative number: the result is at least `lo a` and at most `up a`.
Think of `lo a = (1 - ε) * a` and `up a = (1 + ε) * a`. -/
structure ErrorBounds {A : Type} [AddCommMonoid A] [LE A] (rd lo up : A → A) : Prop where
  lo_mono : ∀ a b, a ≤ b → lo a ≤ lo b
  lo_add : ∀ a b, lo (a + b) = lo a + lo b
  lo_le : ∀ a, 0 ≤ a → lo a ≤ a
  lo_nonneg : ∀ a, 0 ≤ a → 0 ≤ lo a
  lo_rd : ∀ a, 0 ≤ a → lo a ≤ rd a
  up_mono : ∀ a b, a ≤ b → up a ≤ up b
  up_add : ∀ a b, up (a + b) = up a + up b
  up_ge : ∀ a, 0 ≤ a → a ≤ up a
  up_rd : ∀ a, 0 ≤ a → rd a ≤ up a

end NoGraphs.Spec
