import Mathlib.Data.List.Forall2

/-! # Specification: positions, cuboids and adjacency in grids -/

namespace NoGraphs.Spec

/-- The position is inside the limits (lower limit inclusive, upper limit exclusive), in each dimension. -/
def Inside (p : List Int) (limits : List (Int × Int)) : Prop :=
  List.Forall₂ (fun c l => l.1 ≤ c ∧ c < l.2) p limits

/-- The cuboid is not empty. -/
def NonEmpty (limits : List (Int × Int)) : Prop := ∀ l ∈ limits, l.1 < l.2

/-- In each dimension, the coordinates of both positions are congruent modulo the size of the cuboid. -/
inductive SameModulo : List Int → List Int → List (Int × Int) → Prop
  | nil : SameModulo [] [] []
  | cons {a b : Int} {p q : List Int} {l : Int × Int} {ls : List (Int × Int)} :
      (∃ k : Int, b = a + k * (l.2 - l.1)) → SameModulo p q ls → SameModulo (a :: p) (b :: q) (l :: ls)

/-- The number of dimensions in which two positions are different. -/
def differences (p q : List Int) : Nat := ((p.zip q).filter (fun c => decide (c.1 ≠ c.2))).length

/-- Coordinate by coordinate, the positions differ by at most one. -/
def Close (p q : List Int) : Prop := List.Forall₂ (fun a b => -1 ≤ b - a ∧ b - a ≤ 1) p q

/-- The positions are adjacent: close, and different in exactly one dimension; with `diagonals`, also in several ones;
with `zero`, a position is adjacent to itself. -/
def Adjacent (diagonals zero : Bool) (p q : List Int) : Prop :=
  Close p q ∧ (differences p q = 1 ∨ (diagonals = true ∧ 1 < differences p q) ∨ (zero = true ∧ differences p q = 0))

end NoGraphs.Spec
