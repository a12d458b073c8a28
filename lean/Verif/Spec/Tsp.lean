import Mathlib.Algebra.Group.Defs

/-! # Specification: round trips through given vertices -/

namespace NoGraphs.Spec

variable {V G : Type} [Add G] [Zero G]

/-- The total weight of the edges along a sequence of vertices, if all these edges exist. `w a b` is the weight of the
edge from `a` to `b`. -/
def pathWeight (w : V → V → Option G) : List V → Option G
  | [] => some 0
  | [_] => some 0
  | a :: b :: rest =>
    match w a b, pathWeight w (b :: rest) with
    | some x, some y => some (x + y)
    | _, _ => none

/-- `path` is a round trip through `vertices`: it begins and ends with the same vertex, it visits, apart from that, each of
the vertices once, all its edges exist, and their total weight is `length`. -/
def IsRoundTrip (w : V → V → Option G) (vertices : List V) (path : List V) (length : G) : Prop :=
  ∃ first rest, path = first :: rest ++ [first] ∧ (first :: rest).Perm vertices ∧ pathWeight w path = some length

/-- No round trip through the vertices is shorter. -/
def IsShortest [LE G] (w : V → V → Option G) (vertices : List V) (length : G) : Prop :=
  ∀ path l, IsRoundTrip w vertices path l → length ≤ l

/-- No round trip through the vertices is longer. -/
def IsLongest [LE G] (w : V → V → Option G) (vertices : List V) (length : G) : Prop :=
  ∀ path l, IsRoundTrip w vertices path l → l ≤ length

end NoGraphs.Spec
