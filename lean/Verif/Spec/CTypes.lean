import Mathlib.Algebra.Order.Ring.Int

/-! # The C integer types of `array.array`

Documentation of the module `array` of Python: the type codes, whether the type is signed, and the minimum size
of an item in bytes. The actual size depends on the platform: it may be larger. -/

namespace NoGraphs.Spec

/-- Documentation of `array`: a type code is a signed or an unsigned integer type with a minimum size. -/
structure CIntType where
  signed : Bool
  minSize : Nat
deriving DecidableEq

/-- The table in the documentation of `array`: type code, C type, minimum size in bytes. -/
def cIntTypes : List (Char × CIntType) :=
  [('b', ⟨true, 1⟩), ('B', ⟨false, 1⟩), ('h', ⟨true, 2⟩), ('H', ⟨false, 2⟩), ('i', ⟨true, 2⟩), ('I', ⟨false, 2⟩),
   ('l', ⟨true, 4⟩), ('L', ⟨false, 4⟩), ('q', ⟨true, 8⟩), ('Q', ⟨false, 8⟩)]

/-- An integer can be stored in an item of `size` bytes (two's complement). -/
def FitsCInt (signed : Bool) (size : Nat) (x : Int) : Prop :=
  if signed then -(2 ^ (8 * size - 1)) ≤ x ∧ x < 2 ^ (8 * size - 1) else 0 ≤ x ∧ x < 2 ^ (8 * size)

instance (signed : Bool) (size : Nat) (x : Int) : Decidable (FitsCInt signed size x) := by
  unfold FitsCInt; infer_instance

end NoGraphs.Spec
