import Mathlib.Algebra.Order.Ring.Nat
import Mathlib.Data.Nat.Log

/-! # The C type `float`, for non-negative integers

IEEE 754, binary32: a number has a significand of 24 bits. A conversion to the format yields the nearest number of the
format, and of two nearest numbers the one with the even significand. Here, this is said for the
non-negative integers among the numbers (units: 1), which are enough for examples. -/

namespace NoGraphs.Spec

/-- The integers that have a significand of `bits` bits. -/
def HasBits (bits n : Nat) : Prop := ∃ s e, s < 2 ^ bits ∧ n = s * 2 ^ e

/-- Round to `bits` significant bits: nearest, ties to even. -/
def roundBits (bits n : Nat) : Nat :=
  let e := Nat.log 2 n + 1 - bits
  let s := n / 2 ^ e
  let r := n % 2 ^ e
  if 2 ^ e < 2 * r ∨ 2 ^ e = 2 * r ∧ s % 2 = 1 then (s + 1) * 2 ^ e else s * 2 ^ e

/-- What is read from an item of type `float` after `n` has been written to it. Values that are too large become infinite
(here: `inf`). -/
def asFloat32 (inf n : Nat) : Nat := if 2 ^ 128 ≤ roundBits 24 n then inf else roundBits 24 n

end NoGraphs.Spec
