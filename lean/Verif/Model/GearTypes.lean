import Mathlib.Algebra.Order.Ring.Int
import Verif.Model.Gear

/-!
# Gears with C-native storage

Model of the type codes of `array.array` as used by `src/nographs/_gears.py`, and of the distance mappings of
`GearForIntVertexIDsAndCInts` and `GearForIntVerticesAndIDsAndCInts`.
-/

namespace NoGraphs

/-- The type codes for integers (`_gears.py` 130). -/
inductive TypeCode where
  | b | B | h | H | i | I | l | L | q | Q
deriving DecidableEq

/-- The string of the type code (`_gears.py` 130). -/
def TypeCode.char : TypeCode → Char
  | .b => 'b' | .B => 'B' | .h => 'h' | .H => 'H' | .i => 'i' | .I => 'I' | .l => 'l' | .L => 'L' | .q => 'q' | .Q => 'Q'

/-- `c.lower() == c` (`_gears.py` 135). -/
def TypeCode.isLower : TypeCode → Bool
  | .b | .h | .i | .l | .q => true
  | .B | .H | .I | .L | .Q => false

/-- `bytes_of_type_code` (`_gears.py` 133). -/
def TypeCode.bytes : TypeCode → Nat
  | .b | .B => 1
  | .h | .H => 2
  | .i | .I => 2
  | .l | .L => 4
  | .q | .Q => 8

/-- `max_value_for_integer_array_type_code` (`_gears.py` 129-138). -/
def maxValue (c : TypeCode) : Int :=
  let bits := c.bytes * 8
  let bits := if c.isLower then bits - 1 else bits
  2 ^ bits - 1

/-- `vertex_id_to_distance_mapping` of the gears with C-native integers (`_gears.py` 750-765, 985-997): an array with the
largest value of the type as default value, extended by a template of 1024 values. -/
def cIntDist (c : TypeCode) (preAllocate : Nat) : DistOps (List Int) Nat Int :=
  seqDist ⟨maxValue c, 1024, true⟩ preAllocate

end NoGraphs
