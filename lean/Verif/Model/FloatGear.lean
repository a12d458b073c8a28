import Verif.Model.Gear

/-!
# Gears with C-native storage of floats

Model of the distance mappings of `GearForIntVertexIDsAndCFloats` and `GearForIntVerticesAndIDsAndCFloats`
(`src/nographs/_gears.py` 673-713, 894-946): a `VertexMappingWrappingSequenceWithoutNone` over an `array` with type code
`"f"` (the default) or `"d"`. Numbers are computed as Python floats (8 bytes). With type code `"f"`, an item of the
array has 4 bytes: a number is rounded when it is stored, and reads give the rounded number.
-/

namespace NoGraphs

/-- A distance mapping like `seqDist` (same operations, `_gear_collections.py` 1010-1125), over an array whose items cannot
represent all numbers: `st w` is what is read from an item after `w` has been assigned to it. The pre-allocated items and the items of
the template are also converted (`_gears.py` 701-713, 929-941). The comparison of `improve` is done with the number
that is not yet stored (`shortest_paths.py` 335-341, `a_star.py` 389-396, `shortest_path.py` 464-471).
(An IEEE 754 conversion in `array` does not raise exceptions.) -/
def viaDist {W : Type} [LinearOrder W] (st : W → W) (p : SeqParams W) (pre : Nat) : DistOps (List W) Nat W where
  empty := List.replicate pre (st p.default)
  get m k := (seqGet m k).getD p.default
  set m k w := setOrExtend { p with default := st p.default } m k (st w)
  improve m k w :=
    match seqGet m k with
    | some v => if v ≤ w then none else seqSet m k (st w)
    | none => some (extendAndSet { p with default := st p.default } m k (st w))
  setDefault m k w :=
    match seqGet m k with
    | some v => if v = p.default then (seqSet m k (st w)).getD m else m
    | none => extendAndSet { p with default := st p.default } m k (st w)

/-- `vertex_id_to_distance_mapping` of the gears with C-native floats (`_gears.py` 701-713, 929-941): infinity is the
default value, the array is extended by a template of 1024 values. `st` is the identity for type code `"d"`, and
the conversion to 4 bytes for `"f"`. -/
def cFloatDist {W : Type} [LinearOrder W] (st : W → W) (inf : W) (preAllocate : Nat) : DistOps (List W) Nat W :=
  viaDist st ⟨inf, 1024, true⟩ preAllocate

end NoGraphs
