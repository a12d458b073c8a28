import Verif.Model.GearTypes
import Verif.Model.ShortestPaths
import Verif.Model.Bfs

/-!
# The collections that the gears create

Model of the factory methods of `src/nographs/_gears.py` for hashable ids, for integer ids, and for integer vertices.
The collections themselves are modelled in `Model/Gear.lean`.
-/

namespace NoGraphs

variable {V L W : Type}

/-- The collections of `GearForHashableVertexIDs` for traversals without weights (`_gears.py` 334-347). -/
def hashGear {K : Type} [DecidableEq K] : TravGear V K L (List K) (K → Option V) (K → Option L) :=
  ⟨hashSet, dictMap, dictMap⟩

/-- The collections of `GearForHashableVertexIDs` for traversals with weights (`_gears.py` 339-371). -/
def hashWGear {K : Type} [DecidableEq K] [LinearOrder W] (inf : W) :
    WGear V K L W (K → Option V) (K → Option L) (K → Option W) :=
  ⟨dictMap, dictMap, dictDist inf⟩

/-- The options of `GearForIntVertexIDs` that determine the collections (`_gears.py` 518-530). -/
structure IntOptions where
  noArrays : Bool
  noBitPacking : Bool
  preAllocate : Nat

/-- `vertex_id_set` of `GearForIntVertexIDs` (`_gears.py` 532-560). Note: the number of pre-allocated entries is divided by 8
for the variant *without* bit packing (lines 535-539). -/
def intIdSet (o : IntOptions) : SetOps (List Nat) Nat :=
  let preAllocate := if o.noBitPacking then (o.preAllocate + 7) / 8 else o.preAllocate       -- lines 535-539
  let extendSize := if o.noBitPacking then 1024 else 1024 / 8                                -- line 540
  let extendByTemplate := !o.noArrays                                                        -- lines 541-552
  if o.noBitPacking then boolSeqSet ⟨0, extendSize, extendByTemplate⟩ preAllocate            -- lines 553-560
  else bitSeqSet ⟨0, extendSize, extendByTemplate⟩ preAllocate

/-- `vertex_id_to_vertex_mapping` and `vertex_id_to_edge_labels_mapping` of `GearForIntVertexIDs`
(`_gears.py` 562-574). -/
def intListMap {X : Type} [DecidableEq X] (o : IntOptions) : MapOps (List (Option X)) Nat X :=
  listMap ⟨none, 1024, false⟩ o.preAllocate

/-- `vertex_id_to_distance_mapping` of `GearForIntVertexIDs` (`_gears.py` 592-601). -/
def intDist [LinearOrder W] (inf : W) (o : IntOptions) : DistOps (List W) Nat W :=
  seqDist ⟨inf, 1024, false⟩ o.preAllocate

/-- `vertex_id_to_number_mapping` of `GearForIntVertexIDs` (`_gears.py` 603-617), for the numbers of enter and leave
events. -/
def intNumbers (o : IntOptions) : MapOps (List Nat) Nat Nat :=
  arrayMap ⟨0, 1024, true⟩ o.preAllocate

/-- The collections of `GearForIntVertexIDs` for traversals without weights. -/
def intGear [DecidableEq V] [DecidableEq L] (o : IntOptions) :
    TravGear V Nat L (List Nat) (List (Option V)) (List (Option L)) :=
  ⟨intIdSet o, intListMap o, intListMap o⟩

/-- The collections of `GearForIntVertexIDs` for traversals with weights. -/
def intWGear [DecidableEq V] [DecidableEq L] [LinearOrder W] (inf : W) (o : IntOptions) :
    WGear V Nat L W (List (Option V)) (List (Option L)) (List W) :=
  ⟨intListMap o, intListMap o, intDist inf o⟩

/-- The type codes for integer vertices (`_gears.py` 806). -/
inductive VertexCode where
  | L | Q | I
deriving DecidableEq

/-- The type code as one for arrays. -/
def VertexCode.code : VertexCode → TypeCode
  | .L => .L | .Q => .Q | .I => .I

/-- `bytes_of_vertex_type_code` (`_gears.py` 815). -/
def VertexCode.bytes : VertexCode → Nat
  | .L => 4 | .Q => 8 | .I => 2

/-- `max_vertex_type_value` (`_gears.py` 819). -/
def VertexCode.max (c : VertexCode) : Nat := 256 ^ c.bytes - 1

/-- `vertex_id_to_vertex_mapping` of `GearForIntVerticesAndIDs` (`_gears.py` 812-829). Simplification: numbers that do not
fit into the array (an `OverflowError`) are stored; see `C84_vertex_fits`. -/
def intVertexMap (c : VertexCode) (o : IntOptions) : MapOps (List Nat) Nat Nat :=
  arrayMap ⟨c.max, 1024, true⟩ o.preAllocate

/-- The collections of `GearForIntVerticesAndIDs` for traversals without weights. Arrays are always used
(`_gears.py` 810). -/
def intVGear [DecidableEq L] (c : VertexCode) (o : IntOptions) :
    TravGear Nat Nat L (List Nat) (List Nat) (List (Option L)) :=
  ⟨intIdSet { o with noArrays := false }, intVertexMap c o, intListMap o⟩

/-- The collections of `GearForIntVerticesAndIDs` for traversals with weights. -/
def intVWGear [DecidableEq L] [LinearOrder W] (inf : W) (c : VertexCode) (o : IntOptions) :
    WGear Nat Nat L W (List Nat) (List (Option L)) (List W) :=
  ⟨intVertexMap c o, intListMap o, intDist inf o⟩

end NoGraphs
