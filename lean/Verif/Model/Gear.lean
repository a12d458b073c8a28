import Mathlib.Order.Defs.LinearOrder
import Verif.Model.GearCollections

/-!
# Operations of gear collections as used by the strategies

The strategies contain, for each access to a bookkeeping collection, inlined code for hash based
collections, for sequences, and for bit-packed sequences (the code is generated from the macros in
`/repo/tpl`).  The records below name these accesses; the traversal models are parametric in them.
Each `def` of a record is one kind of collection that a gear (`src/nographs/_gears.py`) creates.
-/

namespace NoGraphs

/-- Python exceptions that occur in the modelled code. -/
inductive PyErr where
  | runtimeError | keyError | indexError | assertionError | overflowError | unboundLocalError
  | typeError | valueError | zeroDivisionError
  deriving DecidableEq, Repr

/-- How a run of a loop with fuel ended. -/
inductive Ending where
  | done | outOfFuel | raised (e : PyErr)
  deriving DecidableEq, Repr

/-! ## Vertex sets -/

/-- Operations on a `VertexSet` (`VertexIdSet`). `checkAdd` is the inlined "if contained then
continue, else add". `mustContain` is the inlined membership test whose `IndexError` handler raises
`AssertionError` (for example `topological_sort.py` 583-594, `depth_first.py` 762-786): `none` stands for
that exception. `drop` is the inlined removal of a key (`depth_first.py` 614-623, `topological_sort.py` 473-477,
489-494, 516-523); unlike the method `discard` of the collections, it does not test whether the key is
contained, and it can raise an exception. -/
structure SetOps (S K : Type) where
  empty : S
  contains : S → K → Bool
  add : S → K → S
  checkAdd : S → K → Bool × S
  drop : S → K → Except PyErr S
  mustContain : S → K → Option Bool

/-- `gear.vertex_id_set(initial_content)`: an empty set updated from the keys
(`_gear_collections.py` 808-818, 899-904, 975-983; `_gears.py` 334-337), and also
`define_visited` for a given `already_visited` (`_strategies/utils.py` 121-128). -/
def SetOps.addAll {S K : Type} (o : SetOps S K) (s : S) (ks : List K) : S := ks.foldl o.add s

/-- The inlined removal where a test before makes sure that the key is contained, so that there is no exception
(`topological_sort.py` 473-477, 489-494, 516-523). -/
def SetOps.discard {S K : Type} (o : SetOps S K) (s : S) (k : K) : S :=
  match o.drop s k with
  | .ok s' => s'
  | .error _ => s

/-- A Python `set` (`_gears.py` 334-337: `GearForHashableVertexIDs.vertex_id_set`).
A list without repetition stands for the set; its order is never observed. -/
def hashSet {K : Type} [DecidableEq K] : SetOps (List K) K where
  empty := []
  contains s k := decide (k ∈ s)
  add s k := if k ∈ s then s else k :: s
  checkAdd s k := if k ∈ s then (true, s) else (false, k :: s)
  drop s k := .ok (s.filter (fun j => decide (j ≠ k)))
  mustContain s k := some (decide (k ∈ s))

/-- The inlined removal "with booleans in byte sequence" (`depth_first.py` 622-623, `topological_sort.py` 493):
`sequence[key] = False`. -/
def BoolSet.drop (s : List Nat) (k : Nat) : Except PyErr (List Nat) :=
  match seqSet s k 0 with
  | some s' => .ok s'
  | none => .error .indexError

/-- The inlined removal "with bits in byte sequence" (`depth_first.py` 617-620, `topological_sort.py` 523):
`sequence[sequence_key] -= 1 << bit_number`. If the bit is not set, this changes other bits, or the number gets
negative, which an array of unsigned bytes rejects with an `OverflowError`. -/
def BitSet.drop (s : List Nat) (k : Nat) : Except PyErr (List Nat) :=
  match seqGet s (k / 8) with
  | none => .error .indexError
  | some value =>
    if value < 1 <<< (k % 8) then .error .overflowError
    else .ok (s.set (k / 8) (value - 1 <<< (k % 8)))

/-- A `VertexSetWrappingSequenceNoBitPacking` with `pre` pre-allocated entries
(`_gears.py` 532-560, `no_bit_packing=True`). -/
def boolSeqSet (p : SeqParams Nat) (pre : Nat) : SetOps (List Nat) Nat where
  empty := List.replicate pre p.default
  contains s k := BoolSet.contains s (k : Int)
  add s k := BoolSet.add p s k
  checkAdd s k := BoolSet.checkAdd p s k
  drop s k := BoolSet.drop s k
  mustContain s k := (seqGet s k).map (fun v => v != 0)

/-- A `VertexSetWrappingSequenceBitPacking` with `pre` pre-allocated bytes
(`_gears.py` 532-560, `no_bit_packing=False`). -/
def bitSeqSet (p : SeqParams Nat) (pre : Nat) : SetOps (List Nat) Nat where
  empty := List.replicate pre p.default
  contains s k := BitSet.contains s (k : Int)
  add s k := BitSet.add p s k
  checkAdd s k := BitSet.checkAdd p s k
  drop s k := BitSet.drop s k
  mustContain s k := (seqGet s (k / 8)).map (fun v => (v &&& (1 <<< (k % 8))) != 0)

/-! ## Vertex mappings -/

/-- Operations on a `VertexMapping` with vertices or labels as values.
`get?` is the mapping interface (`in` and `__getitem__`; `none`: no value, `KeyError`).
`raw` is the direct read of the underlying collection that `Paths` and depth-first search use:
`none` is a `KeyError`/`IndexError`, `some none` is the Python value `None`. -/
structure MapOps (M K X : Type) where
  empty : M
  get? : M → K → Option X
  raw : M → K → Option (Option X)
  set : M → K → X → M

/-- Create with initial content / assign all pairs in order (`update_from_keys_values`, `dict(...)`). -/
def MapOps.setAll {M K X : Type} (o : MapOps M K X) (m : M) (kvs : List (K × X)) : M :=
  kvs.foldl (fun m kv => o.set m kv.1 kv.2) m

/-- A Python `dict` (`_gears.py` 339-347). -/
def dictMap {K X : Type} [DecidableEq K] : MapOps (K → Option X) K X where
  empty := fun _ => none
  get? m k := m k
  raw m k := (m k).map some
  set m k x := fun j => if j = k then some x else m j

/-- A `VertexMappingWrappingSequenceWithNone` over a list (`_gears.py` 562-574). -/
def listMap {X : Type} [DecidableEq X] (p : SeqParams (Option X)) (pre : Nat) :
    MapOps (List (Option X)) Nat X where
  empty := List.replicate pre p.default
  get? m k := (SeqMap.getItem p m k).join
  raw m k := seqGet m k
  set m k x := SeqMap.setItem p m k (some x)

/-- A `VertexMappingWrappingSequenceWithoutNone` over an array whose gap value is an ordinary
value (`_gears.py` 812-829: the largest number of the array type). -/
def arrayMap {X : Type} [DecidableEq X] (p : SeqParams X) (pre : Nat) : MapOps (List X) Nat X where
  empty := List.replicate pre p.default
  get? m k := SeqMap.getItem p m k
  raw m k := (seqGet m k).map some
  set m k x := SeqMap.setItem p m k x

/-! ## Distance mappings -/

/-- Operations on a `VertexIdToDistanceMapping` as used by the strategies.
`get` is the read in the strategies (a missing value reads as infinity).
`improve m k w` is the inlined "if the stored distance is `<= w`, then continue (`none`),
else store `w`" (for example `shortest_paths.py` 335-341). `setDefault` is `setdefault`, resp. one round of
`update_default` (`_strategies/utils.py` 144-150). -/
structure DistOps (M K W : Type) where
  empty : M
  get : M → K → W
  set : M → K → W → M
  improve : M → K → W → Option M
  setDefault : M → K → W → M

/-- Create with initial content. -/
def DistOps.setAll {M K W : Type} (o : DistOps M K W) (m : M) (kvs : List (K × W)) : M :=
  kvs.foldl (fun m kv => o.set m kv.1 kv.2) m

/-- `setdefault` for each pair (`define_distances`, `_strategies/utils.py` 144-150). -/
def DistOps.setDefaults {M K W : Type} (o : DistOps M K W) (m : M) (kvs : List (K × W)) : M :=
  kvs.foldl (fun m kv => o.setDefault m kv.1 kv.2) m

/-- A `DefaultdictWithNiceStr` (`_gears.py` 296-314, 366-371): a dict whose missing keys read as
infinity (`__missing__` returns the value, it does not store it). -/
def dictDist {K W : Type} [DecidableEq K] [LinearOrder W] (inf : W) : DistOps (K → Option W) K W where
  empty := fun _ => none
  get m k := (m k).getD inf
  set m k w := fun j => if j = k then some w else m j
  improve m k w :=
    if (m k).getD inf ≤ w then none else some (fun j => if j = k then some w else m j)
  setDefault m k w := if (m k).isSome then m else fun j => if j = k then some w else m j

/-- A `VertexMappingWrappingSequenceWithoutNone` over a list or array, default value infinity
(`_gears.py` 592-601, 701-713, 750-765). In `improve`, an `IndexError` of the read leads to
`extend_and_set` without comparison (for example `shortest_paths.py` 336-341). -/
def seqDist {W : Type} [LinearOrder W] (p : SeqParams W) (pre : Nat) : DistOps (List W) Nat W where
  empty := List.replicate pre p.default
  get m k := (seqGet m k).getD p.default
  set m k w := setOrExtend p m k w
  improve m k w :=
    match seqGet m k with
    | some v => if v ≤ w then none else seqSet m k w
    | none => some (extendAndSet p m k w)
  setDefault m k w := SeqMap.updateDefault1 p m k w

end NoGraphs
