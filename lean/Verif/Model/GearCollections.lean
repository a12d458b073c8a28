/-!
# Model of `src/nographs/_gear_collections.py`

Sequence based sets and mappings.  A Python sequence (list, `bytearray`, `array`) is a `List`.
Reading or writing outside its length is the Python `IndexError`; it is modelled by `none`.
Keys are natural numbers ("non-negative dense integers", `_gear_collections.py` 644-645);
only `__contains__` takes an arbitrary integer, as in the code.
-/

namespace NoGraphs

/-- The configuration of a `VertexSequenceWrapper` (`_gear_collections.py` 691-736):
default value, extension size, and whether an extension template is used. -/
structure SeqParams (α : Type) where
  default : α
  extendSize : Nat
  byTemplate : Bool

/-- `sequence[key]` (Python indexing with a non-negative key); `none` is the `IndexError`. -/
def seqGet {α : Type} (data : List α) (key : Nat) : Option α := data[key]?

/-- `sequence[key] = value`; `none` is the `IndexError`. -/
def seqSet {α : Type} (data : List α) (key : Nat) (value : α) : Option (List α) :=
  if key < data.length then some (data.set key value) else none

/-- `while len(collection) < target_len: collection_extend(expansion_template)`
(`_gear_collections.py` 777-778).  The first argument is fuel: `extendLoop_length` shows that
`target_len` rounds suffice if the template is not empty.  (With an empty template the Python loop
does not end; the gears use sizes 128 and 1024.) -/
def extendLoop {α : Type} (template : List α) : Nat → Nat → List α → List α
  | 0, _, data => data
  | fuel + 1, target, data =>
    if data.length < target then extendLoop template fuel target (data ++ template) else data

/-- `VertexSequenceWrapper.extend_and_set` (`_gear_collections.py` 753-779). Simplified: the template of the code is made by
the sequence factory (732-733) and is longer by the pre-allocated entries; this changes only how many gaps are appended.
The final `collection[key] = value` is in range, see `extendAndSet_length`. -/
def extendAndSet {α : Type} (p : SeqParams α) (data : List α) (key : Nat) (value : α) : List α :=
  let targetLen := (key + 1) + p.extendSize
  let data :=
    if p.byTemplate then
      extendLoop (List.replicate p.extendSize p.default) targetLen targetLen data
    else
      data ++ List.replicate (targetLen - data.length) p.default
  data.set key value

/-- The pattern `try: sequence[key] = value  except IndexError: self.extend_and_set(key, value)`
(for example `_gear_collections.py` 1057-1060). -/
def setOrExtend {α : Type} (p : SeqParams α) (data : List α) (key : Nat) (value : α) : List α :=
  match seqSet data key value with
  | some data' => data'
  | none => extendAndSet p data key value

/-! ## VertexSetWrappingSequenceNoBitPacking (lines 865-920) -/

namespace BoolSet

/-- `__contains__` (868-877), for an integer key. A Python truth value of the stored number. -/
def contains (data : List Nat) (key : Int) : Bool :=
  if key < 0 then false
  else
    match seqGet data key.toNat with
    | some v => v != 0
    | none => false

/-- The loop of `__iter__` (879-882), started at position `pos` of the enumeration. -/
def iterFrom : Nat → List Nat → List Nat
  | _, [] => []
  | pos, v :: rest => if v != 0 then pos :: iterFrom (pos + 1) rest else iterFrom (pos + 1) rest

/-- `__iter__` (879-882). -/
def iter (data : List Nat) : List Nat := iterFrom 0 data

/-- `__len__` (884-885): `sum(1 for value in iter(self._sequence) if value)`. -/
def len (data : List Nat) : Nat := ((data.filter (fun v => v != 0)).map (fun _ => 1)).sum

/-- `add` (887-891); `True` is stored as 1. -/
def add (p : SeqParams Nat) (data : List Nat) (key : Nat) : List Nat := setOrExtend p data key 1

/-- `discard` (893-897). -/
def discard (data : List Nat) (key : Nat) : List Nat :=
  match seqSet data key 0 with
  | some data' => data'
  | none => data

/-- `update_from_keys` (899-904). -/
def updateFromKeys (p : SeqParams Nat) (data : List Nat) (keys : List Nat) : List Nat :=
  keys.foldl (fun d k => setOrExtend p d k 1) data

/-- The access inlined in the traversals "with booleans in byte sequence", for example
`breadth_first.py` 338-345: look up the key; if it is contained, report `true`
(the code does `continue`), otherwise add it. -/
def checkAdd (p : SeqParams Nat) (data : List Nat) (key : Nat) : Bool × List Nat :=
  match seqGet data key with
  | some v =>
    if v != 0 then (true, data)
    else (false, (seqSet data key 1).getD data)   -- in range: the read has succeeded
  | none => (false, extendAndSet p data key 1)

end BoolSet

/-! ## VertexSetWrappingSequenceBitPacking (lines 923-1001) -/

namespace BitSet

/-- `__contains__` (926-937), for an integer key. -/
def contains (data : List Nat) (key : Int) : Bool :=
  if key < 0 then false
  else
    let sequenceKey := key.toNat / 8
    let bitNumber := key.toNat % 8
    match seqGet data sequenceKey with
    | none => false
    | some value => (value != 0) && ((value &&& (1 <<< bitNumber)) != 0)

/-- The inner loop of `__iter__` (943-948) over `enumerate((1, 2, 4, 8, 16, 32, 64, 128))`. -/
def iterByte (valueHigh : Nat) (sequenceValue : Nat) : List Nat :=
  ([(0, 1), (1, 2), (2, 4), (3, 8), (4, 16), (5, 32), (6, 64), (7, 128)].filter
    (fun lm : Nat × Nat => (sequenceValue &&& lm.2) != 0)).map (fun lm => valueHigh + lm.1)

/-- The loop of `__iter__` (939-949), started at `value_high = pos`. -/
def iterFrom : Nat → List Nat → List Nat
  | _, [] => []
  | valueHigh, v :: rest =>
    (if v != 0 then iterByte valueHigh v else []) ++ iterFrom (valueHigh + 8) rest

/-- `__iter__` (939-949). -/
def iter (data : List Nat) : List Nat := iterFrom 0 data

/-- `bin(value)` without prefix, least significant digit first (955). The fuel `value` suffices. -/
def binDigits : Nat → Nat → List Nat
  | 0, _ => []
  | fuel + 1, v => if v = 0 then [] else v % 2 :: binDigits fuel (v / 2)

/-- `value.bit_count()` resp. `bin(value).count("1")` (953, 955). -/
def bitCount (value : Nat) : Nat := (binDigits value value).count 1

/-- `__len__` (951-955). -/
def len (data : List Nat) : Nat := (data.map bitCount).sum

/-- `add` (957-964). -/
def add (p : SeqParams Nat) (data : List Nat) (key : Nat) : List Nat :=
  let sequenceKey := key / 8
  let bitMask := 1 <<< (key % 8)
  match seqGet data sequenceKey with
  | some value => (seqSet data sequenceKey (value ||| bitMask)).getD data
  | none => extendAndSet p data sequenceKey bitMask

/-- `discard` (966-973). -/
def discard (data : List Nat) (key : Nat) : List Nat :=
  let sequenceKey := key / 8
  let bitMask := 255 - (1 <<< (key % 8))
  match seqGet data sequenceKey with
  | some value => (seqSet data sequenceKey (value &&& bitMask)).getD data
  | none => data

/-- `update_from_keys` (975-983). -/
def updateFromKeys (p : SeqParams Nat) (data : List Nat) (keys : List Nat) : List Nat :=
  keys.foldl (fun d k => add p d k) data

/-- The access inlined in the traversals "with bits in byte sequence", for example
`breadth_first.py` 326-337: `true` if the key is contained, otherwise add it. -/
def checkAdd (p : SeqParams Nat) (data : List Nat) (key : Nat) : Bool × List Nat :=
  let sequenceKey := key / 8
  let bitMask := 1 <<< (key % 8)
  match seqGet data sequenceKey with
  | some value =>
    if (value &&& bitMask) != 0 then (true, data)
    else (false, (seqSet data sequenceKey (value ||| bitMask)).getD data)
  | none => (false, extendAndSet p data sequenceKey bitMask)

end BitSet

/-! ## VertexMappingWrappingSequence (lines 1007-1125) -/

namespace SeqMap

variable {α : Type} [DecidableEq α]

/-- `__contains__` (1062-1071), for an integer key. -/
def contains (p : SeqParams α) (data : List α) (key : Int) : Bool :=
  if key < 0 then false
  else
    match seqGet data key.toNat with     -- `key < len(sequence) and ...`
    | some v => v != p.default
    | none => false

/-- `__getitem__` (1043-1052); `none` is the `KeyError`. -/
def getItem (p : SeqParams α) (data : List α) (key : Nat) : Option α :=
  if contains p data key then seqGet data key else none

/-- `__setitem__` (1054-1060). -/
def setItem (p : SeqParams α) (data : List α) (key : Nat) (value : α) : List α :=
  setOrExtend p data key value

/-- The loop of `__iter__` (1073-1080). -/
def iterFrom (p : SeqParams α) : Nat → List α → List Nat
  | _, [] => []
  | pos, v :: rest =>
    if v != p.default then pos :: iterFrom p (pos + 1) rest else iterFrom p (pos + 1) rest

/-- `__iter__` (1073-1080). -/
def iter (p : SeqParams α) (data : List α) : List Nat := iterFrom p 0 data

/-- `__len__` (1082-1086). -/
def len (p : SeqParams α) (data : List α) : Nat :=
  ((data.filter (fun v => v != p.default)).map (fun _ => 1)).sum

/-- `__delitem__` (1088-1091): a missing key is ignored. -/
def delItem (p : SeqParams α) (data : List α) (key : Nat) : List α :=
  if contains p data key then (seqSet data key p.default).getD data else data

/-- `update_from_keys_values` (1098-1109). -/
def updateFromKeysValues (p : SeqParams α) (data : List α) (elements : List (Nat × α)) : List α :=
  elements.foldl (fun d kv => setOrExtend p d kv.1 kv.2) data

/-- One round of `update_default` (1120-1125). -/
def updateDefault1 (p : SeqParams α) (data : List α) (key : Nat) (value : α) : List α :=
  match seqGet data key with
  | some v => if v = p.default then (seqSet data key value).getD data else data
  | none => extendAndSet p data key value

/-- `update_default` (1111-1125). -/
def updateDefault (p : SeqParams α) (data : List α) (elements : List (Nat × α)) : List α :=
  elements.foldl (fun d kv => updateDefault1 p d kv.1 kv.2) data

end SeqMap

end NoGraphs
