import Verif.Model.Gear

/-!
# Model of the methods the gear collections inherit

`VertexSet` is `MutableSet`, `VertexMapping` is `MutableMapping` (`src/nographs/_gear_collections.py` 35, 55), and
`VertexSetWrappingSequence…`, `VertexMappingWrappingSequence…` implement the abstract methods of these classes only
(788-1143). All the other methods (operators, comparisons, `pop`, `clear`, `setdefault`, `update`, …) are the mixin
methods of Python's `collections.abc`, running on the methods of NoGraphs, for example on `_from_iterable` (906-917,
985-996), which shadows the class method of `Set`. They are modelled here as they are written in the standard library,
`_collections_abc.py` of CPython 3.11, cited as "abc".
-/

namespace NoGraphs

/-- The methods of `VertexSetWrappingSequence` (`_gear_collections.py` 788-862) the mixins build on. -/
structure KeySet (σ : Type) where
  contains : σ → Nat → Bool
  iter : σ → List Nat
  len : σ → Nat
  add : σ → Nat → σ
  discard : σ → Nat → σ
  /-- `_from_iterable`: a new collection with the same settings -/
  fromIterable : List Nat → σ

/-- `VertexSetWrappingSequenceNoBitPacking` (`_gear_collections.py` 865-920). -/
def boolKeySet (p : SeqParams Nat) (pre : Nat) : KeySet (List Nat) where
  contains d k := BoolSet.contains d (k : Int)
  iter := BoolSet.iter
  len := BoolSet.len
  add := BoolSet.add p
  discard := BoolSet.discard
  -- 906-917: `sequence_factory()` gives `pre` default values, `()` adds nothing, then `update_from_keys(elements)`
  fromIterable l := BoolSet.updateFromKeys p (BoolSet.updateFromKeys p (List.replicate pre 0) []) l

/-- `VertexSetWrappingSequenceBitPacking` (`_gear_collections.py` 923-1001). -/
def bitKeySet (p : SeqParams Nat) (pre : Nat) : KeySet (List Nat) where
  contains d k := BitSet.contains d (k : Int)
  iter := BitSet.iter
  len := BitSet.len
  add := BitSet.add p
  discard := BitSet.discard
  -- 985-996
  fromIterable l := BitSet.updateFromKeys p (BitSet.updateFromKeys p (List.replicate pre 0) []) l

/-- The right operand of an operator: the collection itself, another `Set` (for example a Python `set` or another gear
collection; `elems` is what its iterator gives), or an iterable that is not a `Set` (for example a list). -/
inductive Operand where
  | self
  | set (elems : List Nat)
  | iterable (elems : List Nat)

/-- What the mixins use of an operand that is a `Set`: `__iter__`, `__contains__`, `__len__`. -/
structure SetView where
  elems : List Nat
  has : Nat → Bool
  size : Nat

namespace KeySet

variable {σ : Type} (S : KeySet σ)

/-- `for value in other`. -/
def iterOperand (d : σ) : Operand → List Nat
  | .self => S.iter d
  | .set l => l
  | .iterable l => l

/-- `isinstance(other, Set)`, and `if not isinstance(other, Set): other = self._from_iterable(other)` (abc 601-604, 619-622,
737-738). -/
def toSet (d : σ) : Operand → SetView
  | .self => ⟨S.iter d, S.contains d, S.len d⟩
  | .set l => ⟨l, fun k => decide (k ∈ l), l.length⟩
  | .iterable l => ⟨S.iter (S.fromIterable l), S.contains (S.fromIterable l), S.len (S.fromIterable l)⟩

/-- `isinstance(other, Set)`. -/
def isSet : Operand → Bool
  | .iterable _ => false
  | _ => true

/-- `for elem in a: if elem not in b: return False; return True` (abc 546-549, 566-569). -/
def allIn : List Nat → (Nat → Bool) → Bool
  | [], _ => true
  | e :: rest, has => if !has e then false else allIn rest has

/-- `__le__` (abc 541-549); `none` is `NotImplemented`. -/
def le (d : σ) (o : Operand) : Option Bool :=
  if !isSet o then none
  else
    let v := S.toSet d o
    some (if S.len d > v.size then false else allIn (S.iter d) v.has)

/-- `__ge__` (abc 561-569). -/
def ge (d : σ) (o : Operand) : Option Bool :=
  if !isSet o then none
  else
    let v := S.toSet d o
    some (if S.len d < v.size then false else allIn v.elems (S.contains d))

/-- `__lt__` (abc 551-554). -/
def lt (d : σ) (o : Operand) : Option Bool :=
  if !isSet o then none
  else if S.len d < (S.toSet d o).size then S.le d o else some false

/-- `__gt__` (abc 556-559). -/
def gt (d : σ) (o : Operand) : Option Bool :=
  if !isSet o then none
  else if S.len d > (S.toSet d o).size then S.ge d o else some false

/-- `__eq__` (abc 571-574). -/
def eq (d : σ) (o : Operand) : Option Bool :=
  if !isSet o then none
  else if S.len d = (S.toSet d o).size then S.le d o else some false

/-- `__and__`, `__rand__` (abc 585-590). -/
def and (d : σ) (o : Operand) : σ := S.fromIterable ((S.iterOperand d o).filter (fun v => S.contains d v))

/-- The loop of `isdisjoint` (abc 592-597). -/
def disjointLoop (d : σ) : List Nat → Bool
  | [] => true
  | v :: rest => if S.contains d v then false else disjointLoop d rest

/-- `isdisjoint` (abc 592-597). -/
def isdisjoint (d : σ) (o : Operand) : Bool := S.disjointLoop d (S.iterOperand d o)

/-- `__or__`, `__ror__` (abc 599-605). -/
def or (d : σ) (o : Operand) : σ := S.fromIterable (S.iter d ++ S.iterOperand d o)

/-- `__sub__` (abc 607-613). -/
def sub (d : σ) (o : Operand) : σ :=
  let v := S.toSet d o
  S.fromIterable ((S.iter d).filter (fun k => !v.has k))

/-- `__rsub__` (abc 615-621): `other - self`. -/
def rsub (d : σ) (o : Operand) : σ :=
  let v := S.toSet d o
  S.fromIterable (v.elems.filter (fun k => !S.contains d k))

/-- `__xor__`, `__rxor__` (abc 623-630): `(self - other) | (other - self)`. Simplified: `other - self` is evaluated by the
class of `other`; here, it is the collection of the elements of `other` that are not in `self`, in their order. -/
def xor (d : σ) (o : Operand) : σ :=
  let v := S.toSet d o
  S.or (S.fromIterable ((S.iter d).filter (fun k => !v.has k))) (.set (v.elems.filter (fun k => !S.contains d k)))

/-- `remove` (abc 693-697); `none` is the `KeyError`. -/
def remove (d : σ) (k : Nat) : Option σ := if !S.contains d k then none else some (S.discard d k)

/-- `pop` (abc 699-707); `none` is the `KeyError`. -/
def pop (d : σ) : Option (Nat × σ) :=
  match S.iter d with
  | [] => none
  | k :: _ => some (k, S.discard d k)

/-- `clear` (abc 709-715): `pop` until the `KeyError`. The first argument is fuel. The result `none` means that the loop
has not ended within the fuel. -/
def clearLoop : Nat → σ → Option σ
  | 0, _ => none
  | fuel + 1, d =>
    match S.pop d with
    | none => some d
    | some (_, d') => clearLoop fuel d'

/-- `clear` (abc 709-715). -/
def clear (d : σ) : Option σ := S.clearLoop ((S.iter d).length + 1) d

/-- `__ior__` (abc 717-720). With `self` as operand, the loop adds contained keys only, and this does not change the
collection it iterates over. -/
def ior (d : σ) (o : Operand) : σ := (S.iterOperand d o).foldl S.add d

/-- `__iand__` (abc 722-725). -/
def iand (d : σ) (o : Operand) : σ := (S.iter (S.sub d o)).foldl S.discard d

/-- The loop of `__ixor__` (abc 733-737). -/
def toggle (d : σ) (k : Nat) : σ := if S.contains d k then S.discard d k else S.add d k

/-- `__ixor__` (abc 727-738); `none`: `clear` does not end. -/
def ixor (d : σ) : Operand → Option σ
  | .self => S.clear d
  | o => some ((S.toSet d o).elems.foldl S.toggle d)

/-- `__isub__` (abc 740-746). -/
def isub (d : σ) : Operand → Option σ
  | .self => S.clear d
  | o => some ((S.iterOperand d o).foldl S.discard d)

end KeySet

/-! ## Mappings -/

namespace SeqMap

variable {α : Type} [DecidableEq α]

/-- `Mapping.get` (abc 771-776). -/
def get (p : SeqParams α) (data : List α) (key : Nat) (dflt : Option α) : Option α :=
  match getItem p data key with
  | some v => some v
  | none => dflt

/-- `keys()` iterated (abc 786-788, 835-836). -/
def keys (p : SeqParams α) (data : List α) : List Nat := iter p data

/-- `items()` iterated (abc 790-792, 859-861): `self._mapping[key]` for each key; `none` is a `KeyError`. -/
def items (p : SeqParams α) (data : List α) : Option (List (Nat × α)) :=
  (iter p data).mapM (fun k => (getItem p data k).map (fun v => (k, v)))

/-- `values()` iterated (abc 794-796, 878-880). -/
def values (p : SeqParams α) (data : List α) : Option (List α) := (iter p data).mapM (fun k => getItem p data k)

/-- `pop` (abc 907-919) without default; `none` is the `KeyError`. -/
def pop (p : SeqParams α) (data : List α) (key : Nat) : Option (α × List α) :=
  match getItem p data key with
  | none => none
  | some v => some (v, delItem p data key)

/-- `pop` (abc 907-919) with default. -/
def popDefault (p : SeqParams α) (data : List α) (key : Nat) (dflt : α) : α × List α :=
  match getItem p data key with
  | none => (dflt, data)
  | some v => (v, delItem p data key)

/-- `popitem` (abc 921-931); `none` is the `KeyError`, of the empty mapping or of `self[key]`. -/
def popitem (p : SeqParams α) (data : List α) : Option ((Nat × α) × List α) :=
  match iter p data with
  | [] => none
  | k :: _ =>
    match getItem p data k with
    | none => none
    | some v => some ((k, v), delItem p data k)

/-- `clear` (abc 933-939): `popitem` until the `KeyError`; `none`: not ended within the fuel. -/
def clearLoop (p : SeqParams α) : Nat → List α → Option (List α)
  | 0, _ => none
  | fuel + 1, data =>
    match popitem p data with
    | none => some data
    | some (_, data') => clearLoop p fuel data'

/-- `clear` (abc 933-939). -/
def clear (p : SeqParams α) (data : List α) : Option (List α) := clearLoop p ((iter p data).length + 1) data

/-- `update` (abc 941-957), with the pairs of the other mapping or the given pairs. -/
def update (p : SeqParams α) (data : List α) (kvs : List (Nat × α)) : List α :=
  kvs.foldl (fun d kv => setItem p d kv.1 kv.2) data

/-- `setdefault` (abc 959-965). -/
def setdefault (p : SeqParams α) (data : List α) (key : Nat) (dflt : α) : α × List α :=
  match getItem p data key with
  | some v => (v, data)
  | none => (dflt, setItem p data key dflt)

/-- `__eq__` (abc 798-801): `dict(self.items()) == dict(other.items())`. Two dicts are equal if they have the same number of
items and each item of one is an item of the other. `other` is given by its items. -/
def eq (p : SeqParams α) (data : List α) (other : List (Nat × α)) : Option Bool :=
  (items p data).map (fun its => its.length == other.length && its.all (fun kv => decide (kv ∈ other)))

end SeqMap

end NoGraphs
