import Verif.Spec.Collections
import Mathlib.Data.Finset.SymmDiff
import Mathlib.Data.Finset.Max
import Mathlib.Data.Finset.Sort

/-! # Specification: everything a user can do with a mutable set or mapping of natural number keys -/

namespace NoGraphs.Spec

/-- The right operand of a set operator: the set itself, another set, or an iterable that is no set. The lists are what
the iterator of the operand gives. -/
inductive Arg where
  | self
  | set (elems : List Nat)
  | iterable (elems : List Nat)

/-- The elements of the operand. -/
def Arg.toFinset (s : Finset Nat) : Arg → Finset Nat
  | .self => s
  | .set l => l.toFinset
  | .iterable l => l.toFinset

def Arg.isSet : Arg → Bool
  | .iterable _ => false
  | _ => true

/-- A set gives each of its elements once. -/
def Arg.Ok : Arg → Prop
  | .set l => l.Nodup
  | _ => True

/-- The operations of a mutable set. -/
inductive SetCall where
  | add (k : Nat)
  | discard (k : Nat)
  | contains (k : Nat)
  | len
  | iterate
  | le (a : Arg) | lt (a : Arg) | ge (a : Arg) | gt (a : Arg) | eq (a : Arg)
  | isdisjoint (a : Arg)
  | and (a : Arg) | or (a : Arg) | sub (a : Arg) | rsub (a : Arg) | xor (a : Arg)
  | remove (k : Nat)
  | pop
  | clear
  | ior (a : Arg) | iand (a : Arg) | isub (a : Arg) | ixor (a : Arg)

/-- The operand of the operation fulfills `Arg.Ok`. -/
def SetCall.Ok : SetCall → Prop
  | .le a | .lt a | .ge a | .gt a | .eq a | .isdisjoint a | .and a | .or a | .sub a | .rsub a | .xor a
  | .ior a | .iand a | .isub a | .ixor a => a.Ok
  | _ => True

/-- What an operation answers. `elems l`: a collection or iterator that gives the elements `l` in this order. -/
inductive SetAnswer where
  | unit
  | bool (b : Bool)
  | num (n : Nat)
  | elems (l : List Nat)
  | notImplemented
  | keyError
  /-- the operation does not end -/
  | diverges
  deriving DecidableEq

/-- The elements in ascending order. -/
def ascending (s : Finset Nat) : List Nat := s.sort (· ≤ ·)

/-- A comparison is defined for sets only. -/
def compare (a : Arg) (b : Bool) : SetAnswer := if a.isSet then .bool b else .notImplemented

/-- The mathematical set after the operation, and the answer of the operation. New sets and iterators give the elements in
ascending order, and `pop` takes the smallest element. -/
def setCall (s : Finset Nat) : SetCall → Finset Nat × SetAnswer
  | .add k => (insert k s, .unit)
  | .discard k => (s.erase k, .unit)
  | .contains k => (s, .bool (decide (k ∈ s)))
  | .len => (s, .num s.card)
  | .iterate => (s, .elems (ascending s))
  | .le a => (s, compare a (decide (s ⊆ a.toFinset s)))
  | .lt a => (s, compare a (decide (s ⊂ a.toFinset s)))
  | .ge a => (s, compare a (decide (a.toFinset s ⊆ s)))
  | .gt a => (s, compare a (decide (a.toFinset s ⊂ s)))
  | .eq a => (s, compare a (decide (s = a.toFinset s)))
  | .isdisjoint a => (s, .bool (decide (Disjoint s (a.toFinset s))))
  | .and a => (s, .elems (ascending (s ∩ a.toFinset s)))
  | .or a => (s, .elems (ascending (s ∪ a.toFinset s)))
  | .sub a => (s, .elems (ascending (s \ a.toFinset s)))
  | .rsub a => (s, .elems (ascending (a.toFinset s \ s)))
  | .xor a => (s, .elems (ascending (symmDiff s (a.toFinset s))))
  | .remove k => if k ∈ s then (s.erase k, .unit) else (s, .keyError)
  | .pop => if h : s.Nonempty then (s.erase (s.min' h), .num (s.min' h)) else (s, .keyError)
  | .clear => (∅, .unit)
  | .ior a => (s ∪ a.toFinset s, .unit)
  | .iand a => (s ∩ a.toFinset s, .unit)
  | .isub a => (s \ a.toFinset s, .unit)
  | .ixor a => (symmDiff s (a.toFinset s), .unit)

/-- A history of operations: the final set and the answers. -/
def setCalls (s : Finset Nat) : List SetCall → Finset Nat × List SetAnswer
  | [] => (s, [])
  | c :: cs => ((setCalls (setCall s c).1 cs).1, (setCall s c).2 :: (setCalls (setCall s c).1 cs).2)

/-- The operations of a mutable mapping. -/
inductive MapCall (α : Type) where
  | set (k : Nat) (v : α)
  | del (k : Nat)
  | lookup (k : Nat)
  | get (k : Nat) (default : Option α)
  | contains (k : Nat)
  | len
  | keys
  | items
  | values
  | pop (k : Nat)
  | popDefault (k : Nat) (default : α)
  | popitem
  | clear
  | update (kvs : List (Nat × α))
  | setdefault (k : Nat) (default : α)
  /-- comparison with another mapping, given by its items -/
  | eq (items : List (Nat × α))

/-- Another mapping has each key once. -/
def MapCall.Ok {α : Type} : MapCall α → Prop
  | .eq l => (l.map Prod.fst).Nodup
  | _ => True

/-- The values an operation assigns. -/
def MapCall.assigned {α : Type} : MapCall α → List α
  | .set _ v => [v]
  | .update kvs => kvs.map Prod.snd
  | .setdefault _ v => [v]
  | _ => []

/-- What an operation answers. -/
inductive MapAnswer (α : Type) where
  | unit
  | bool (b : Bool)
  | num (n : Nat)
  | value (v : Option α)
  | keys (l : List Nat)
  | items (l : List (Nat × α))
  | values (l : List α)
  | item (k : Nat) (v : α)
  | keyError
  | diverges
  deriving DecidableEq

/-- The pairs of a partial map, listed by key in ascending order. -/
def IsItems {α : Type} (m : Nat → Option α) (l : List (Nat × α)) : Prop :=
  (l.map Prod.fst).Pairwise (· < ·) ∧ ∀ k v, (k, v) ∈ l ↔ m k = some v

/-- Without the key. -/
def without {α : Type} (m : Nat → Option α) (k : Nat) : Nat → Option α := fun j => if j = k then none else m j

/-- `MapCallSpec m c m' a`: the operation `c` turns the partial map `m` into `m'` and answers `a`. Deleting a key without
value changes nothing and raises nothing. -/
def MapCallSpec {α : Type} (m : Nat → Option α) : MapCall α → (Nat → Option α) → MapAnswer α → Prop
  | .set k v, m', a => m' = assign m k v ∧ a = .unit
  | .del k, m', a => m' = without m k ∧ a = .unit
  | .lookup k, m', a => m' = m ∧ a = (match m k with | some v => .value (some v) | none => .keyError)
  | .get k d, m', a => m' = m ∧ a = .value (match m k with | some v => some v | none => d)
  | .contains k, m', a => m' = m ∧ a = .bool (m k).isSome
  | .len, m', a => m' = m ∧ ∃ l, IsItems m l ∧ a = .num l.length
  | .keys, m', a => m' = m ∧ ∃ l, IsItems m l ∧ a = .keys (l.map Prod.fst)
  | .items, m', a => m' = m ∧ ∃ l, IsItems m l ∧ a = .items l
  | .values, m', a => m' = m ∧ ∃ l, IsItems m l ∧ a = .values (l.map Prod.snd)
  | .pop k, m', a => m' = without m k ∧ a = (match m k with | some v => .value (some v) | none => .keyError)
  | .popDefault k d, m', a => m' = without m k ∧ a = .value (some ((m k).getD d))
  | .popitem, m', a =>
    ((∀ k, m k = none) ∧ m' = m ∧ a = .keyError) ∨
    ∃ k v, m k = some v ∧ (∀ j < k, m j = none) ∧ m' = without m k ∧ a = .item k v
  | .clear, m', a => m' = (fun _ => none) ∧ a = .unit
  | .update kvs, m', a => m' = kvs.foldl (fun m kv => assign m kv.1 kv.2) m ∧ a = .unit
  | .setdefault k d, m', a =>
    m' = (if (m k).isSome then m else assign m k d) ∧ a = .value (some ((m k).getD d))
  | .eq l, m', a => m' = m ∧ ∃ b : Bool, a = .bool b ∧ (b = true ↔ ∀ k v, (k, v) ∈ l ↔ m k = some v)

/-- A history of operations: each one fulfills its specification, from the map the previous ones have left. -/
inductive MapCallsSpec {α : Type} : (Nat → Option α) → List (MapCall α) → (Nat → Option α) → List (MapAnswer α) → Prop where
  | nil (m : Nat → Option α) : MapCallsSpec m [] m []
  | cons {m m' m'' : Nat → Option α} {c : MapCall α} {a : MapAnswer α} {cs : List (MapCall α)} {as : List (MapAnswer α)} :
    MapCallSpec m c m' a → MapCallsSpec m' cs m'' as → MapCallsSpec m (c :: cs) m'' (a :: as)

end NoGraphs.Spec
