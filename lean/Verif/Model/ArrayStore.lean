import Verif.Model.MatrixGadgets

/-!
# Arrays as objects: `Array` over a store of Python sequence objects

`Model/MatrixGadgets.lean` describes the content of an array as a value, which assumes that no sequence object occurs twice
in it. Here, sequences are objects in a store, so that an array can share row objects with other arrays, or contain the same
row object several times (as in `[[0] * 3] * 3`), and sequences can be immutable (tuples, strings).
-/

namespace NoGraphs

variable {α : Type}

/-- A Python value: a reference to a sequence object, or something else (number, string of one character, ...).
Simplification: other values cannot be indexed or iterated. -/
inductive PyVal (α : Type) where
  | atom (x : α)
  | ref (addr : Nat)
  deriving DecidableEq, Repr

/-- A sequence object: a list (mutable), or a tuple or string (immutable). -/
structure PySeq (α : Type) where
  isList : Bool
  items : List (PyVal α)
  deriving DecidableEq, Repr

/-- The sequence objects of a program; the position is the address. -/
abbrev Store (α : Type) := List (PySeq α)

namespace Store

/-- `v[i]`. -/
def index (H : Store α) (v : PyVal α) (i : Int) : Except PyErr (PyVal α) :=
  match v with
  | .atom _ => .error .typeError
  | .ref k =>
    match H[k]? with
    | none => .error .typeError                       -- no such object
    | some o =>
      match pyIndex o.items i with
      | none => .error .indexError
      | some x => .ok x

/-- `v[i] = x`. -/
def assign (H : Store α) (v : PyVal α) (i : Int) (x : PyVal α) : Except PyErr (Store α) :=
  match v with
  | .atom _ => .error .typeError
  | .ref k =>
    match H[k]? with
    | none => .error .typeError                       -- no such object
    | some o =>
      if o.isList then
        match Arr.pySetIndex o.items i x with
        | none => .error .indexError
        | some items => .ok (H.set k { o with items := items })
      else .error .typeError

/-- The iteration over a value. -/
def iterate (H : Store α) (v : PyVal α) : Except PyErr (List (PyVal α)) :=
  match v with
  | .atom _ => .error .typeError
  | .ref k =>
    match H[k]? with
    | none => .error .typeError                       -- no such object
    | some o => .ok o.items

/-- A new list object. -/
def newList (H : Store α) (items : List (PyVal α)) : Store α × PyVal α := (H ++ [⟨true, items⟩], .ref H.length)

/-- `Array.__getitem__` (lines 204-213). -/
def getItem (H : Store α) : PyVal α → Vec → Except PyErr (PyVal α)
  | i, [] => .ok i
  | i, c :: cs => do
    let j ← H.index i c
    getItem H j cs

/-- `Array.__setitem__` (lines 215-229): the loop over `position[:-1]`, then the assignment. `position[-1]` of an empty
position raises an `IndexError`. -/
def setItem (H : Store α) : PyVal α → Vec → PyVal α → Except PyErr (Store α)
  | _, [], _ => .error .indexError
  | field, [c], x => H.assign field c x
  | field, c :: c' :: cs, x => do
    let f ← H.index field c
    setItem H f (c' :: cs) x

/-- `size` (lines 175-184). -/
def size (H : Store α) : Nat → PyVal α → Except PyErr (List Int)
  | 0, _ => .ok []
  | n + 1, area => do
    let items ← H.iterate area                        -- `len(area)`
    let first ← H.index area 0
    let r ← size H n first
    pure ((items.length : Int) :: r)

/-- The list comprehension `[f(sub_area) for sub_area in area]` for a function that creates objects. -/
def collect (f : Store α → PyVal α → Except PyErr (Store α × PyVal α)) :
    Store α → List (PyVal α) → Except PyErr (Store α × List (PyVal α))
  | H, [] => .ok (H, [])
  | H, x :: xs => do
    let (H, y) ← f H x
    let (H, ys) ← collect f H xs
    pure (H, y :: ys)

/-- `_writable` (lines 196-200), for `dimensions`; the objects created before an exception are not shown. Simplification: the
list of a comprehension gets its address after its elements. -/
def writable : Nat → Store α → PyVal α → Except PyErr (Store α × PyVal α)
  | d + 2, H, area => do
    let items ← H.iterate area
    let (H, ys) ← collect (writable (d + 1)) H items
    pure (H.newList ys)
  | _, H, area => do
    let items ← H.iterate area
    pure (H.newList items)

end Store

/-- `Array.mutable_copy` (lines 193-202): the store after it, and the content of the new array. -/
def mutableCopy (H : Store α) (content : PyVal α) (dimensions : Nat) : Except PyErr (Store α × PyVal α) :=
  Store.writable dimensions H content

/-- What a program does after it has made a copy. -/
inductive StoreAct (α : Type) where
  /-- `copy[position] = x` -/
  | write (position : Vec) (x : PyVal α)
  /-- `o[i] = x` for the object with address `addr` -/
  | assign (addr : Nat) (i : Int) (x : PyVal α)
  /-- creation of a sequence object -/
  | create (o : PySeq α)

/-- One action of the program; `copy` is the content of the copy. An exception leaves the store as it is. -/
def StoreAct.run (copy : PyVal α) (H : Store α) : StoreAct α → Except PyErr (Store α)
  | .write p x => H.setItem copy p x
  | .assign k i x => H.assign (.ref k) i x
  | .create o => .ok (H ++ [o])

/-- The store after one action. -/
def StoreAct.next (copy : PyVal α) (H : Store α) (a : StoreAct α) : Store α :=
  match a.run copy H with
  | .ok H' => H'
  | .error _ => H

/-- The store after some actions. -/
def runActs (copy : PyVal α) (H : Store α) (acts : List (StoreAct α)) : Store α := acts.foldl (StoreAct.next copy) H

end NoGraphs
