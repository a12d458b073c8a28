import Verif.Model.Gear

/-!
# Model of `DefaultdictWithNiceStr` (`src/nographs/_gears.py` 296-314), as a list of items

(`dictDist` in `Model/Gear.lean` is the abstraction of it that the strategies use.) Methods return the exception, or the
value and the new content. The methods inherited from `dict` are modelled by their definition in the Python language
reference.
-/

namespace NoGraphs

namespace DefaultDict

variable {K W : Type} [DecidableEq K]

/-- The item of the key, if there is one. -/
def find? (items : List (K × W)) (key : K) : Option W := (items.find? (fun kv => decide (kv.1 = key))).map Prod.snd

/-- `dict.__getitem__`, calling `__missing__` (310-311) for a missing key: this returns the value of the default factory,
here the infinity value (366-371), and stores nothing. -/
def getItem (inf : W) (items : List (K × W)) (key : K) : Except PyErr (W × List (K × W)) :=
  match find? items key with
  | some w => .ok (w, items)
  | none => .ok (inf, items)

/-- `dict.__setitem__`: replaces the value in place, or appends an item. -/
def setItem (items : List (K × W)) (key : K) (value : W) : List (K × W) :=
  if (find? items key).isSome then items.map (fun kv => if kv.1 = key then (kv.1, value) else kv)
  else items ++ [(key, value)]

/-- `dict.__delitem__`. -/
def delItem (items : List (K × W)) (key : K) : Except PyErr (List (K × W)) :=
  if (find? items key).isSome then .ok (items.filter (fun kv => decide (kv.1 ≠ key))) else .error .keyError

/-- `dict.setdefault` (used by `define_distances`, `_strategies/utils.py` 148-150). -/
def setDefault (items : List (K × W)) (key : K) (value : W) : List (K × W) :=
  if (find? items key).isSome then items else setItem items key value

/-- `__init__` with initial content (302-308). -/
def create (initial : List (K × W)) : List (K × W) := initial.foldl (fun d kv => setItem d kv.1 kv.2) []

end DefaultDict

/-- `VertexMappingWrappingSequence.__getitem__` (`_gear_collections.py` 1043-1052) with its exception. -/
def SeqMap.getItemE {α : Type} [DecidableEq α] (p : SeqParams α) (data : List α) (key : Nat) :
    Except PyErr (α × List α) :=
  match SeqMap.getItem p data key with
  | some v => .ok (v, data)
  | none => .error .keyError

end NoGraphs
