import Verif.Model.EdgeGadgets

/-!
# Model of `src/nographs/_extra_matrix_gadgets.py`

A position (a vector) is a list of integers.
-/

namespace NoGraphs

/-- A position or vector. -/
abbrev Vec := List Int

/-- Limits: pairs of lower limit (inclusive) and upper limit (exclusive). -/
abbrev LimitsList := List (Int × Int)

namespace Pos

/-- `__add__`: `map(sum, zip(self, other))` (lines 39-41). -/
def add (p q : Vec) : Vec := (p.zip q).map (fun c => c.1 + c.2)

/-- `__sub__`: `map(operator.sub, self, other)` (lines 43-45). -/
def sub (p q : Vec) : Vec := List.zipWith (· - ·) p q

/-- `__mul__` (lines 47-53). -/
def mul (p : Vec) (i : Int) : Vec := p.map (fun c => c * i)

/-- `manhattan_distance` (lines 55-58). -/
def manhattan (p q : Vec) : Int := ((sub p q).map (fun d => (d.natAbs : Int))).sum

/-- `is_in_cuboid` (lines 60-67). -/
def inCuboid (p : Vec) (limits : LimitsList) : Bool :=
  (p.zip limits).all (fun c => decide (c.2.1 ≤ c.1) && decide (c.1 < c.2.2))

/-- Python's `a % b` for integers: the result has the sign of `b`; `ZeroDivisionError` for `b = 0`. -/
def pyMod (a b : Int) : Except PyErr Int := if b = 0 then .error .zeroDivisionError else .ok (Int.fmod a b)

/-- One iteration of the loop of `wrap_to_cuboid` (lines 75-83). -/
def wrapCoord (c lo hi : Int) : Except PyErr Int := do
  let c ← if c < lo then do
      let r ← pyMod (hi - c) (hi - lo)
      pure (hi - r)
    else pure c
  if hi ≤ c then do
    let r ← pyMod (c - lo) (hi - lo)
    pure (r + lo)
  else pure c

/-- `wrap_to_cuboid` (lines 69-84). -/
def wrap (p : Vec) (limits : LimitsList) : Except PyErr Vec :=
  (p.zip limits).mapM (fun c => wrapCoord c.1 c.2.1 c.2.2)

/-- `itertools.product(range(-1, 2), repeat=dimensions)`. -/
def products : Nat → List Vec
  | 0 => [[]]
  | n + 1 => [-1, 0, 1].flatMap (fun (c : Int) => (products n).map (fun v => c :: v))

/-- `moves` (lines 86-123); a container of counts is given by its membership test. -/
def moves (dimensions : Nat) (diagonals zeroMove : Bool) (nonZeroCounts : Option (Int → Bool)) :
    Except PyErr (List Vec) :=
  match nonZeroCounts with
  | none =>
    let lo : Int := if zeroMove then 0 else 1
    let hi : Int := 1 + (if diagonals then (dimensions : Int) else 1)
    .ok ((products dimensions).filter (fun m =>
      let k : Int := (dimensions : Int) - (m.count 0 : Int)
      decide (lo ≤ k) && decide (k < hi)))
  | some counts =>
    if zeroMove || diagonals then .error .runtimeError
    else .ok ((products dimensions).filter (fun m => counts ((dimensions : Int) - (m.count 0 : Int))))

/-- `neighbors` (lines 125-154): the yielded positions up to the end or the exception. -/
def neighbors (p : Vec) (limits : Option LimitsList) (wrapIt : Bool) : List Vec → List Vec × Option PyErr
  | [] => ([], none)
  | m :: ms =>
    let n := add p m
    match limits with
    | none =>
      if wrapIt then ([], some .runtimeError)
      else
        let r := neighbors p limits wrapIt ms
        (n :: r.1, r.2)
    | some l =>
      if wrapIt then
        match wrap n l with
        | .error e => ([], some e)
        | .ok w =>
          let r := neighbors p limits wrapIt ms
          (w :: r.1, r.2)
      else
        let r := neighbors p limits wrapIt ms
        (if inCuboid n l then n :: r.1 else r.1, r.2)

end Pos

/-- The content of an array with `n` dimensions: nested sequences. Simplification: all nested sequences are distinct
objects (no list object occurs twice in the array). -/
def ArrContent (α : Type) : Nat → Type
  | 0 => α
  | n + 1 => List (ArrContent α n)

namespace Arr

variable {α : Type}

/-- The content of an array without dimensions, as cell content. -/
def cell (a : ArrContent α 0) : α := a

/-- Cell content as array without dimensions. -/
def ofCell (x : α) : ArrContent α 0 := x

/-- The content of an array with at least one dimension, as sequence. -/
def rows {n : Nat} (a : ArrContent α (n + 1)) : List (ArrContent α n) := a

/-- A sequence as content of an array. -/
def ofRows {n : Nat} (l : List (ArrContent α n)) : ArrContent α (n + 1) := l

/-- `size` (lines 175-184): `area[0]` raises an `IndexError` for an empty sequence. -/
def size : (n : Nat) → ArrContent α n → Except PyErr (List Int)
  | 0, _ => .ok []
  | n + 1, a =>
    match (rows a) with
    | [] => .error .indexError
    | x :: xs => do
      let r ← size n x
      pure (((x :: xs).length : Int) :: r)

/-- `limits` (lines 186-191). -/
def limits (n : Nat) (a : ArrContent α n) : Except PyErr LimitsList := do
  let s ← size n a
  pure (s.map (fun upper => (0, upper)))

/-- `__getitem__` (lines 204-213), for vectors with `n` coordinates. -/
def get : (n : Nat) → ArrContent α n → Vec → Except PyErr α
  | 0, a, _ => .ok (cell a)
  | _ + 1, _, [] => .error .typeError
  | n + 1, a, c :: cs =>
    match pyIndex (rows a) c with
    | none => .error .indexError
    | some x => get n x cs

/-- `seq[i] = x` for a Python list. -/
def pySetIndex {X : Type} (l : List X) (i : Int) (x : X) : Option (List X) :=
  if 0 ≤ i then if i.toNat < l.length then some (l.set i.toNat x) else none
  else if 0 ≤ l.length + i then some (l.set (l.length + i).toNat x)
  else none

/-- `__setitem__` (lines 215-229), for vectors with `n` coordinates: the new content of the array. -/
def set : (n : Nat) → ArrContent α n → Vec → α → Except PyErr (ArrContent α n)
  | 0, _, _, x => .ok (ofCell x)
  | _ + 1, _, [], _ => .error .typeError
  | n + 1, a, c :: cs, x =>
    match pyIndex (rows a) c with
    | none => .error .indexError
    | some y => do
      let y' ← set n y cs x
      match pySetIndex (rows a) c y' with
      | none => .error .indexError
      | some l => .ok (ofRows l)

/-- `_items_in_dimension` (lines 240-251); `n + 1` dimensions. -/
def itemsIn : (n : Nat) → ArrContent α (n + 1) → List (Vec × α)
  | 0, a => (rows a).zipIdx.map (fun p => ([(p.2 : Int)], cell p.1))
  | n + 1, a => (rows a).zipIdx.flatMap (fun p =>
      (itemsIn n p.1).map (fun q => ((p.2 : Int) :: q.1, q.2)))

/-- `find_in_dimension` (lines 270-280), the set of searched content as membership test. -/
def findIn (content : α → Bool) : (n : Nat) → ArrContent α (n + 1) → List Vec
  | 0, a => (rows a).zipIdx.flatMap (fun p => if content (cell p.1) then [[(p.2 : Int)]] else [])
  | n + 1, a => (rows a).zipIdx.flatMap (fun p =>
      (findIn content n p.1).map (fun v => (p.2 : Int) :: v))

/-- The loop of `next_vertices` (lines 308-311), given the neighbors. -/
def filterAllowed (n : Nat) (a : ArrContent α n) (forbidden : α → Bool) : List Vec → List Vec × Option PyErr
  | [] => ([], none)
  | v :: vs =>
    match get n a v with
    | .error e => ([], some e)
    | .ok x =>
      let r := filterAllowed n a forbidden vs
      (if forbidden x then r.1 else v :: r.1, r.2)

/-- `next_vertices_from_forbidden` (lines 286-313): first the errors of its preparation, then the yielded positions and
the exception that ends the iteration. -/
def nextVertices (n : Nat) (a : ArrContent α n) (forbidden : α → Bool) (wrapIt diagonals : Bool) :
    Except PyErr (Vec → List Vec × Option PyErr) := do
  let l ← limits n a
  let ms ← Pos.moves n diagonals false none
  return fun p =>
    let nb := Pos.neighbors p (some l) wrapIt ms
    let r := filterAllowed n a forbidden nb.1
    (r.1, r.2 <|> nb.2)

/-- The loop of `next_edges` (lines 339-343), given the neighbors. -/
def filterWeighted {W : Type} (n : Nat) (a : ArrContent α n) (weight : α → Option W) :
    List Vec → List (Vec × W) × Option PyErr
  | [] => ([], none)
  | v :: vs =>
    match get n a v with
    | .error e => ([], some e)
    | .ok x =>
      let r := filterWeighted n a weight vs
      match weight x with
      | none => r
      | some w => ((v, w) :: r.1, r.2)

/-- `next_edges_from_cell_weights` (lines 315-345). -/
def nextEdges {W : Type} (n : Nat) (a : ArrContent α n) (weight : α → Option W) (wrapIt diagonals : Bool) :
    Except PyErr (Vec → List (Vec × W) × Option PyErr) := do
  let l ← limits n a
  let ms ← Pos.moves n diagonals false none
  return fun p =>
    let nb := Pos.neighbors p (some l) wrapIt ms
    let r := filterWeighted n a weight nb.1
    (r.1, r.2 <|> nb.2)

end Arr

end NoGraphs
