import Verif.Model.Gear

/-!
# Model of `src/nographs/_extra_edge_gadgets.py`

Simplifications: iterables of edges are lists, i.e., they can be iterated again and again (a one-shot iterator given
inside of an index is handed out again and again by the code, and is empty from the second time on). `D` stands for the
data of an edge after its vertices (weight, labels, or both).
-/

namespace NoGraphs

variable {V D : Type} [DecidableEq V]

/-- An edge to a vertex as Python sequence `(to_vertex, *data)`: a tuple, or another kind of sequence (list). -/
structure OutSeq (V D : Type) where
  isTuple : Bool
  to : V
  data : D
  deriving DecidableEq, Repr

/-- A full edge as Python sequence `(from_vertex, to_vertex, *data)`. -/
structure FullSeq (V D : Type) where
  isTuple : Bool
  src : V
  to : V
  data : D
  deriving DecidableEq, Repr

/-- `edge_dict[v].append(x)` for `edge_dict = defaultdict(list)`: the dictionary as function. (A read access to a missing
key creates an empty list: the same content.) -/
def ddAppend {X : Type} (d : V → List X) (v : V) (x : X) : V → List X :=
  fun w => if w = v then d v ++ [x] else d w

/-- `adapt_edge_iterable`, `attributes=True` (lines 200-207, 216-220). -/
def adaptIterableData (edges : List (FullSeq V D)) (addInverted : Bool) : V → List (OutSeq V D) :=
  if addInverted then
    edges.foldl (fun d e => ddAppend (ddAppend d e.src ⟨true, e.to, e.data⟩) e.to ⟨true, e.src, e.data⟩) (fun _ => [])
  else
    edges.foldl (fun d e => ddAppend d e.src ⟨e.isTuple, e.to, e.data⟩) (fun _ => [])

/-- `adapt_edge_iterable`, `attributes=False` (lines 200, 208-214, 221-225). -/
def adaptIterablePlain (edges : List (V × V)) (addInverted : Bool) : V → List V :=
  if addInverted then
    edges.foldl (fun d e => ddAppend (ddAppend d e.1 e.2) e.2 e.1) (fun _ => [])
  else
    edges.foldl (fun d e => ddAppend d e.1 e.2) (fun _ => [])

/-- `index[vertex]` for a mapping (its items in order), `()` for a `KeyError` (lines 137-145). -/
def mappingGet {X : Type} (items : List (V × List X)) (v : V) : List X :=
  match items.find? (fun p => decide (p.1 = v)) with
  | some p => p.2
  | none => []

/-- `seq[i]` for a Python sequence: negative indexes count from the end. `none`: `IndexError`. -/
def pyIndex {X : Type} (l : List X) (i : Int) : Option X :=
  if 0 ≤ i then l[i.toNat]?
  else if 0 ≤ l.length + i then l[(l.length + i).toNat]?
  else none

/-- `index[vertex]` for a sequence, `()` for an `IndexError` (lines 137-145). -/
def sequenceGet {X : Type} (index : List (List X)) (v : Int) : List X := (pyIndex index v).getD []

/-- `(v1,) + e_to`: a `TypeError` if `e_to` is not a tuple. -/
def prependVertex (v : V) (e : OutSeq V D) : Except PyErr (FullSeq V D) :=
  if e.isTuple then .ok ⟨true, v, e.to, e.data⟩ else .error .typeError

/-- `adapt_edge_index` for a mapping, `attributes=True` (lines 96-107, 137-145). -/
def adaptMappingData (items : List (V × List (OutSeq V D))) (addInverted : Bool) :
    Except PyErr (V → List (OutSeq V D)) :=
  if addInverted then do
    let edges ← (items.flatMap (fun p => p.2.map (fun e => (p.1, e)))).mapM (fun q => prependVertex q.1 q.2)
    return adaptIterableData edges addInverted
  else return mappingGet items

/-- `adapt_edge_index` for a mapping, `attributes=False` (lines 96-97, 108-113, 137-145). -/
def adaptMappingPlain (items : List (V × List V)) (addInverted : Bool) : V → List V :=
  if addInverted then adaptIterablePlain (items.flatMap (fun p => p.2.map (fun w => (p.1, w)))) addInverted
  else mappingGet items

/-- `zip(index, itertools.count())`, with the counter first. -/
def numbered {X : Type} (index : List X) : List (Int × X) := (index.zipIdx).map (fun p => ((p.2 : Int), p.1))

/-- `adapt_edge_index` for a sequence, `attributes=True` (lines 114-124, 137-145). -/
def adaptSequenceData (index : List (List (OutSeq Int D))) (addInverted : Bool) :
    Except PyErr (Int → List (OutSeq Int D)) :=
  if addInverted then do
    let edges ← ((numbered index).flatMap (fun p => p.2.map (fun e => (p.1, e)))).mapM (fun q => prependVertex q.1 q.2)
    return adaptIterableData edges addInverted
  else return sequenceGet index

/-- `adapt_edge_index` for a sequence, `attributes=False` (lines 114, 125-134, 137-145). -/
def adaptSequencePlain (index : List (List Int)) (addInverted : Bool) : Int → List Int :=
  if addInverted then adaptIterablePlain ((numbered index).flatMap (fun p => p.2.map (fun w => (p.1, w)))) addInverted
  else sequenceGet index

end NoGraphs
