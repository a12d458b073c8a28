import Verif.Model.Gear

/-!
# Model of `src/nographs/_paths.py` and `src/nographs/_path.py`

A `Paths` container is given by the read functions of its predecessor mapping (`MapOps.get?` for
`in`, `MapOps.raw` for the direct reads) and of its labels mapping.  Iterators become lists together
with the way the iteration ended; the `while True` loops have fuel.
-/

namespace NoGraphs

variable {V K L M : Type} [DecidableEq V]

/-- What a `Paths` object holds (`_paths.py` 58-79, 392-412): functions reading the predecessor and
label collections, and `vertex_to_id`. (`V` has no `None`; the `None` checks of 86-87 and 101-102
only reject that value.) -/
structure PathsView (V K L : Type) where
  contains : K → Bool
  rawPred : K → Option (Option V)
  rawLabel : K → Option (Option L)
  vid : V → K

/-- The loop of `iter_vertices_to_start` (`_paths.py` 139-148). -/
def iterVertsLoop (p : PathsView V K L) : Nat → V → List V × Ending
  | 0, _ => ([], .outOfFuel)
  | fuel + 1, v =>
    match p.rawPred (p.vid v) with
    | none => ([v], .raised .keyError)          -- KeyError / IndexError of the collection
    | some none => ([v], .raised .assertionError)  -- `assert from_vertex is not None`
    | some (some u) =>
      if v = u then ([v], .done)
      else
        let (rest, e) := iterVertsLoop p fuel u
        (v :: rest, e)

/-- `iter_vertices_to_start` (`_paths.py` 129-148) with `_check_vertex` (96-109). -/
def PathsView.iterVerticesToStart (p : PathsView V K L) (fuel : Nat) (v : V) : List V × Ending :=
  if p.contains (p.vid v) then iterVertsLoop p fuel v else ([], .raised .runtimeError)

/-- `iter_vertices_from_start` (`_paths.py` 150-157): `reversed(tuple(...))`;
an exception of the inner iteration leaves nothing iterated. -/
def PathsView.iterVerticesFromStart (p : PathsView V K L) (fuel : Nat) (v : V) : List V × Ending :=
  match p.iterVerticesToStart fuel v with
  | (l, .done) => (l.reverse, .done)
  | (_, e) => ([], e)

/-- The loop of `_iter_raw_edges_to_start` (`_paths.py` 172-187). -/
def iterRawLoop (p : PathsView V K L) : Nat → V → List (V × V × K) × Ending
  | 0, _ => ([], .outOfFuel)
  | fuel + 1, v =>
    match p.rawPred (p.vid v) with
    | none => ([], .raised .keyError)
    | some none => ([], .done)
    | some (some u) =>
      if u = v then ([], .done)
      else
        let (rest, e) := iterRawLoop p fuel u
        ((u, v, p.vid v) :: rest, e)

/-- `_iter_raw_edges_to_start` (`_paths.py` 159-187). -/
def PathsView.iterRawEdgesToStart (p : PathsView V K L) (fuel : Nat) (v : V) :
    List (V × V × K) × Ending :=
  if p.contains (p.vid v) then iterRawLoop p fuel v else ([], .raised .runtimeError)

/-- `iter_edges_to_start` (`_paths.py` 189-198). -/
def PathsView.iterEdgesToStart (p : PathsView V K L) (fuel : Nat) (v : V) : List (V × V) × Ending :=
  let (l, e) := p.iterRawEdgesToStart fuel v
  (l.map (fun t => (t.1, t.2.1)), e)

/-- `iter_edges_from_start` (`_paths.py` 200-209). -/
def PathsView.iterEdgesFromStart (p : PathsView V K L) (fuel : Nat) (v : V) : List (V × V) × Ending :=
  match p.iterEdgesToStart fuel v with
  | (l, .done) => (l.reverse, .done)
  | (_, e) => ([], e)

/-- `_iter_path_edges` (`_paths.py` 448-467). -/
def PathsView.iterPathEdges (p : PathsView V K L) :
    List (V × V × K) → Ending → List (V × V × L) × Ending
  | [], e => ([], e)
  | (u, v, k) :: rest, e =>
    match p.rawLabel k with
    | none => ([], .raised .keyError)
    | some none => ([], .raised .assertionError)
    | some (some l) =>
      let (r, e') := p.iterPathEdges rest e
      ((u, v, l) :: r, e')

/-- `iter_labeled_edges_to_start` (`_paths.py` 469-472). -/
def PathsView.iterLabeledEdgesToStart (p : PathsView V K L) (fuel : Nat) (v : V) :
    List (V × V × L) × Ending :=
  let (l, e) := p.iterRawEdgesToStart fuel v
  p.iterPathEdges l e

/-- `iter_labeled_edges_from_start` (`_paths.py` 474-479). -/
def PathsView.iterLabeledEdgesFromStart (p : PathsView V K L) (fuel : Nat) (v : V) :
    List (V × V × L) × Ending :=
  match p.iterRawEdgesToStart fuel v with
  | (l, .done) => p.iterPathEdges l.reverse .done
  | (_, e) => ([], e)

/-- `predecessor` (`_paths.py` 111-127): result `none` is `None` (empty path). -/
def PathsView.predecessor (p : PathsView V K L) (v : V) : Except PyErr (Option V) :=
  if p.contains (p.vid v) then
    match p.rawPred (p.vid v) with
    | none => .error .keyError
    | some u => if u = some v then .ok none else .ok u
  else .error .runtimeError

/-- The `Paths` view on the collections of a traversal (`_strategies/utils.py` 155-199). -/
def pathsView {ML : Type} (mo : MapOps M K V) (lo : MapOps ML K L) (vid : V → K) (m : M) (ml : ML) :
    PathsView V K L where
  contains k := (mo.get? m k).isSome
  rawPred k := mo.raw m k
  rawLabel k := lo.raw ml k
  vid := vid

/-- `append_edge` (`_paths.py` 343-360, 414-446), inlined in all strategies: store predecessor and labels. -/
def appendEdge {ML : Type} (mo : MapOps M K V) (lo : MapOps ML K L) (m : M) (ml : ML)
    (fromV : V) (toId : K) (label : L) : M × ML :=
  (mo.set m toId fromV, lo.set ml toId label)

/-! ## `_path.py` -/

/-- `_take_except_for_last` (`_path.py` 24-32): state is the last element read so far. -/
def takeExceptForLastAux {α : Type} : α → List α → List α
  | _, [] => []
  | v1, v2 :: rest => v1 :: takeExceptForLastAux v2 rest

/-- `_take_except_for_last` (`_path.py` 24-32). -/
def takeExceptForLast {α : Type} : List α → List α
  | [] => []
  | v1 :: rest => takeExceptForLastAux v1 rest

/-- `reverse_edges` (`_path.py` 40-44). -/
def reverseEdges (l : List (V × V × L)) : List (V × V × L) := l.map (fun e => (e.2.1, e.1, e.2.2))

/-- `itertools.pairwise`. -/
def pairwise {α : Type} : List α → List (α × α)
  | a :: b :: rest => (a, b) :: pairwise (b :: rest)
  | _ => []

/-- A `Path` (`_path.py` 50-99): what the four stored functions iterate. -/
structure PathObj (V L : Type) where
  vertsForwards : List V
  vertsBackwards : List V
  edgesForwards : List (V × V × L)
  edgesBackwards : List (V × V × L)
  deriving DecidableEq

/-- `Path.from_bidirectional_search` (`_path.py` 101-155). The iterations of the two containers are
assumed to end normally (the searches call it for a vertex with stored paths in both). -/
def PathObj.fromBidirectionalSearch (f b : PathsView V K L) (fuel : Nat) (v : V) : PathObj V L where
  vertsForwards :=
    takeExceptForLast (f.iterVerticesFromStart fuel v).1 ++ (b.iterVerticesToStart fuel v).1
  vertsBackwards :=
    (b.iterVerticesFromStart fuel v).1 ++ ((f.iterVerticesToStart fuel v).1).drop 1
  edgesForwards :=
    (f.iterLabeledEdgesFromStart fuel v).1 ++ reverseEdges (b.iterLabeledEdgesToStart fuel v).1
  edgesBackwards :=
    reverseEdges (b.iterLabeledEdgesFromStart fuel v).1 ++ (f.iterLabeledEdgesToStart fuel v).1

/-- `Path.of_nothing` (`_path.py` 157-159). -/
def PathObj.ofNothing : PathObj V L := ⟨[], [], [], []⟩

/-- `Path.from_vertex` (`_path.py` 161-171). -/
def PathObj.fromVertex (v : V) : PathObj V L := ⟨[v], [v], [], []⟩

/-- `Path.iter_edges_from_start` (`_path.py` 181-183). -/
def PathObj.iterEdgesFromStart (p : PathObj V L) : List (V × V) := pairwise p.vertsForwards

/-- `Path.iter_edges_to_start` (`_path.py` 185-188). -/
def PathObj.iterEdgesToStart (p : PathObj V L) : List (V × V) :=
  (pairwise p.vertsBackwards).map (fun wv => (wv.2, wv.1))

end NoGraphs
