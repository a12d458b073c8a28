import Verif.Model.Paths

/-!
# Model of the classes of `src/nographs/_paths.py` and `src/nographs/_path.py`

Which container and which path object an application gets, and what each of their methods does: `PathsDummy`,
`PathsOfUnlabeledEdges`, `PathsOfLabeledEdges`, `PathOfUnlabeledEdges` and `PathOfLabeledEdges`. The iterations are those
of `Model/Paths.lean`. In addition, this model has `None` as argument, and it distinguishes an exception raised by the call
of a method from one that is raised when the returned iterator is used.
-/

namespace NoGraphs

variable {V K L M ML : Type} [DecidableEq V]

/-- The outcome of calling a method that returns an iterator: the call raises an exception, or it gives an iterator, here
the elements it will yield and how the iteration will end. -/
abbrev IterCall (α : Type) := Except PyErr (List α × Ending)

/-- A `for` loop over the result of a call: the elements the loop sees, and how it ends. -/
def IterCall.loop {α : Type} : IterCall α → List α × Ending
  | .error e => ([], .raised e)
  | .ok r => r

/-- `tuple(call)`: the elements, or the exception (resp. that the fuel was not enough). -/
def IterCall.tuple {α : Type} (c : IterCall α) : Except Ending (List α) :=
  match c with
  | .error e => .error (.raised e)
  | .ok (l, .done) => .ok l
  | .ok (_, e) => .error e

/-- `reversed(tuple(iterator))`: an exception of the iteration is raised by this expression. Simplification: if the fuel
is not enough, the iterator is one that yields nothing and ends so. -/
def reversedTuple {α : Type} : List α × Ending → IterCall α
  | (l, .done) => .ok (l.reverse, .done)
  | (_, .raised e) => .error e
  | (_, .outOfFuel) => .ok ([], .outOfFuel)

/-- The classes of `Paths` containers (`_paths.py` 291-316, 319-369, 372-490). -/
inductive PathsObj (V K L : Type) where
  | dummy (vid : V → K)
  | unlabeled (p : PathsView V K L)
  | labeled (p : PathsView V K L)

/-- Attribute `paths` of a traversal that has not been started (`traversal.py` 88-90). -/
def PathsObj.notStarted (vid : V → K) : PathsObj V K L := .dummy vid

/-- Attribute `paths` of a started traversal, when the collections of the gear have become `m` and `ml`: `create_paths`
decides about the class (`_strategies/utils.py` 170-199). -/
def PathsObj.ofTraversal (buildPaths labeledEdges : Bool) (mo : MapOps M K V) (lo : MapOps ML K L) (vid : V → K) (m : M)
    (ml : ML) : PathsObj V K L :=
  if buildPaths then
    if labeledEdges then .labeled (pathsView mo lo vid m ml) else .unlabeled (pathsView mo lo vid m ml)
  else .dummy vid

namespace PathsObj

/-- `_check_vertex` (`_paths.py` 96-109, 302-308): the exception, if one is raised. -/
def check (o : PathsObj V K L) (v : Option V) : Except PyErr V :=
  match o with
  | .dummy _ => .error .runtimeError
  | .unlabeled p | .labeled p =>
    match v with
    | none => .error .runtimeError
    | some v => if p.contains (p.vid v) then .ok v else .error .runtimeError

/-- `vertex in paths` (`_paths.py` 81-94). The dummy container has a `DummyPredecessorOrLabelsMapping`, which contains
nothing (282-283). -/
def contains (o : PathsObj V K L) (v : Option V) : Except PyErr Bool :=
  match v with
  | none => .error .runtimeError
  | some v =>
    match o with
    | .dummy _ => .ok false
    | .unlabeled p | .labeled p => .ok (p.contains (p.vid v))

/-- `predecessor` (`_paths.py` 111-127). -/
def predecessor (o : PathsObj V K L) (v : Option V) : Except PyErr (Option V) :=
  match o.check v with
  | .error e => .error e
  | .ok v =>
    match o with
    | .dummy _ => .error .runtimeError
    | .unlabeled p | .labeled p => p.predecessor v

/-- `iter_vertices_to_start` (`_paths.py` 129-148): a generator function, so that `_check_vertex` runs when the first
element is requested. -/
def iterVerticesToStart (o : PathsObj V K L) (fuel : Nat) (v : Option V) : IterCall V :=
  .ok (match o.check v with
    | .error e => ([], .raised e)
    | .ok v =>
      match o with
      | .dummy _ => ([], .done)
      | .unlabeled p | .labeled p => iterVertsLoop p fuel v)

/-- `iter_vertices_from_start` (`_paths.py` 150-157). -/
def iterVerticesFromStart (o : PathsObj V K L) (fuel : Nat) (v : Option V) : IterCall V :=
  match o.iterVerticesToStart fuel v with
  | .error e => .error e
  | .ok r => reversedTuple r

/-- `_iter_raw_edges_to_start` (`_paths.py` 159-187): a generator function. -/
def iterRawEdgesToStart (o : PathsObj V K L) (fuel : Nat) (v : Option V) : List (V × V × K) × Ending :=
  match o.check v with
  | .error e => ([], .raised e)
  | .ok v =>
    match o with
    | .dummy _ => ([], .done)
    | .unlabeled p | .labeled p => iterRawLoop p fuel v

/-- `iter_edges_to_start` (`_paths.py` 189-198): a generator function. -/
def iterEdgesToStart (o : PathsObj V K L) (fuel : Nat) (v : Option V) : IterCall (V × V) :=
  .ok ((o.iterRawEdgesToStart fuel v).1.map (fun t => (t.1, t.2.1)), (o.iterRawEdgesToStart fuel v).2)

/-- `iter_edges_from_start` (`_paths.py` 200-209). -/
def iterEdgesFromStart (o : PathsObj V K L) (fuel : Nat) (v : Option V) : IterCall (V × V) :=
  match o.iterEdgesToStart fuel v with
  | .error e => .error e
  | .ok r => reversedTuple r

/-- `iter_labeled_edges_to_start` (`_paths.py` 211-223, 469-472): the method of the base class raises an exception; the
one of `PathsOfLabeledEdges` combines generators. -/
def iterLabeledEdgesToStart (o : PathsObj V K L) (fuel : Nat) (v : Option V) : IterCall (V × V × L) :=
  match o with
  | .dummy _ | .unlabeled _ => .error .runtimeError
  | .labeled p =>
    let (l, e) := o.iterRawEdgesToStart fuel v
    .ok (p.iterPathEdges l e)

/-- `iter_labeled_edges_from_start` (`_paths.py` 225-239, 474-479): `reversed(tuple(…))` is evaluated by the call. -/
def iterLabeledEdgesFromStart (o : PathsObj V K L) (fuel : Nat) (v : Option V) : IterCall (V × V × L) :=
  match o with
  | .dummy _ | .unlabeled _ => .error .runtimeError
  | .labeled p =>
    match reversedTuple (o.iterRawEdgesToStart fuel v) with
    | .error e => .error e
    | .ok (l, e) => .ok (p.iterPathEdges l e)

/-- `paths[vertex]` (`_paths.py` 310-316, 362-369, 481-490): a sequence of vertices or of labeled edges. -/
def getItem (o : PathsObj V K L) (fuel : Nat) (v : Option V) : Except Ending (List V ⊕ List (V × V × L)) :=
  match o with
  | .dummy _ => .error (.raised .runtimeError)
  | .unlabeled _ => (o.iterVerticesFromStart fuel v).tuple.map .inl
  | .labeled _ => (o.iterLabeledEdgesFromStart fuel v).tuple.map .inr

end PathsObj

/-! ## Path objects -/

/-- `itertools.chain(a, b)`, where both arguments are evaluated by the call. -/
def chainCalls {α : Type} (a b : IterCall α) : IterCall α :=
  match a, b with
  | .error e, _ => .error e
  | .ok _, .error e => .error e
  | .ok (l, .done), .ok (l', e') => .ok (l ++ l', e')
  | .ok (l, e), .ok _ => .ok (l, e)

/-- Apply a function to the elements that an iterator yields (here: `reverse_edges`, `_take_except_for_last`,
`itertools.islice`). Simplification for `_take_except_for_last`: if the iteration ends by an exception, then the last
element before the exception is not yielded, which holds for the code, too. -/
def mapCall {α β : Type} (f : List α → List β) : IterCall α → IterCall β
  | .error e => .error e
  | .ok (l, e) => .ok (f l, e)

/-- An object of class `PathOfLabeledEdges` (`labeled`) or `PathOfUnlabeledEdges`, with its four functions
(`_path.py` 85-99, 229-258). -/
structure PathCalls (V L : Type) where
  labeled : Bool
  vertexForwards : IterCall V
  vertexBackwards : IterCall V
  edgeForwards : IterCall (V × V × L)
  edgeBackwards : IterCall (V × V × L)

namespace PathCalls

/-- `from_bidirectional_search` (`_path.py` 101-155). The functions are called with the containers as they are when the
search has ended; the search objects do not change them any more. -/
def fromBidirectionalSearch (labeled : Bool) (f b : PathsObj V K L) (fuel : Nat) (v : V) : PathCalls V L where
  labeled := labeled
  vertexForwards := chainCalls (mapCall takeExceptForLast (f.iterVerticesFromStart fuel (some v)))
    (b.iterVerticesToStart fuel (some v))
  vertexBackwards := chainCalls (b.iterVerticesFromStart fuel (some v))
    (mapCall (List.drop 1) (f.iterVerticesToStart fuel (some v)))
  edgeForwards := chainCalls (f.iterLabeledEdgesFromStart fuel (some v))
    (mapCall reverseEdges (b.iterLabeledEdgesToStart fuel (some v)))
  edgeBackwards := chainCalls (mapCall reverseEdges (b.iterLabeledEdgesFromStart fuel (some v)))
    (f.iterLabeledEdgesToStart fuel (some v))

/-- `of_nothing` (`_path.py` 157-159). -/
def ofNothing (labeled : Bool) : PathCalls V L := ⟨labeled, .ok ([], .done), .ok ([], .done), .ok ([], .done), .ok ([], .done)⟩

/-- `from_vertex` (`_path.py` 161-171). -/
def fromVertex (labeled : Bool) (v : V) : PathCalls V L :=
  ⟨labeled, .ok ([v], .done), .ok ([v], .done), .ok ([], .done), .ok ([], .done)⟩

/-- `iter_edges_from_start` (`_path.py` 181-183): `pairwise` of the iterator. -/
def iterEdgesFromStart (p : PathCalls V L) : IterCall (V × V) := mapCall pairwise p.vertexForwards

/-- `iter_edges_to_start` (`_path.py` 185-188): a generator function; the call of the stored function is evaluated when the
first edge is requested. -/
def iterEdgesToStart (p : PathCalls V L) : IterCall (V × V) :=
  .ok (mapCall (fun l => (pairwise l).map (fun wv => (wv.2, wv.1))) p.vertexBackwards).loop

/-- `iter(path)` (`_path.py` 241-242, 257-258). -/
def iter (p : PathCalls V L) : IterCall V ⊕ IterCall (V × V × L) :=
  if p.labeled then .inr p.edgeForwards else .inl p.vertexForwards

end PathCalls

end NoGraphs
