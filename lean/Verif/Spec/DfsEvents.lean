import Verif.Spec.Dfs
import Verif.Spec.DfsEvent
import Verif.Spec.Graph

/-! # Specification: events of a depth-first search

A recursive search (`Verif/Spec/Dfs.lean`) gives a list of acts. Here we say which event of the API belongs to which
act, from the acts before it alone (`depth_first_enum_types.py` 4-70: what the events mean). -/

namespace NoGraphs.Spec

variable {V K L : Type}

/-- The path of an act. -/
def DfsAct.path : DfsAct V L → SPath V L
  | .enter q | .leave q | .skip q => q

/-- The paths left, in order. -/
def leftPaths (acts : List (DfsAct V L)) : List (SPath V L) :=
  acts.filterMap (fun a => match a with | .leave q => some q | _ => none)

/-- The ids of the vertices entered, in order. -/
def enteredIds (vid : V → K) (acts : List (DfsAct V L)) : List K := (entered acts).map (fun q => vid q.last)

/-- The ids of the vertices left, in order. -/
def leftIds (vid : V → K) (acts : List (DfsAct V L)) : List K := (leftPaths acts).map (fun q => vid q.last)

/-- `k` comes before `j` in the list. -/
def Before (l : List K) (k j : K) : Prop := ∃ A B, l = A ++ k :: B ∧ j ∈ B

/-- An edge to `w` found after the acts `pre` is a back edge: `w` has already been entered, but not left so far. -/
def IsBackEdge (vid : V → K) (pre : List (DfsAct V L)) (w : V) : Prop :=
  vid w ∈ enteredIds vid pre ∧ vid w ∉ leftIds vid pre

/-- An edge from `u` to `w` found after the acts `pre` is a forward edge: `w` has already been left, and it had been
entered after `u`. -/
def IsForwardEdge (vid : V → K) (pre : List (DfsAct V L)) (u w : V) : Prop :=
  vid w ∈ leftIds vid pre ∧ Before (enteredIds vid pre) (vid u) (vid w)

/-- An edge from `u` to `w` found after the acts `pre` is a cross edge: `w` has already been left, and it had been
entered before `u`. -/
def IsCrossEdge (vid : V → K) (pre : List (DfsAct V L)) (u w : V) : Prop :=
  vid w ∈ leftIds vid pre ∧ Before (enteredIds vid pre) (vid w) (vid u)

/-- The vertex before the last one of a path. -/
def SPath.parent (q : SPath V L) : V := q.init.getLast?.getD q.first

open Classical in
/-- The event of an act `a` that happens after the acts `pre`, if the events `req` are requested. -/
noncomputable def eventOf (req : DfsEvent → Bool) (vid : V → K) (pre : List (DfsAct V L)) : DfsAct V L → DfsEvent
  | .enter q => if q.isStart then .enteringStart else .enteringSuccessor
  | .leave q => if q.isStart then .leavingStart else .leavingSuccessor
  | .skip q =>
    if q.isStart then .skippingStart
    else if req .someNonTreeEdge then .someNonTreeEdge
    else if IsBackEdge vid pre q.last then .backEdge
    else if req .forwardOrCrossEdge then .forwardOrCrossEdge
    else if IsForwardEdge vid pre q.parent q.last then .forwardEdge
    else if IsCrossEdge vid pre q.parent q.last then .crossEdge
    else .none

/-- The acts, each with the list of the acts before it (after the acts `pre`). -/
def momentsFrom (pre : List (DfsAct V L)) : List (DfsAct V L) → List (List (DfsAct V L) × DfsAct V L)
  | [] => []
  | a :: as => (pre, a) :: momentsFrom (pre ++ [a]) as

/-- The acts, each with the list of the acts before it. -/
def moments (acts : List (DfsAct V L)) : List (List (DfsAct V L) × DfsAct V L) := momentsFrom [] acts

/-- An event of entering a vertex. -/
def _root_.NoGraphs.DfsEvent.isEntering : DfsEvent → Bool
  | .enteringStart | .enteringSuccessor => true
  | _ => false

/-- An event of leaving a vertex. -/
def _root_.NoGraphs.DfsEvent.isLeaving : DfsEvent → Bool
  | .leavingStart | .leavingSuccessor => true
  | _ => false

open Classical in
/-- What is to be reported for the acts, if the events `req` are requested: the vertex, the event, and the path to the
vertex. -/
noncomputable def requestedReports (req : DfsEvent → Bool) (vid : V → K) (acts : List (DfsAct V L)) :
    List (V × DfsEvent × List V) :=
  ((moments acts).filter (fun m => decide (eventOf req vid m.1 m.2 ≠ .none) && req (eventOf req vid m.1 m.2))).map
    (fun m => (m.2.path.last, eventOf req vid m.1 m.2, m.2.path.verts))

/-- Entering (`true`) and leaving (`false`), with the vertex and the path to it. -/
def inOutActs (acts : List (DfsAct V L)) : List (Bool × V × List V) :=
  acts.filterMap (fun a => match a with
    | .enter q => some (true, q.last, q.verts)
    | .leave q => some (false, q.last, q.verts)
    | .skip _ => none)

/-- What is to be reported for entering and leaving, if the events `req` are requested: the vertex, the event and the
path to the vertex. -/
def inOutEvents (req : DfsEvent → Bool) (acts : List (DfsAct V L)) : List (V × DfsEvent × List V) :=
  (acts.filterMap (fun a => match a with
    | .enter q => some (q.last, if q.isStart then DfsEvent.enteringStart else .enteringSuccessor, q.verts)
    | .leave q => some (q.last, if q.isStart then DfsEvent.leavingStart else .leavingSuccessor, q.verts)
    | .skip _ => none)).filter (fun x => req x.2.1)

/-- The first acts of a recursive search. (The search may be infinite. Only the decisions whether to prune it at the
vertices entered by these acts matter, so the search is completed with other decisions.) -/
def BeginsDfs (next : V → List (V × L)) (vid : V → K) (rule : DfsRule) (prune : Nat → SPath V L → Bool)
    (vis : K → Prop) (starts : List V) (acts : List (DfsAct V L)) : Prop :=
  ∃ pr : Nat → SPath V L → Bool, (∀ m q, m < (entered acts).length → pr m q = prune m q) ∧
    ∃ rest vis' n', Dfs next vid rule pr vis 0 (starts.map SPath.single) (acts ++ rest) vis' n'

/-- Pre-order numbers: the position (starting with 1) at which `k` has been entered (for the last time), 0 if it has not
been entered. -/
def indexOf [DecidableEq K] (ids : List K) (k : K) : Nat :=
  if k ∈ ids then ids.length - ids.reverse.idxOf k else 0

/-- Each of the edges is the first out-edge of its source vertex. -/
def FirstEdges (next : V → List (V × L)) (es : List (V × V × L)) : Prop := ∀ e ∈ es, (next e.1).head? = some e.2

/-- Labels `tl` for the edges of the path `q`. They agree with the labels of the edges, with a possible exception: an
edge `(u, v)` of the path, if `u` has at least two out-edges, and all edges from the start vertex to `v` are first
out-edges. -/
def LabelsAgree (next : V → List (V × L)) (q : SPath V L) (tl : List L) : Prop :=
  tl.length = q.steps.length ∧ ∀ i e, q.edges[i]? = some e →
    tl[i]? = some e.2.2 ∨ (FirstEdges next (q.edges.take (i + 1)) ∧ 2 ≤ (next e.1).length)

/-- The path with other labels. -/
def SPath.relabel (q : SPath V L) (tl : List L) : SPath V L := ⟨q.first, (q.steps.map Prod.fst).zip tl⟩

/-- Entering and leaving is well bracketed. -/
inductive Nested : List (DfsAct V L) → Prop
  | nil : Nested []
  | skip {q a} : Nested a → Nested (.skip q :: a)
  | node {q a b} : Nested a → Nested b → Nested (.enter q :: a ++ .leave q :: b)

/-- A list of entries `(true, v)`: `v` is entered, and `(false, v)`: `v` is left. It is well bracketed: each entered vertex
is left, and what is entered between is also left between. -/
inductive Bracketed : List (Bool × V) → Prop
  | nil : Bracketed []
  | node {v a b} : Bracketed a → Bracketed b → Bracketed ((true, v) :: a ++ (false, v) :: b)

/-- `q` is a simple path of the graph that starts at `s`: its vertices have different ids. -/
def IsSimplePath (next : V → List (V × L)) (vid : V → K) (s : V) (q : SPath V L) : Prop :=
  q.first = s ∧ IsPath next s q.steps ∧ (q.verts.map vid).Nodup

end NoGraphs.Spec
