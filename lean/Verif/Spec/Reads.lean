import Mathlib.Data.List.Basic

/-! # Specification: when a traversal reads edges, and textbook versions of two traversals -/

namespace NoGraphs.Spec

/-- What a traversal does that can be observed from outside: it reports a vertex, or it asks for the edges of a vertex
(it calls the function that the program has given). -/
inductive Act (V : Type) where
  | reported (v : V)
  | read (v : V)
  deriving DecidableEq

/-- The edges of a vertex are only read if it is a start vertex or has been reported before. (So the computation of edges
needs nothing but what the program has already seen.) -/
def OnDemand {V : Type} (starts : List V) (acts : List (Act V)) : Prop :=
  ∀ before v after, acts = before ++ Act.read v :: after → v ∈ starts ∨ Act.reported v ∈ before

/-- The edges of a vertex are only read if it is a start vertex, or it is a neighbor of a vertex whose edges have been read
before. -/
def Connected {V : Type} (starts : List V) (neighbors : V → List V) (acts : List (Act V)) : Prop :=
  ∀ before v after, acts = before ++ Act.read v :: after →
    v ∈ starts ∨ ∃ u, Act.read u ∈ before ∧ v ∈ neighbors u

/-- A vertex is only reported if the edges of it (resp. of a vertex with the same id) have been read before. -/
def ReadFirst {V K : Type} (vid : V → K) (acts : List (Act V)) : Prop :=
  ∀ before v after, acts = before ++ Act.reported v :: after → ∃ u, Act.read u ∈ before ∧ vid u = vid v

/-- The vertices that are reported. -/
def reportedOf {V : Type} (acts : List (Act V)) : List V :=
  acts.filterMap (fun a => match a with | .reported v => some v | .read _ => none)

/-- The vertices whose edges are read. -/
def readsOf {V : Type} (acts : List (Act V)) : List V :=
  acts.filterMap (fun a => match a with | .reported _ => none | .read v => some v)

/-- The vertices of the list that are new: their ids are not in `seen`, nor have they occurred earlier in the list. For a
tree, there is no check. -/
def fresh {V K : Type} [DecidableEq K] (tree : Bool) (vid : V → K) : (K → Bool) → List V → List V
  | _, [] => []
  | seen, v :: vs =>
    if !tree && seen (vid v) then fresh tree vid seen vs
    else v :: fresh tree vid (fun k => decide (k = vid v) || seen k) vs

/-- `seen`, and the ids of the vertices. -/
def seenWith {V K : Type} [DecidableEq K] (vid : V → K) (seen : K → Bool) (vs : List V) : K → Bool :=
  fun k => decide (k ∈ vs.map vid) || seen k

/-- Breadth-first search of a textbook, with a queue: take the first vertex of the queue, read its edges, report the new
neighbors in the order of the edges, and append them to the queue. (First argument: number of rounds.) -/
def queueActs {V K : Type} [DecidableEq K] (tree : Bool) (vid : V → K) (neighbors : V → List V) :
    Nat → List V → (K → Bool) → List (Act V)
  | 0, _, _ => []
  | _ + 1, [], _ => []
  | n + 1, v :: queue, seen =>
    let new := fresh tree vid seen (neighbors v)
    Act.read v :: new.map Act.reported ++
      queueActs tree vid neighbors n (queue ++ new) (if tree then seen else seenWith vid seen new)

/-- The same with a stack: the new neighbors are pushed one by one, so the last one is taken next. -/
def stackActs {V K : Type} [DecidableEq K] (tree : Bool) (vid : V → K) (neighbors : V → List V) :
    Nat → List V → (K → Bool) → List (Act V)
  | 0, _, _ => []
  | _ + 1, [], _ => []
  | n + 1, v :: stack, seen =>
    let new := fresh tree vid seen (neighbors v)
    Act.read v :: new.map Act.reported ++
      stackActs tree vid neighbors n (new.reverse ++ stack) (if tree then seen else seenWith vid seen new)

end NoGraphs.Spec
