/-! # Specification: paths as explicit lists -/

namespace NoGraphs.Spec

/-- A path: its first vertex and then the reached vertices with the label of the edge used. -/
structure SPath (V L : Type) where
  first : V
  steps : List (V × L)

variable {V L : Type}

/-- The vertices from first to last. -/
def SPath.verts (p : SPath V L) : List V := p.first :: p.steps.map Prod.fst

/-- The labeled edges from first to last, for a path starting at `s`. -/
def edgesFrom : V → List (V × L) → List (V × V × L)
  | _, [] => []
  | s, (t, l) :: rest => (s, t, l) :: edgesFrom t rest

/-- The labeled edges from first to last. -/
def SPath.edges (p : SPath V L) : List (V × V × L) := edgesFrom p.first p.steps

/-- Extend a path by an edge. -/
def SPath.snoc (p : SPath V L) (v : V) (l : L) : SPath V L := ⟨p.first, p.steps ++ [(v, l)]⟩

/-- What a container of paths should store: one path for some vertices. -/
abbrev Store (V L : Type) := V → Option (SPath V L)

/-- Empty paths for the start vertices. -/
def Store.ofStarts [DecidableEq V] (starts : List V) : Store V L :=
  fun v => if v ∈ starts then some ⟨v, []⟩ else none

/-- Add, for `to`, the path of `from` extended by the edge `(from, to)` with label `l`. -/
def Store.append [DecidableEq V] (st : Store V L) (fromV to : V) (l : L) : Store V L :=
  fun v => if v = to then (st fromV).map (fun p => p.snoc to l) else st v

/-- A history of appended edges is legal if each edge starts at a vertex that has a path and ends at
one that has none. -/
def Store.Legal [DecidableEq V] : Store V L → List (V × V × L) → Prop
  | _, [] => True
  | st, (f, t, l) :: rest => (st f).isSome ∧ (st t) = none ∧ Store.Legal (st.append f t l) rest

/-- The store after a history. -/
def Store.run [DecidableEq V] (st : Store V L) (hist : List (V × V × L)) : Store V L :=
  hist.foldl (fun st e => st.append e.1 e.2.1 e.2.2) st

end NoGraphs.Spec
