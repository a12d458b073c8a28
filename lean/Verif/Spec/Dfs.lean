import Verif.Spec.Paths

/-! # Specification: recursive depth-first search

A search is given a list of paths, to be handled one after the other. To handle a path means: to try to
enter its last vertex. If this is blocked, the path is skipped. Otherwise the vertex is entered, then the
paths extended by its out-edges are handled recursively, last out-edge first, and then the vertex is left.
The consumer of the search may prune it at an entered vertex; then the out-edges are not followed.

Everything is defined from the graph alone. -/

namespace NoGraphs.Spec

variable {V K L : Type}

/-- The last vertex of a path. -/
def SPath.last (p : SPath V L) : V := ((p.steps.map Prod.fst).getLast?).getD p.first

/-- The vertices of the path without the last one. -/
def SPath.init (p : SPath V L) : List V := p.verts.dropLast

/-- The path that consists of one vertex. -/
def SPath.single (v : V) : SPath V L := ⟨v, []⟩

/-- The path is a start vertex: it has no edges. -/
def SPath.isStart (p : SPath V L) : Bool := p.steps.isEmpty

/-- What a search does: it enters or leaves the last vertex of a path, or it skips the path. -/
inductive DfsAct (V L : Type) where
  | enter (q : SPath V L)
  | leave (q : SPath V L)
  | skip (q : SPath V L)

/-- When it is not allowed to enter the last vertex of a path, given the ids of the vertices that have been
visited before. -/
inductive DfsRule where
  /-- depth-first search: a vertex is entered once -/
  | tree
  /-- all simple paths: a vertex is not entered if it is already on the path -/
  | paths
  /-- all walks: every vertex is entered -/
  | walks

/-- The rule says that the path may not be entered. -/
def DfsRule.Blocks (rule : DfsRule) (vid : V → K) (vis : K → Prop) (q : SPath V L) : Prop :=
  match rule with
  | .tree => vis (vid q.last)
  | .paths => vid q.last ∈ q.init.map vid
  | .walks => False

/-- The extensions of a path by the out-edges of its last vertex, last out-edge first. -/
def children (next : V → List (V × L)) (q : SPath V L) : List (SPath V L) :=
  (next q.last).reverse.map (fun e => q.snoc e.1 e.2)

/-- A set of ids with a further id. -/
def insertId (vis : K → Prop) (k : K) : K → Prop := fun j => j = k ∨ vis j

/-- The recursive search. `Dfs next vid rule prune vis n qs acts vis' n'`: with ids `vis` already visited, and `n`
vertices already entered, the handling of the paths `qs` has the effects `acts`, and then the ids `vis'` are
visited and `n'` vertices have been entered. `prune n q` says whether the consumer prunes the search when the path `q`
is entered as the `n`-th one. -/
inductive Dfs (next : V → List (V × L)) (vid : V → K) (rule : DfsRule) (prune : Nat → SPath V L → Bool) :
    (K → Prop) → Nat → List (SPath V L) → List (DfsAct V L) → (K → Prop) → Nat → Prop
  | nil {vis n} : Dfs next vid rule prune vis n [] [] vis n
  | skip {vis n q qs acts vis' n'} : rule.Blocks vid vis q →
      Dfs next vid rule prune vis n qs acts vis' n' →
      Dfs next vid rule prune vis n (q :: qs) (.skip q :: acts) vis' n'
  | prune {vis n q qs acts vis' n'} : ¬ rule.Blocks vid vis q → prune n q = true →
      Dfs next vid rule prune (insertId vis (vid q.last)) (n + 1) qs acts vis' n' →
      Dfs next vid rule prune vis n (q :: qs) (.enter q :: .leave q :: acts) vis' n'
  | enter {vis n q qs acts1 vis1 n1 acts2 vis2 n2} : ¬ rule.Blocks vid vis q → prune n q = false →
      Dfs next vid rule prune (insertId vis (vid q.last)) (n + 1) (children next q) acts1 vis1 n1 →
      Dfs next vid rule prune vis1 n1 qs acts2 vis2 n2 →
      Dfs next vid rule prune vis n (q :: qs) (.enter q :: acts1 ++ .leave q :: acts2) vis2 n2

/-- The paths entered, in order. -/
def entered (acts : List (DfsAct V L)) : List (SPath V L) :=
  acts.filterMap (fun a => match a with | .enter q => some q | _ => none)

/-- The consumer never prunes. -/
def noPrune : Nat → SPath V L → Bool := fun _ _ => false

end NoGraphs.Spec
