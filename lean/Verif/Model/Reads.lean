import Verif.Model.AStar
import Verif.Model.DepthFirstTrace
import Verif.Model.SearchAware
import Verif.Model.Topological
import Verif.Spec.Reads

/-!
# The observable actions of a traversal: reports and reads of edges

The strategies call the edges function once for each expansion, directly after the check of the calculation limit (for
example `breadth_first.py` 302-307); `who` says for which vertex.
-/

namespace NoGraphs

open Spec

variable {σ ρ V : Type}

/-- The actions of a run (compare `runMachine`) in their order: `vert` is the vertex of a report, `who s` is the vertex whose
edges are read in state `s`. -/
def actsOf (m : σ → Step σ ρ) (who : σ → Option V) (vert : ρ → V) : Nat → Option Int → σ → List (Act V)
  | 0, _, _ => []
  | fuel + 1, lim, s =>
    match m s with
    | .stop _ => []
    | .fail _ => []
    | .tau s' => actsOf m who vert fuel lim s'
    | .emit r s' => .reported (vert r) :: actsOf m who vert fuel lim s'
    | .expand s' =>
      match checkLimit lim with
      | none => []
      | some lim' => (who s).toList.map Act.read ++ actsOf m who vert fuel lim' s'

section
variable {K L S M ML : Type}

/-- The actions of a breadth-first traversal (compare `bfsRun`). -/
def bfsActs (g : TravGear V K L S M ML) (c : TravCfg V K L) (already : S) (starts : List V) (limit : Option Int)
    (fuel : Nat) : List (Act V) :=
  actsOf (bfsStep g c false) bfsWho (fun r => r.vertex) fuel (prepareLimit limit) (bfsInit g c already starts)

/-- The actions of a traversal "neighbors before depth" (compare `ntdRun`). -/
def ntdActs (g : TravGear V K L S M ML) (c : NtdCfg V K L) (already : S) (starts : List V) (limit : Option Int)
    (fuel : Nat) : List (Act V) :=
  actsOf (ntdStep g c) (ntdWho c) (fun r => r.vertex) fuel (prepareLimit limit) (ntdInit g c already starts)

/-- The actions of a depth-first traversal without trace (compare `dfsRun`). -/
def dfsActs [DecidableEq V] (g : TravGear V K L S M ML) (c : DfsCfg V K L) (already : S) (starts : List V)
    (limit : Option Int) (fuel : Nat) : List (Act V) :=
  actsOf (dfsStep g c) (dfsWho c) (fun r => r.vertex) fuel (prepareLimit limit) (dfsInit g c already starts)

/-- The vertex whose edges are read next (`depth_first.py` 909-922). -/
def trWho (c : TraceCfg V K L) (s : TraceState V K L S M ML) : Option V :=
  match s.pc with
  | .entered v rep => if rep && c.skip s.n then none else some v
  | _ => none

/-- The actions of a depth-first traversal with trace (compare `trRun`). -/
def trActs [DecidableEq V] [DecidableEq K] (g : TravGear V K L S M ML) (c : TraceCfg V K L) (already : S) (starts : List V)
    (limit : Option Int) (fuel : Nat) : List (Act V) :=
  actsOf (trStep g c) (trWho c) (fun r => r.vertex) fuel (prepareLimit limit) (trInit g already starts)

/-- The vertex whose edges are read next (`topological_sort.py` 453-545). -/
def topoWho (g : TravGear V K L S M ML) (c : TravCfg V K L) (s : TopoState V L S M ML) : Option V :=
  match s.pc with
  | .loop =>
    match s.stack with
    | [] => none
    | v :: _ =>
      if g.so.contains s.trace (c.vid v) then none
      else if 0 < s.depth then (if (g.so.checkAdd s.visited (c.vid v)).1 then none else some v)
      else some v
  | _ => none

/-- The vertex whose edges are read next, for trees (`topological_sort.py` 281-300). -/
def topoTreeWho (s : TopoState V L S M ML) : Option V :=
  match s.pc with
  | .loop =>
    match s.stack, s.leave with
    | v :: _, false :: _ => some v
    | _, _ => none
  | _ => none

/-- The actions of a topological sorting (compare `topoRun`). -/
def topoActs (g : TravGear V K L S M ML) (c : TravCfg V K L) (already : S) (starts : List V) (limit : Option Int)
    (fuel : Nat) : List (Act V) :=
  if c.isTree then
    actsOf (topoTreeStep g c) topoTreeWho (fun r => r.vertex) fuel (prepareLimit limit) (topoInit g c already starts)
  else actsOf (topoStep g c) (topoWho g c) (fun r => r.vertex) fuel (prepareLimit limit) (topoInit g c already starts)

/-- The actions of a minimum spanning tree traversal (compare `mstRun`). -/
def mstActs {W : Type} [LinearOrder W] (g : TravGear V K L S M ML) (c : MstCfg V K L W) (starts : List V)
    (limit : Option Int) (fuel : Nat) : List (Act V) :=
  if limit.any (fun k : Int => 0 ≤ k && k < starts.length) then []
  else actsOf (mstStep g c) mstWho (fun r => r.vertex) fuel (prepareLimit limit) (mstInit g c starts)

end

section
variable {K L W M ML D : Type} [AddCommMonoid W] [LinearOrder W]

/-- The actions of a shortest paths traversal (compare `spRun`). -/
def spActs (g : WGear V K L W M ML D) (c : WCfg V K L W) (known : Option D) (starts : List V) (limit : Option Int)
    (fuel : Nat) : List (Act V) :=
  actsOf (spStep g c) spWho (fun r => r.vertex) fuel (prepareLimit limit) (spInit g c known starts)

/-- The vertex whose edges are read next (`a_star.py` 365-370). -/
def aWho (s : AStarState V L W M ML D) : Option V :=
  match s.pc with
  | .expand v _ _ => some v
  | _ => none

/-- The actions of an A* traversal (compare `aRun`). -/
def aActs (g : WGear V K L W M ML D) (c : AStarCfg V K L W) (known knownGuesses : Option D) (starts : List V)
    (limit : Option Int) (fuel : Nat) : List (Act V) :=
  actsOf (aStep g c) aWho (fun r => r.vertex) fuel (prepareLimit limit) (aInit g c known knownGuesses starts)

end

end NoGraphs
