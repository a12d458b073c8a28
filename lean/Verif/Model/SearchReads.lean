import Verif.Model.BiBfs
import Verif.Model.BiDijkstra
import Verif.Model.SearchAware

/-!
# The reads of edges of the bidirectional searches

The searches call one of the two edges functions once for each expansion, directly after the check of the calculation limit
(`bidirectional_search/breadth_first.py` 257-338 via `traversals/without_weights/breadth_first.py` 302-307;
`bidirectional_search/shortest_path.py` 435-445).
-/

namespace NoGraphs

variable {σ V K L S M ML : Type}

/-- The reads of a run (compare `runMachine`, here without limit of the machine) in their order: `who s` says for which
direction (`true`: backwards) and vertex edges are read in state `s`. -/
def readsOf (m : σ → Step σ Unit) (who : σ → Option (Bool × V)) : Nat → σ → List (Bool × V)
  | 0, _ => []
  | fuel + 1, s =>
    match m s with
    | .stop _ => []
    | .fail _ => []
    | .tau s' => readsOf m who fuel s'
    | .emit _ s' => readsOf m who fuel s'
    | .expand s' => (who s).toList ++ readsOf m who fuel s'

/-- The direction and the vertex whose edges are read next. -/
def biWho (s : BiState V L S M ML) : Option (Bool × V) := (bfsWho s.cur.st).map (fun v => (s.back, v))

/-- The reads of a bidirectional breadth-first search (compare `biSearch`): the direction (`true`: backwards) and the
vertex. -/
def biReads [DecidableEq V] [DecidableEq K] (g : TravGear V K L S M ML) (c : BiCfg V K L) (starts goals : List V)
    (limit : Option Int) (fuel : Nat) : List (Bool × V) :=
  match biCommon c.vid starts goals true true with
  | some _ => []
  | none => readsOf (biStep g c) biWho fuel (biInit g c starts goals limit)

section bd

variable {W D : Type} [AddCommMonoid W] [LinearOrder W]

/-- The direction and the vertex whose edges are read next (`shortest_path.py` 411-445). -/
def bdWho (s : BdState V L W M ML D) : Option (Bool × V) :=
  match s.pc, (s.get s.back).heap with
  | .loop, e :: _ => some (s.back, e.item)
  | _, _ => none

/-- The reads of a bidirectional shortest paths search (compare `bdSearch`). -/
def bdReads [DecidableEq V] [DecidableEq K] (g : WGear V K L W M ML D) (c : BdCfg V K L W) (starts goals : List V)
    (limit : Option Int) (fuel : Nat) : List (Bool × V) :=
  match starts, goals with
  | [], _ => []
  | _, [] => []
  | start :: _, _ :: _ =>
    match biCommon c.vid starts goals true true with
    | some _ => []
    | none => readsOf (bdStep g c) bdWho fuel (bdInit g c start starts goals limit)

end bd

end NoGraphs
