import Verif.Model.SearchAware
import Verif.Model.Reads

/-!
# Search-aware graphs: A*

Compare `Model/SearchAware.lean`. The strategy calls `next_edges(vertex, self)` in `a_star.py` 370.
-/

namespace NoGraphs

variable {V K L W M ML D : Type} [AddCommMonoid W] [LinearOrder W]
variable (g : WGear V K L W M ML D) (c : AStarCfg V K L W)

/-- What the edges function gets: the vertex, and the attributes of the traversal (`a_star.py` 358-359, 370). -/
def aView (s : AStarState V L W M ML D) (v : V) : AStarReport V W M ML D :=
  match s.pc with
  | .expand _ w ec => ⟨v, w, ec, s.dist, s.preds, s.labels⟩
  | _ => ⟨v, 0, 0, s.dist, s.preds, s.labels⟩

/-- An A* traversal in a search-aware graph. -/
def aAwareRun (F : Nat → AStarReport V W M ML D → List (V × W × L)) (starts : List V) (limit : Option Int) (fuel : Nat) :
    RunResult (AStarState V L W M ML D × Nat) (AStarReport V W M ML D) :=
  runMachine (awareStep (fun next => aStep g { c with next := next }) aView F) fuel (prepareLimit limit)
    (aInit g c none none starts, 0)

/-- The calls of the edges function of this traversal. -/
def aAwareCalls (F : Nat → AStarReport V W M ML D → List (V × W × L)) (starts : List V) (limit : Option Int)
    (fuel : Nat) : List (AStarReport V W M ML D × List (V × W × L)) :=
  awareCalls (fun next => aStep g { c with next := next }) aWho aView F fuel (prepareLimit limit)
    (aInit g c none none starts, 0)

end NoGraphs
