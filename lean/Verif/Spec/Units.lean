import Mathlib.Order.Monotone.Defs
import Verif.Model.BiDijkstra
import Verif.Model.AStar
import Verif.Model.MinimumSpanningTree

/-! # The same graph with weights in another unit, or of another type of numbers -/

namespace NoGraphs

variable {V K L W W' : Type}

namespace Spec

/-- A conversion of numbers that respects sums and the order: another unit (for example, meters instead of kilometers), or
another type of numbers (for example, `Fraction` instead of `int`). -/
structure Converts [Add W] [Zero W] [Preorder W] [Add W'] [Zero W'] [Preorder W'] (f : W → W') : Prop where
  zero : f 0 = 0
  add : ∀ a b, f (a + b) = f a + f b
  strictMono : StrictMono f

/-- The edges with converted weights. -/
def convertEdges (f : W → W') (next : V → List (V × W × L)) (v : V) : List (V × W' × L) :=
  (next v).map (fun e => (e.1, f e.2.1, e.2.2))

/-- The result of a search with a converted length. -/
def convertResult (f : W → W') : SearchResult W V L → SearchResult W' V L
  | .found w p => .found (f w) p
  | .notFound => .notFound
  | .raised e => .raised e
  | .outOfFuel => .outOfFuel

end Spec

open Spec

/-- Shortest paths: the same graph with converted weights and infinity value. -/
def WCfg.convert (f : W → W') (c : WCfg V K L W) : WCfg V K L W' :=
  ⟨convertEdges f c.next, c.vid, c.isTree, c.buildPaths, c.keepDistances, f c.inf⟩

/-- A*: also with converted estimates. -/
def AStarCfg.convert (f : W → W') (c : AStarCfg V K L W) : AStarCfg V K L W' :=
  ⟨convertEdges f c.next, c.vid, c.isTree, c.buildPaths, f c.inf, fun v => f (c.heur v)⟩

/-- Minimum spanning tree. -/
def MstCfg.convert (f : W → W') (c : MstCfg V K L W) : MstCfg V K L W' :=
  ⟨convertEdges f c.next, c.vid, c.buildPaths⟩

/-- Bidirectional shortest path search. -/
def BdCfg.convert (f : W → W') (c : BdCfg V K L W) : BdCfg V K L W' :=
  ⟨convertEdges f c.nextF, convertEdges f c.nextB, c.vid, c.buildPath, f c.inf⟩

end NoGraphs
