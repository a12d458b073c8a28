import Verif.Model.BiDijkstra
import Verif.Model.BiBfs
import Verif.Model.AStar
import Verif.Model.MinimumSpanningTree
import Verif.Model.NeighborsThenDepth
import Verif.Model.DepthFirst
import Verif.Model.DepthFirstTrace
import Verif.Model.Topological

/-! # Two functions `vertex_to_id` that identify the same vertices -/

namespace NoGraphs

variable {V K K' L W : Type}

namespace Spec

/-- The two functions identify the same vertices: two vertices have the same id w.r.t. the one function if and only if they
have the same id w.r.t. the other. -/
def SameIdentity (vid : V → K) (vid' : V → K') : Prop := ∀ u v, vid u = vid v ↔ vid' u = vid' v

end Spec

/-! The same traversal object, created with another `vertex_to_id`. -/

/-- Breadth-first search, topological sorting. -/
def TravCfg.withId (c : TravCfg V K L) (vid : V → K') : TravCfg V K' L := { c with vid := vid }

/-- Neighbors-then-depth. -/
def NtdCfg.withId (c : NtdCfg V K L) (vid : V → K') : NtdCfg V K' L :=
  { c.toTravCfg.withId vid with computeDepth := c.computeDepth }

/-- Depth-first search without trace. -/
def DfsCfg.withId (c : DfsCfg V K L) (vid : V → K') : DfsCfg V K' L :=
  { c.toTravCfg.withId vid with
    computeDepth := c.computeDepth, reportStart := c.reportStart, reportSucc := c.reportSucc, skip := c.skip }

/-- Depth-first search with trace. -/
def TraceCfg.withId (c : TraceCfg V K L) (vid : V → K') : TraceCfg V K' L :=
  { c.toTravCfg.withId vid with
    computeDepth := c.computeDepth, mode := c.mode, report := c.report, computeOnTrace := c.computeOnTrace
    computeIndex := c.computeIndex, labeled := c.labeled, skip := c.skip }

/-- Minimum spanning tree. -/
def MstCfg.withId (c : MstCfg V K L W) (vid : V → K') : MstCfg V K' L W := { c with vid := vid }

/-- Shortest paths. -/
def WCfg.withId (c : WCfg V K L W) (vid : V → K') : WCfg V K' L W := { c with vid := vid }

/-- A*. -/
def AStarCfg.withId (c : AStarCfg V K L W) (vid : V → K') : AStarCfg V K' L W := { c with vid := vid }

/-- Bidirectional breadth-first search. -/
def BiCfg.withId (c : BiCfg V K L) (vid : V → K') : BiCfg V K' L := { c with vid := vid }

/-- Bidirectional shortest paths. -/
def BdCfg.withId (c : BdCfg V K L W) (vid : V → K') : BdCfg V K' L W := { c with vid := vid }

end NoGraphs
