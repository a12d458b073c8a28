import Verif.Props.GearCollections
import Verif.Props.Paths
import Verif.Props.Limit
import Verif.Props.Bfs
import Verif.Props.BfsModes
import Verif.Props.Go
import Verif.Props.GoBfs
import Verif.Props.ShortestPaths
import Verif.Props.BiBfs
import Verif.Props.BiDijkstra
import Verif.Props.Topological
import Verif.Props.DepthFirst
import Verif.Props.DepthFirstTrace
import Verif.Props.MinimumSpanningTree
import Verif.Props.AStar
import Verif.Props.DistanceMapping
import Verif.Props.NeighborsThenDepth
import Verif.Props.EdgeGadgets
import Verif.Props.MatrixGadgets
import Verif.Props.InfBranching
import Verif.Spec.Tsp
import Verif.Model.Tsp
import Verif.Proofs.BiDijkstraSub
import Verif.Proofs.TspStates
import Verif.Proofs.TspTours
import Verif.Proofs.TspSearch
import Verif.Props.Tsp
import Verif.Model.Start
import Verif.Props.Start
import Verif.Spec.SearchAware
import Verif.Model.SearchAware
import Verif.Proofs.SearchAware
import Verif.Props.SearchAware
import Verif.Props.SearchAwareSp
import Verif.Props.SearchAwareDepth
import Verif.Props.SearchAwareMst
import Verif.Proofs.Progress
import Verif.Props.Progress
import Verif.Props.ProgressSp
import Verif.Props.ProgressIb
import Verif.Props.ProgressAStar
import Verif.Model.Shared
import Verif.Spec.Shared
import Verif.Proofs.Shared
import Verif.Proofs.SharedSys
import Verif.Props.Shared
import Verif.Model.GearTypes
import Verif.Spec.CTypes
import Verif.Proofs.Infinity
import Verif.Proofs.InRange
import Verif.Props.Infinity
import Verif.Proofs.TopoGear
import Verif.Proofs.TraceGear
import Verif.Proofs.BiGear
import Verif.Props.GearIndependence
import Verif.Props.Rounding
import Verif.Model.Object
import Verif.Model.ObjectStrategies
import Verif.Spec.Object
import Verif.Proofs.Object
import Verif.Props.Object
import Verif.Model.Mixins
import Verif.Spec.Mixins
import Verif.Proofs.Mixins
import Verif.Props.Mixins
import Verif.Spec.Reads
import Verif.Model.Reads
import Verif.Proofs.Reads
import Verif.Props.Reads
import Verif.Props.ReadsDepth
import Verif.Props.ReadsWeighted
import Verif.Spec.PriorityQueue
import Verif.Model.HeapArray
import Verif.Proofs.HeapArray
import Verif.Props.HeapArray
import Verif.Model.SearchAwareTrace
import Verif.Props.SearchAwareTrace
import Verif.Model.SearchAwareTopo
import Verif.Model.SearchAwareAStar
import Verif.Props.SearchAwareTopo
import Verif.Props.SearchAwareAStar
import Verif.Model.StartSource
import Verif.Proofs.StartSource
import Verif.Props.StartSource
import Verif.Model.ArrayStore
import Verif.Spec.ArrayStore
import Verif.Proofs.ArrayStore
import Verif.Props.ArrayStore
import Verif.Model.FloatGear
import Verif.Spec.CFloats
import Verif.Proofs.FloatGear
import Verif.Props.FloatGear
import Verif.Model.GearFactories
import Verif.Props.GearFactories
import Verif.Model.NoneLabels
import Verif.Props.NoneLabels
import Verif.Proofs.AStarKnown
import Verif.Props.AStarKnown
import Verif.Proofs.AStarTree
import Verif.Proofs.TraceTree
import Verif.Props.TreeMode
import Verif.Props.ProgressBd
import Verif.Props.VisitedSet
import Verif.Props.SearchAwareSeen
import Verif.Props.DepthFirstBoth
import Verif.Props.PathsKinds
import Verif.Props.GivenSets
import Verif.Props.Raising
import Verif.Props.SameIdentity
import Verif.Props.SearchReads
import Verif.Props.Ragged
import Verif.Props.Agreement
import Verif.Props.PathsOption
import Verif.Props.EdgeOrder
import Verif.Spec.ReadOnce
import Verif.Props.ReadOnce
import Verif.Props.ReadOnceSearch
import Verif.Props.DepthAtEnd
import Verif.Spec.Skip
import Verif.Model.Skip
import Verif.Props.Skip
import Verif.Spec.Units
import Verif.Props.Units
import Verif.Model.SearchRaising
import Verif.Proofs.SearchRaising
import Verif.Props.SearchRaising
import Verif.Model.DirectReads
import Verif.Proofs.DirectReads
import Verif.Props.DirectReads
import Verif.Props.Distances
import Verif.Model.HeuristicCalls
import Verif.Props.HeuristicCalls
import Verif.Spec.InfBranchingReads
import Verif.Model.InfBranchingReads
import Verif.Proofs.SpTimed
import Verif.Props.InfBranchingReads
import Verif.Model.InfBranchingRaising
import Verif.Props.InfBranchingRaising
import Verif.Props.AStarFocus
import Verif.Props.AStarInfinite
import Verif.Props.AStarLast
import Verif.Spec.AStarBounded
import Verif.Props.AStarBounded
