import Verif.Model.Basic
import Verif.Model.Float64
import Verif.Model.Coordinate
import Verif.Model.Segment
import Verif.Model.Periodicity
import Verif.Lemmas.Float64
import Verif.Lemmas.Periodicity
import Verif.Props.Periodicity
import Verif.Lemmas.Arith
import Verif.Props.Arithmetic
import Verif.Spec.Geometry
import Verif.Lemmas.Geometry
import Verif.Lemmas.Coordinate
import Verif.Props.Segment
import Verif.Props.Coordinate
import Verif.Model.Polygon
import Verif.Spec.Ring
import Verif.Lemmas.Polygon
import Verif.Lemmas.Winding
import Verif.Props.Polygon
import Verif.Spec.Cone
import Verif.Lemmas.Polyline
import Verif.Props.Polyline
import Verif.Model.AngleSorter
import Verif.Spec.Angle
import Verif.Lemmas.Angle
import Verif.Lemmas.AngleTie
import Verif.Props.Angle
import Verif.Model.Graph
import Verif.Spec.History
import Verif.Lemmas.Graph
import Verif.Props.Graph
import Verif.Model.Merge
import Verif.Lemmas.Merge
import Verif.Props.Merge
import Verif.Model.Assoc
import Verif.Model.ModifiedGraph
import Verif.Lemmas.ModifiedGraph
import Verif.Props.ModifiedGraph
import Verif.Model.Serializer
import Verif.Spec.Storage
import Verif.Lemmas.Serializer
import Verif.Lemmas.SerializerLoad
import Verif.Props.Serializer
import Verif.Lemmas.SerializerCrash
import Verif.Props.Crash
import Verif.Model.Concurrency
import Verif.Spec.Sequential
import Verif.Lemmas.Concurrency
import Verif.Props.Concurrency
import Verif.Model.OpenEdges
import Verif.Model.Vistree
import Verif.Spec.Sight
import Verif.Lemmas.Vistree
import Verif.Props.Vistree
import Verif.Spec.Sweep
import Verif.Lemmas.Sweep
import Verif.Lemmas.Determinism
import Verif.Props.Hidden
import Verif.Props.HiddenFalse
import Verif.Model.Visgraph
import Verif.Spec.Shift
import Verif.Lemmas.Visgraph
import Verif.Props.Visgraph
import Verif.Model.AStar
import Verif.Model.ShortestPath
import Verif.Model.Distance
import Verif.Model.Batch
import Verif.Spec.Walk
import Verif.Spec.Route
import Verif.Lemmas.AStar
import Verif.Lemmas.ShortestPath
import Verif.Props.ShortestPath
import Verif.Props.Query
import Verif.Model.Frontend
import Verif.Props.Frontend
import Verif.Model.Project
import Verif.Spec.Root
import Verif.Props.Project
import Verif.Model.Disk
import Verif.Props.Disk
import Verif.Props.Determinism
import Verif.Props.Chain
import Verif.Props.Endpoint
import Verif.Spec.Sphere
import Verif.Props.Sphere
import Verif.Lemmas.AStarRounded
import Verif.Props.Rounded
import Verif.Lemmas.SerializerCut
import Verif.Props.Cut
import Verif.Props.EndToEnd
import Verif.Model.Sphere
import Verif.Spec.Libm
import Verif.Spec.Loop
import Verif.Lemmas.Sphere
import Verif.Props.SpherePoint
import Verif.Model.Binary64
import Verif.Lemmas.Binary64
import Verif.Props.Binary64
import Verif.Model.Search64
import Verif.Props.Search64
import Verif.Spec.Convex
import Verif.Lemmas.Convex
import Verif.Props.Convex
import Verif.Model.Angle64
import Verif.Spec.Angle64
import Verif.Lemmas.Angle64
import Verif.Props.Angle64
import Verif.Lemmas.DoubleLike
import Verif.Model.Fused
import Verif.Lemmas.Fused
import Verif.Props.Fused
import Verif.Props.Project64
import Verif.Props.Whole
import Verif.Spec.SeaRoute
import Verif.Lemmas.SeaRoute
import Verif.Props.SeaRoute
import Verif.Props.ConvexSea
import Verif.Spec.Archipelago
import Verif.Lemmas.Archipelago
import Verif.Lemmas.Islands
import Verif.Lemmas.OrderlyCheck
import Verif.Props.Archipelago
import Verif.Props.OneIsland
import Verif.Props.WholeSea
import Verif.Spec.Rounding
import Verif.Lemmas.Rounding
import Verif.Props.Rounding
import Verif.Model.Progress
import Verif.Spec.Progress
import Verif.Lemmas.Progress
import Verif.Props.Progress
import Verif.Model.Os
import Verif.Lemmas.Os
import Verif.Props.Os
import Verif.Lemmas.Effort
import Verif.Lemmas.Comb
import Verif.Props.Effort
import Verif.Model.Text
import Verif.Lemmas.Text
import Verif.Lemmas.Loop
import Verif.Props.Text
import Verif.Props.Loop
import Verif.Props.Meridian
import Verif.Lemmas.Segments
import Verif.Props.Segments
import Verif.Lemmas.Damage
import Verif.Props.Damage
import Verif.Model.Loading
import Verif.Spec.File
import Verif.Lemmas.Loading
import Verif.Props.Loading
import Verif.Spec.Coast
import Verif.Lemmas.Jordan
import Verif.Lemmas.Inside
import Verif.Lemmas.Crossing
import Verif.Lemmas.Oriented
import Verif.Lemmas.Ring
import Verif.Lemmas.RingSum
import Verif.Lemmas.SimpleCheck
import Verif.Props.Interior
import Verif.Spec.Legible
import Verif.Spec.Charted
import Verif.Lemmas.Legible
import Verif.Lemmas.LegibleCheck
import Verif.Lemmas.Charted
import Verif.Props.Charted
import Verif.Props.WholeCharted
import Verif.Spec.Nearest
import Verif.Lemmas.Nearest
import Verif.Lemmas.NearestCheck
import Verif.Props.Nearest
import Verif.Props.Overwrite
import Verif.Props.GraphGrow
import Verif.Model.Vector
import Verif.Lemmas.Vector
import Verif.Props.Vector
import Verif.Model.Haversine
import Verif.Spec.Haversine
import Verif.Lemmas.Haversine
import Verif.Props.Haversine
import Verif.Lemmas.Globe
import Verif.Props.Globe
import Verif.Spec.Around
import Verif.Props.Around
import Verif.Props.WholeAround
import Verif.Props.Shuffle
import Verif.Props.Parallel
import Verif.Props.ParallelShapes
import Verif.Model.Session
import Verif.Props.Session
import Verif.Model.Objects
import Verif.Props.Objects
import Verif.Props.Retry
import Verif.Conformance.Types
import Verif.Conformance.Vistree
import Verif.Conformance.Graphs
import Verif.Conformance.Paths
import Verif.Conformance.Reproduce
import Verif.Spec.Relations
import Verif.Props.Relations
import Verif.Model.Overlay
import Verif.Spec.Overlay
import Verif.Lemmas.Overlay
import Verif.Props.Overlay
import Verif.Spec.Islet
import Verif.Lemmas.Islet
import Verif.Props.Islet
import Verif.Spec.Strait
import Verif.Spec.Passage
import Verif.Lemmas.Strait
import Verif.Lemmas.Passage
import Verif.Props.Strait
import Verif.Props.Passage
import Verif.Lemmas.Hash
import Verif.Lemmas.GraphNeeds
import Verif.Props.GraphNeeds
import Verif.Props.Hash
import Verif.Props.Limits
