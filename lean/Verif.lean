import Verif.Audit
import Verif.BigInt.AddSub
import Verif.BigInt.Assign
import Verif.BigInt.AssignModel
import Verif.BigInt.Canon
import Verif.BigInt.Compare
import Verif.BigInt.CompareModel
import Verif.BigInt.Div
import Verif.BigInt.DivModel
import Verif.BigInt.Gcd
import Verif.BigInt.Misc
import Verif.BigInt.MiscModel
import Verif.BigInt.Model
import Verif.BigInt.Mul
import Verif.BigInt.MulModel
import Verif.BigInt.Narrow
import Verif.BigInt.RepLemmas
import Verif.BigInt.Sign
import Verif.BigInt.Spec
import Verif.BigInt.UBlk
import Verif.BigInt.UCanon
import Verif.BigInt.UDbg
import Verif.BigInt.UDiv
import Verif.BigInt.UDivMath
import Verif.BigInt.UDivisor
import Verif.BigInt.UModel
import Verif.BigInt.Value
import Verif.BigInt.Word
import Verif.BigInt.WordBits
import Verif.BigInt.WordLemmas
import Verif.BigInt.WordPortable
import Verif.Bsp.Alternate
import Verif.Bsp.AroundEdge
import Verif.Bsp.BoolLeaf
import Verif.Bsp.BoolLine
import Verif.Bsp.BoolMain
import Verif.Bsp.BoolOutput
import Verif.Bsp.BoolPoint
import Verif.Bsp.BoolRay
import Verif.Bsp.BoolSpec
import Verif.Bsp.Border
import Verif.Bsp.BorderProof
import Verif.Bsp.CellBorder
import Verif.Bsp.CellBorderProof
import Verif.Bsp.CellBorderRun
import Verif.Bsp.CellWinding
import Verif.Bsp.CollectorProof
import Verif.Bsp.CostProof
import Verif.Bsp.CostSpec
import Verif.Bsp.DiscountProof
import Verif.Bsp.EdgeProof
import Verif.Bsp.Estimator
import Verif.Bsp.Events
import Verif.Bsp.EventsFinal
import Verif.Bsp.EventsProof
import Verif.Bsp.EventsSpec
import Verif.Bsp.Filter
import Verif.Bsp.FullFacet
import Verif.Bsp.GenericLine
import Verif.Bsp.Geometry
import Verif.Bsp.HalfFacet
import Verif.Bsp.Jump
import Verif.Bsp.KdArc
import Verif.Bsp.KdFuel
import Verif.Bsp.KdLoop
import Verif.Bsp.KdOrder
import Verif.Bsp.KdReorder
import Verif.Bsp.KdRoute
import Verif.Bsp.KdSecondary
import Verif.Bsp.KdSim
import Verif.Bsp.KdSplit
import Verif.Bsp.KdStart
import Verif.Bsp.KdStrategy
import Verif.Bsp.KdTraverse
import Verif.Bsp.Laminar
import Verif.Bsp.MovedRay
import Verif.Bsp.Node
import Verif.Bsp.NodeProof
import Verif.Bsp.Partition
import Verif.Bsp.PartitionFace
import Verif.Bsp.PartitionProof
import Verif.Bsp.PartitionRun
import Verif.Bsp.PartitionSpec
import Verif.Bsp.PartitionTerm
import Verif.Bsp.Pick
import Verif.Bsp.PickProof
import Verif.Bsp.PickSpec
import Verif.Bsp.Placed
import Verif.Bsp.PwnProof
import Verif.Bsp.RayNear
import Verif.Bsp.RayStep
import Verif.Bsp.RouteProof
import Verif.Bsp.SettledProof
import Verif.Bsp.SortHeap
import Verif.Bsp.Spec
import Verif.Bsp.Traverse
import Verif.Bsp.TraverseProof
import Verif.Bsp.TraverseRun
import Verif.Bsp.TraverseSpec
import Verif.Bsp.TreeProof
import Verif.Bsp.Visitor
import Verif.Bsp.VisitorMain
import Verif.Bsp.VisitorProof
import Verif.Bsp.WindCode
import Verif.Bsp.WindCorner
import Verif.Bsp.WindEps
import Verif.Bsp.WindEval
import Verif.Bsp.WindFlow
import Verif.Bsp.WindFrame
import Verif.Bsp.WindInterval
import Verif.Bsp.WindMain
import Verif.Bsp.WindPlane
import Verif.Bsp.WindSwap
import Verif.Bsp.WindTau
import Verif.Conn.Begin
import Verif.Conn.Boundary
import Verif.Conn.CallClosed
import Verif.Conn.CallReady
import Verif.Conn.Calls
import Verif.Conn.CallsRun
import Verif.Conn.Cut
import Verif.Conn.Cycle
import Verif.Conn.CyclicAlt
import Verif.Conn.Ends
import Verif.Conn.Evolve
import Verif.Conn.Geometry
import Verif.Conn.Heap
import Verif.Conn.Init
import Verif.Conn.Inv
import Verif.Conn.KeyAngle
import Verif.Conn.MergeCalls
import Verif.Conn.MeshClosed
import Verif.Conn.MeshConnect
import Verif.Conn.MeshRep
import Verif.Conn.MeshShape
import Verif.Conn.MeshStart
import Verif.Conn.MeshVisit
import Verif.Conn.Model
import Verif.Conn.Move
import Verif.Conn.Need
import Verif.Conn.NetOf
import Verif.Conn.NoError
import Verif.Conn.OverLine
import Verif.Conn.Plane
import Verif.Conn.PlaneClosed
import Verif.Conn.PlaneLine
import Verif.Conn.PlaneOrder
import Verif.Conn.PlaneRun
import Verif.Conn.PlaneSort
import Verif.Conn.PlaneSpec
import Verif.Conn.Repartner
import Verif.Conn.Round
import Verif.Conn.Spec
import Verif.Conn.Whole
import Verif.Float.BigInt
import Verif.Float.Convert
import Verif.Float.Exact
import Verif.Float.Hash
import Verif.Float.Instance
import Verif.Float.Model
import Verif.Float.Round
import Verif.Float.Spec
import Verif.Geom.BoxMore
import Verif.Geom.Bridge
import Verif.Geom.Key
import Verif.Geom.Lemmas
import Verif.Geom.Model
import Verif.Geom.Num
import Verif.Geom.PointMore
import Verif.Geom.QLemmas
import Verif.Geom.Spec
import Verif.Mono.ConvexCell
import Verif.Mono.ConvexFactory
import Verif.Mono.ConvexPiece
import Verif.Mono.ConvexProof
import Verif.Mono.CutProof
import Verif.Mono.Decompose
import Verif.Mono.DecomposeProof
import Verif.Mono.DefinedProof
import Verif.Mono.DetectProof
import Verif.Mono.EmittedConvex
import Verif.Mono.Extrude
import Verif.Mono.ExtrudeProof
import Verif.Mono.Factory
import Verif.Mono.FactoryProof
import Verif.Mono.FactoryRun
import Verif.Mono.Orient
import Verif.Mono.OrientProof
import Verif.Mono.PeakedProof
import Verif.Mono.Planar
import Verif.Mono.PlanarProof
import Verif.Mono.Range
import Verif.Mono.RangeProof
import Verif.Mono.Spec
import Verif.Mono.StrictProof
import Verif.Mono.Sums
import Verif.Mono.Triangle
import Verif.Mono.Triangulate
import Verif.Mono.TriangulateProof
import Verif.Mono.Unimodal
import Verif.Poly.Area
import Verif.Poly.AreaProof
import Verif.Poly.BisectProof
import Verif.Poly.Box
import Verif.Poly.BoxCut
import Verif.Poly.BoxProof
import Verif.Poly.BoxWalls
import Verif.Poly.Check
import Verif.Poly.Convex
import Verif.Poly.Cut
import Verif.Poly.Equal
import Verif.Poly.EqualProof
import Verif.Poly.FindProof
import Verif.Poly.Hull
import Verif.Poly.InsertVertex
import Verif.Poly.LinearProof
import Verif.Poly.LinkAround
import Verif.Poly.LinkLists
import Verif.Poly.LinkLoop
import Verif.Poly.LinkMerge
import Verif.Poly.LinkPlan
import Verif.Poly.LinkProof
import Verif.Poly.LinkSpec
import Verif.Poly.LinkStep
import Verif.Poly.Mapper
import Verif.Poly.Merge
import Verif.Poly.MergeLinks
import Verif.Poly.MergeLists
import Verif.Poly.MergeProof
import Verif.Poly.MergeRing
import Verif.Poly.MergeRun
import Verif.Poly.MergeShape
import Verif.Poly.MeshProof
import Verif.Poly.Model
import Verif.Poly.Pattern
import Verif.Poly.Plane2
import Verif.Poly.Ranges
import Verif.Poly.Spec
import Verif.Poly.SplitProof
import Verif.Poly.SplitRegion
import Verif.Poly.SplitShape
import Verif.Poly.Track
import Verif.Poly.TrackMerge
import Verif.Poly.TrackProof
import Verif.Poly.TrackSplit
import Verif.Poly.Triangle
import Verif.Poly.VertexIter
import Verif.Props.AnyRay
import Verif.Props.Area
import Verif.Props.Around
import Verif.Props.BigIntArith
import Verif.Props.BigIntDiv
import Verif.Props.Boolean
import Verif.Props.BoxMesh
import Verif.Props.BoxPolygons
import Verif.Props.BoxSize
import Verif.Props.Boxes
import Verif.Props.CellBorder
import Verif.Props.CellBorderRun
import Verif.Props.Cells
import Verif.Props.ClosedOutput
import Verif.Props.Concat
import Verif.Props.Connect
import Verif.Props.ConnectOrder
import Verif.Props.ConnectPlane
import Verif.Props.ConnectedOutput
import Verif.Props.Deeds
import Verif.Props.Double
import Verif.Props.Equal
import Verif.Props.Estimator
import Verif.Props.Events
import Verif.Props.Export
import Verif.Props.ExportDouble
import Verif.Props.ExportRun
import Verif.Props.Extrude
import Verif.Props.Factory
import Verif.Props.FactoryConvex
import Verif.Props.Filters
import Verif.Props.Float
import Verif.Props.Hash
import Verif.Props.KdRun
import Verif.Props.KdTree
import Verif.Props.Key
import Verif.Props.Lines
import Verif.Props.Links
import Verif.Props.LowestCost
import Verif.Props.Mapper
import Verif.Props.MapperLemmas
import Verif.Props.MapperRun
import Verif.Props.Merge
import Verif.Props.MergedOutput
import Verif.Props.Mesh
import Verif.Props.Monotone
import Verif.Props.Moves
import Verif.Props.Narrow
import Verif.Props.NodeBorder
import Verif.Props.Nudge
import Verif.Props.Orienting
import Verif.Props.Partition
import Verif.Props.Pick
import Verif.Props.Planar
import Verif.Props.Planes
import Verif.Props.Ranges
import Verif.Props.Rational
import Verif.Props.Redirect
import Verif.Props.Reduce
import Verif.Props.Repair
import Verif.Props.RepairNearest
import Verif.Props.Reuse
import Verif.Props.ReuseIds
import Verif.Props.Rotation
import Verif.Props.Routing
import Verif.Props.SolidBoundary
import Verif.Props.Split
import Verif.Props.Storage
import Verif.Props.Track
import Verif.Props.TrackMore
import Verif.Props.TransformIter
import Verif.Props.Traverse
import Verif.Props.VertexIter
import Verif.Props.Visitor
import Verif.Props.Vtk
import Verif.Props.Winding
import Verif.Props.WordArith
import Verif.Repair.FacetsProof
import Verif.Repair.MapProof
import Verif.Repair.Mesh
import Verif.Repair.MeshProof
import Verif.Repair.MeshSpec
import Verif.Repair.Nudge
import Verif.Repair.NudgeProof
import Verif.Repair.RangeProof
import Verif.Repair.VertexProof
import Verif.Util.Concat
import Verif.Util.Deed
import Verif.Util.DeedInv
import Verif.Util.Double
import Verif.Util.DoubleProof
import Verif.Util.Redirect
import Verif.Util.Storage
import Verif.Util.StorageInv
import Verif.Util.TransformIter
import Verif.Vtk.AddProof
import Verif.Vtk.Export
import Verif.Vtk.ExportProof
import Verif.Vtk.ExportSpec
import Verif.Vtk.ImportProof
import Verif.Vtk.MeshProof
import Verif.Vtk.Model
import Verif.Vtk.Small
import Verif.Vtk.Spec
