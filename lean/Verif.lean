import Verif.Props.Boolean
import Verif.Props.Graph
import Verif.Props.Region
import Verif.Props.ParallelDo
import Verif.Props.Threads
import Verif.Props.ParallelSort
import Verif.Props.AABB
import Verif.Props.SoupCache
import Verif.Props.Mesh
import Verif.Props.Flood
import Verif.Props.Classify
import Verif.Props.ClassifyMore
import Verif.Props.Radial
import Verif.Props.PointList
import Verif.Props.Coplanar
import Verif.Props.Candidates
import Verif.Props.Defects
import Verif.Props.Corefine
import Verif.Props.ThreadLocal
import Verif.Props.FaceFace
import Verif.Props.Overlaps
import Verif.Props.PointInserter
import Verif.Props.IntIO
import Verif.Props.BinaryIO
import Verif.Props.TextIO
import Verif.Props.TextVariants
import Verif.Props.Side
import Verif.Props.Solid
import Verif.Props.Cli
import Verif.Proofs.Corners
import Verif.Proofs.Laid
import Verif.Model.Corefinement
import Verif.Proofs.Operands
import Verif.Proofs.Inserted
import Verif.Proofs.Apart
import Verif.Proofs.Cdts
import Verif.Proofs.Built
import Verif.Proofs.Constructed
import Verif.Proofs.Executions
import Verif.Props.Corefinement
import Verif.Spec.Rays
import Verif.Proofs.Convex
import Verif.Proofs.Beams
import Verif.Proofs.ClosedSurface
import Verif.Props.SideReturns
import Verif.Model.SideTree
import Verif.Props.SideTree
import Verif.Proofs.Walk
import Verif.Proofs.Complete
import Verif.Proofs.Plane
import Verif.Proofs.PlaneDelaunay
import Verif.Proofs.PlaneCover
import Verif.Proofs.PlaneMesh
import Verif.Proofs.CdtExists
import Verif.Proofs.Crossing
import Verif.Proofs.Hinge
import Verif.Props.Existence
import Verif.Props.Progress
import Verif.Props.ProgressFalse
import Verif.Props.Crossing
import Verif.Props.NonManifold
import Verif.Props.Silent
import Verif.Props.Ties
import Verif.Proofs.Untied
import Verif.Props.TiesNeeded
import Verif.Proofs.Blame
import Verif.Props.Blame
import Verif.Spec.Expression
import Verif.Proofs.Expressions
import Verif.Props.Expressions
import Verif.Spec.Origin
import Verif.Props.Origin
import Verif.Model.Program
import Verif.Spec.Files
import Verif.Props.Program
import Verif.Spec.PlyFile
import Verif.Proofs.TextPlyFile
import Verif.Proofs.TextPlyRead
import Verif.Props.PlyFile
import Verif.Spec.MeshFile
import Verif.Proofs.TextMeshFile
import Verif.Props.MeshFile
import Verif.Model.FindDefects
import Verif.Spec.Faults
import Verif.Proofs.Faults
import Verif.Props.FindDefects
import Verif.Proofs.Balance
import Verif.Proofs.Clean
import Verif.Props.Clean
import Verif.Spec.Zone
import Verif.Proofs.Sheets
import Verif.Props.Open
import Verif.Proofs.LoneEdge
import Verif.Props.OpenFalse
import Verif.Props.Written
import Verif.Model.ProgramText
import Verif.Spec.TextFiles
import Verif.Props.ProgramText
import Verif.Props.Cut
import Verif.Spec.Regular
import Verif.Proofs.Regular
import Verif.Props.Regular
import Verif.Spec.ObjRead
import Verif.Proofs.TextObjRead
import Verif.Props.ObjRead
import Verif.Model.MeshLife
import Verif.Spec.MeshLife
import Verif.Props.MeshLife
import Verif.Model.SharedSoup
import Verif.Proofs.SharedSoup
import Verif.Props.SharedSoup
import Verif.Spec.OffRead
import Verif.Proofs.TextOffRead
import Verif.Props.OffRead
import Verif.Spec.PlyRead
import Verif.Proofs.TextPlyExact
import Verif.Props.PlyRead
import Verif.Spec.BinaryRead
import Verif.Proofs.BinaryExact
import Verif.Props.BinaryRead
import Verif.Spec.Arguments
import Verif.Props.Arguments
import Verif.Model.RegionLife
import Verif.Spec.RegionLife
import Verif.Props.RegionLife
import Verif.Spec.Writable
import Verif.Props.Writable
import Verif.Model.Ranges
import Verif.Spec.Ranges
import Verif.Props.Ranges
import Verif.Spec.Volume
import Verif.Proofs.Area
import Verif.Proofs.Volume
import Verif.Proofs.VolumeCells
import Verif.Props.Volume
import Verif.Proofs.Valuation
import Verif.Props.Valuation
import Verif.Proofs.Positive
import Verif.Props.Positive
import Verif.Model.Messages
import Verif.Spec.Messages
import Verif.Proofs.Messages
import Verif.Props.Messages
import Verif.Proofs.CoplanarRuns
import Verif.Proofs.Malformed
import Verif.Props.Malformed
import Verif.Spec.Reproducible
import Verif.Proofs.Unique
import Verif.Props.Reproducible
import Verif.Props.ReproducibleFiles
import Verif.Props.Exchange
import Verif.Props.Conforming
import Verif.Props.Turned
