import Verif.Props.Reparam
import Verif.Props.ReparamSurface
import Verif.Model.TurnedBasis
import Verif.Props.TurnedBasis
import Verif.Props.Index
import Verif.Props.Container
import Verif.Props.MPBES
import Verif.Props.Smooth
import Verif.Props.Pi
import Verif.Props.DPatchMap
import Verif.Props.EV
import Verif.Props.Geom
import Verif.Props.C1Rows
import Verif.Props.RefBox
import Verif.Props.Parallel
import Verif.Props.Gluing
import Verif.Props.EdgeFun
import Verif.Props.VertexFun
import Verif.Props.DofMap
import Verif.Props.Walk
import Verif.Props.Regions
import Verif.Props.Repair
import Verif.Props.Compute
import Verif.Props.AlmostC1
import Verif.Props.DPatchIndep
import Verif.Props.PreCoefs
import Verif.Props.Sharp
import Verif.Props.Kernel
import Verif.Props.VertexKind
import Verif.Props.Pieces
import Verif.Props.MPBESState
import Verif.Model.HRepair
import Verif.Props.HRepair
import Verif.Model.Spaces
import Verif.Model.SplineSpace
import Verif.Props.Spaces
import Verif.Props.SplineSpace
import Verif.Props.BilinearEdge
import Verif.Props.VertexSpline
import Verif.Model.VertexScale
import Verif.Model.HIndex
import Verif.Model.Boehm
import Verif.Props.VertexScale
import Verif.Props.HIndex
import Verif.Proofs.Boehm
import Verif.Props.Boehm
import Verif.Model.HMap
import Verif.Props.HMap
import Verif.Model.Distances
import Verif.Props.Distances
import Verif.Props.Zones
import Verif.Props.Carry
import Verif.Props.SurfaceOp
import Verif.Props.TestData
import Verif.Props.Biharmonic
import Verif.Props.HCarry
import Verif.Props.Boxes
import Verif.Props.Coarse
import Verif.Props.C1Corner
import Verif.Model.VertexTurn
import Verif.Props.VertexTurn
import Verif.Model.FullMap
import Verif.Props.FullMap
import Verif.Model.FullWeights
import Verif.Proofs.FullRegions
import Verif.Proofs.FullBlocks
import Verif.Props.FullWeights
import Verif.Props.FullIndep
import Verif.Props.FullSmooth
import Verif.Props.FullBasis
import Verif.Props.Select
