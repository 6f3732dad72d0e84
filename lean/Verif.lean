import Verif.Mem.Heap
import Verif.Mem.Spec
import Verif.Mem.Inv
import Verif.Mem.Sim
import Verif.Mem.Reach
import Verif.Props.Storage
import Verif.Solver.LineSearch
import Verif.Solver.ArmijoLemmas
import Verif.Solver.WolfeLemmas
import Verif.Solver.Run
import Verif.Solver.RunLemmas
import Verif.Solver.Control
import Verif.Props.LineSearch
import Verif.Props.Run
import Verif.Props.Control
import Verif.Solver.QuasiNewton
import Verif.Solver.LBFGS
import Verif.Solver.Direction
import Verif.Props.QuasiNewton
import Verif.Props.LBFGS
import Verif.Props.Direction
import Verif.Solver.TRRun
import Verif.Solver.TrustRegion
import Verif.Solver.TrustRegionLemmas
import Verif.Props.TRRun
import Verif.Props.TrustRegion
import Verif.Solver.ProxGrad
import Verif.Solver.Subgrad
import Verif.Props.ProxGrad
import Verif.Props.Subgrad
import Verif.Elem.Array
import Verif.Elem.Layout
import Verif.Elem.Haar
import Verif.Elem.HaarLemmas
import Verif.Elem.Fields
import Verif.Elem.Product
import Verif.Props.Layout
import Verif.Props.Haar
import Verif.Props.Fields
import Verif.Props.Product
import Verif.Manifold.Sphere
import Verif.Manifold.SphereBlock
import Verif.Props.Sphere
import Verif.Props.SphereBlock
import Verif.Manifold.Mat
import Verif.Manifold.Stiefel
import Verif.Props.Stiefel
import Verif.Props.StiefelDiff
import Verif.Manifold.Intrinsic
import Verif.Manifold.IntrinsicLemmas
import Verif.Props.Intrinsic
import Verif.Manifold.SPD
import Verif.Props.SPD
import Verif.Others.Spline
import Verif.Others.SplineLemmas
import Verif.Others.PeriodicLemmas
import Verif.Others.SplineSystem
import Verif.Props.Spline
import Verif.Solver.TangentProx
import Verif.Props.TangentProx
import Verif.Others.Sparse
import Verif.Props.Sparse
import Verif.Problem.Curve
import Verif.Problem.Problems
import Verif.Props.Problems
import Verif.Props.Feasible
import Verif.Problem.CurveInv
import Verif.Manifold.CMat
import Verif.Manifold.FixedRank
import Verif.Props.FixedRank
import Verif.Manifold.Q2F
import Verif.Props.Q2F
import Verif.Manifold.Q2FIntr
import Verif.Props.Q2FIntr
import Verif.Manifold.Multi
import Verif.Props.Multi
import Verif.Manifold.SymFR
import Verif.Props.SymFR
import Verif.Props.SymFRRetr
import Verif.Manifold.SymFRIntr
import Verif.Manifold.SymFRIntrQ
import Verif.Props.SymFRIntr
import Verif.Props.SymFRIntrQ
import Verif.Props.FirstOrder
import Verif.Props.SymFRFirst
import Verif.Manifold.Dims
import Verif.Props.Dims
import Verif.Others.Wavelet
import Verif.Props.Wavelet
import Verif.Solver.LRTRSR1
import Verif.Props.LRTRSR1
import Verif.Solver.LRTRSR1Sub
import Verif.Props.LRTRSR1Sub
import Verif.Elem.Dense
import Verif.Elem.DenseLemmas
import Verif.Props.Dense
import Verif.Manifold.CStiefel
import Verif.Manifold.CIntrLemmas
import Verif.Props.CStiefel
import Verif.Props.CStiefelIntr
import Verif.Manifold.CFixedRankIntr
import Verif.Props.CFixedRankIntr
import Verif.Props.CQ2FIntr
import Verif.Solver.SubDir
import Verif.Props.SubDir
import Verif.Props.Hull
import Verif.Elem.MatFun
import Verif.Props.MatFun
import Verif.Problem.Spectral
import Verif.Problem.Karcher
import Verif.Props.Karcher
import Verif.Solver.LSRun
import Verif.Props.Converge
import Verif.Props.Zoutendijk
import Verif.Props.TRConverge
import Verif.Solver.ExactLS
import Verif.Props.ExactLS
import Verif.Manifold.Dispatch
import Verif.Props.Dispatch
import Verif.Elem.Decomp
import Verif.Props.Decomp
import Verif.Others.Random
import Verif.Props.Random
import Verif.Manifold.RandomPoint
import Verif.Props.RandomPoint
import Verif.Problem.BlindDecon
import Verif.Props.BlindDecon
import Verif.Manifold.FixedRankNor
import Verif.Props.FixedRankNor
import Verif.Problem.EigHess
import Verif.Props.EigHess
import Verif.Solver.LRRun
import Verif.Props.LRConverge
import Verif.Solver.InitRule
import Verif.Props.InitStep
import Verif.Solver.QNRun
import Verif.Props.TraceDet
import Verif.Props.QNConverge
import Verif.Others.FFT
import Verif.Props.FFT
import Verif.Solver.CGRun
import Verif.Props.CGConverge
import Verif.Props.BBConverge
import Verif.Solver.Object
import Verif.Props.Object
import Verif.Solver.ObjectTR
import Verif.Props.ObjectTR
import Verif.Props.TRLocal
import Verif.Solver.NewtonRun
import Verif.Props.FirstTrial
import Verif.Props.NewtonConverge
import Verif.Iface.Mex
import Verif.Props.Mex
import Verif.Iface.Driver
import Verif.Props.Driver
import Verif.Props.TRGlobalLocal
import Verif.Props.LinearRate
import Verif.Props.ProxConverge
import Verif.Props.ObjectPG
import Verif.Props.Natural
import Verif.Props.NaturalMat
import Verif.Props.StiefelSmooth
import Verif.Solver.StiefelRun
import Verif.Props.StiefelConverge
import Verif.Problem.EigRun
import Verif.Props.EigRun
import Verif.Manifold.Check
import Verif.Props.Check
import Verif.Solver.ObjectTRMat
import Verif.Props.NaturalTR
import Verif.Props.NaturalTRMat
import Verif.Solver.ObjectRay
import Verif.Props.NaturalRay
import Verif.Solver.ObjectSPD
import Verif.Props.NaturalSPD
import Verif.Props.NaturalRot
import Verif.Solver.ObjectProd
import Verif.Props.NaturalProd
import Verif.Solver.ObjectSearch
import Verif.Solver.ObjectSearchLemmas
import Verif.Props.Report
import Verif.Props.Zoom
import Verif.Props.Counts
import Verif.Elem.Alias
import Verif.Props.Alias
import Verif.Solver.ObjectAPG
import Verif.Props.ObjectAPG
import Verif.Props.Offset
import Verif.Solver.ObjectRefine
import Verif.Props.Refine
import Verif.Solver.ObjectTRRefine
import Verif.Props.TRRefine
import Verif.Props.BB
import Verif.Props.PGRun
import Verif.Props.ObjectSub
import Verif.Props.Julia
import Verif.Props.Q2FProj
import Verif.Solver.CheckParams
import Verif.Props.CheckParams
import Verif.Props.Interpolate
import Verif.Problem.SparsePCA
import Verif.Props.SparsePCA
import Verif.Props.PGAdaptive
import Verif.Iface.Precon
import Verif.Props.Precon
import Verif.Solver.History
import Verif.Props.History
import Verif.Props.PGByName
import Verif.Solver.Clock
import Verif.Props.Clock
import Verif.Problem.HessFlag
import Verif.Props.HessFlag
import Verif.Props.Quiet
import Verif.Solver.QuadCG
import Verif.Props.QuadCG
import Verif.Props.TRQuad
import Verif.Solver.QuadQN
import Verif.Props.QuadQN
import Verif.Props.SR1Quad
import Verif.Solver.QuadLQN
import Verif.Props.QuadLQN
import Verif.Props.UseRand
import Verif.Props.RTRSD
import Verif.Solver.LRTRSR1Store
import Verif.Props.LRTRSR1Store
import Verif.Props.QuadRate
import Verif.Props.InnerRate
import Verif.Props.TRQuadRate
import Verif.Elem.Slices
import Verif.Props.Slices
import Verif.Elem.Pivots
import Verif.Props.Pivots
import Verif.Manifold.CayleyCache
import Verif.Props.CayleyCache
import Verif.Others.HullShape
import Verif.Props.HullShape
import Verif.Solver.CayleySearch
import Verif.Props.CayleySearch
import Verif.Props.FinalLine
import Verif.Solver.CayleyTR
import Verif.Props.CayleyTR
import Verif.Props.CayleyIntr
