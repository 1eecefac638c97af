import Verif.Model.Err
import Verif.Model.MultiIndex
import Verif.Model.Poly
import Verif.Props.MultiIndex
import Verif.Props.PolyCanonical
import Verif.Props.PolyValue
import Verif.Props.PolyCalc
import Verif.Props.AntiLap
import Verif.Props.Heap
import Verif.Props.Legendre
import Verif.Props.Barycentric
import Verif.Props.Vert
import Verif.Props.Piecewise
import Verif.Props.PlanarMesh
import Verif.Props.CellTopo
import Verif.Props.GlobKey
import Verif.Props.Numbering
import Verif.Props.LocalSpace
import Verif.Props.Solver
import Verif.Props.PolyBuild
import Verif.Props.Curves
import Verif.Props.Quad
import Verif.Props.EdgeGeom
import Verif.Props.Split
import Verif.Props.EdgeQuad
import Verif.Props.Boundary
import Verif.Props.Cauchy
import Verif.Props.CellBoundary
import Verif.Props.IntegratePoly
import Verif.Props.Interior
import Verif.Props.OuterBoundary
import Verif.Props.InteriorPoints
import Verif.Props.Pegboard
import Verif.Props.TraceInput
import Verif.Props.Pivot
import Verif.Props.EdgeSpace
import Verif.Props.Closest
import Verif.Props.Fft
import Verif.Props.Nystrom
import Verif.Props.NystromOps
import Verif.Props.LogTerms
import Verif.Props.Augmented
import Verif.Props.Jacobi
import Verif.Props.Indicators
import Verif.Props.HarmAntilap
import Verif.Props.Recover
import Verif.Props.AntilapCell
import Verif.Props.LocFun
import Verif.Props.LocRep
import Verif.Props.LocInit
import Verif.Props.InnerProd
import Verif.Props.HarmInit
import Verif.Props.PoissonInit
import Verif.Spec.Disc
import Verif.Lemmas.TrigSum
import Verif.Props.Disc
import Verif.Props.DiscCell
import Verif.Lemmas.HarmPoly
import Verif.Lemmas.PolyDegree
import Verif.Props.DiscPoisson
import Verif.Lemmas.DiscIntegral
import Verif.Lemmas.PolyFn
import Verif.Props.DiscInner
import Verif.Model.LocSpace
import Verif.Spec.LocSpace
import Verif.Props.LocBasis
import Verif.Props.Bubble
import Verif.Spec.DiscSpace
import Verif.Lemmas.DiscDirichlet
import Verif.Props.DiscBasis
import Verif.Model.SolverG
import Verif.Spec.SolverG
import Verif.Props.SolverG
import Verif.Lemmas.DiscGalerkin
import Verif.Spec.DiscSolve
import Verif.Props.DiscSolve
import Verif.Spec.Combo
import Verif.Props.Combo
import Verif.Props.DiscCombo
import Verif.Lemmas.EulerMaclaurin
import Verif.Lemmas.KressRule
import Verif.Spec.LineIntegral
import Verif.Lemmas.LineSum
import Verif.Props.LineIntegral
import Verif.Props.QuadOrder
import Verif.Spec.Room
import Verif.Props.Parameterize
import Verif.Props.DiscParam
import Verif.Props.Masks
import Verif.Props.PlotLocal
import Verif.Props.PlotTrace
import Verif.Props.PlotGlobal
import Verif.Props.PlotMesh
import Verif.Props.Meshlib
import Verif.Props.MeshlibCurves
import Verif.Props.FftConverge
import Verif.Props.FftContour
import Verif.Spec.Region
import Verif.Spec.Parts
import Verif.Lemmas.Green
import Verif.Lemmas.GreenRegion
import Verif.Lemmas.Shapes
import Verif.Props.AreaIntegral
import Verif.Props.AreaInner
import Verif.Props.AreaUnique
import Verif.Lemmas.Family
import Verif.Lemmas.CauchyRegion
import Verif.Props.InteriorConv
import Verif.Model.LocalFunction
import Verif.Spec.LocalFunction
import Verif.Props.LocalFunction
import Verif.Spec.Ellipse
import Verif.Lemmas.EllipseSum
import Verif.Props.Ellipse
import Verif.Props.EllipseConj
import Verif.Props.EllipsePoly
import Verif.Props.EllipseError
import Verif.Props.EllipseCell
import Verif.Spec.Bounded
import Verif.Lemmas.EllipseIntegral
import Verif.Props.FftStable
import Verif.Props.AntilapStable
import Verif.Props.EllipseFlux
import Verif.Props.EllipseConst
import Verif.Props.EllipseHarm
import Verif.Props.EllipseInner
import Verif.Props.EllipseCauchy
import Verif.Props.EllipseInterior
import Verif.Spec.EllipseInside
import Verif.Model.PolyEval
import Verif.Spec.PolyEval
import Verif.Lemmas.PolyEval
import Verif.Props.PolyEval
import Verif.Model.EdgeSet
import Verif.Props.EdgeSet
import Verif.Model.Spline
import Verif.Spec.Spline
import Verif.Props.Spline
import Verif.Model.PlotCoef
import Verif.Props.PlotCoef
import Verif.Spec.Annulus
import Verif.Lemmas.AnnulusStab
import Verif.Props.Annulus
import Verif.Props.AnnulusSystem
import Verif.Props.AnnulusRhs
import Verif.Props.AnnulusError
import Verif.Props.AnnulusConj
import Verif.Props.AnnulusSolve
import Verif.Props.CircleInterior
import Verif.Props.RingCell
import Verif.Props.PolyText
import Verif.Props.CellSettings
import Verif.Props.TraceResample
import Verif.Props.SharedEdges
import Verif.Props.SharedSolver
import Verif.Props.StaleCells
import Verif.Props.SharedExamples
import Verif.Props.StaleFunctions
import Verif.Props.TriangleMesh
import Verif.Props.StaleExamples
import Verif.Spec.Motion
import Verif.Lemmas.Motion
import Verif.Lemmas.MotionSolve
import Verif.Props.Motion
import Verif.Props.MotionEdge
import Verif.Props.MotionExamples
import Verif.Spec.EllipseSpace
import Verif.Spec.EllipseSolve
import Verif.Lemmas.EllipseDirichlet
import Verif.Lemmas.Perturb
import Verif.Props.EllipseLoad
import Verif.Props.EllipseBasis
import Verif.Props.LoopMesh
import Verif.Props.EllipseSolve
import Verif.Props.EllipseSolveExamples
import Verif.Spec.EllipseCombo
import Verif.Props.EllipseCombo
import Verif.Props.EllipseComboExamples
import Verif.Model.MeshReuse
import Verif.Props.MeshReuse
import Verif.Props.EdgeSpaceScale
import Verif.Model.TraceHeap
import Verif.Props.TraceHeap
import Verif.Props.AnnulusNeumann
import Verif.Props.RingNeumann
import Verif.Props.FftDerivStable
import Verif.Props.RingEnergy
import Verif.Props.RingEnergyExample
import Verif.Props.RingInterior
import Verif.Props.RingInteriorExample
import Verif.Props.RingPoisson
import Verif.Props.RingPoissonExample
import Verif.Props.RingSolve
import Verif.Props.RingSolveEnergy
import Verif.Lemmas.MaxPrinciple
import Verif.Spec.RingDirichlet
import Verif.Props.RingDirichlet
import Verif.Props.PoissonUnique
import Verif.Props.RingDirichletEnergy
import Verif.Props.RingNormal
import Verif.Props.RingHarm
import Verif.Props.RingNormalExample
