import Verif.Spec.Cheb
import Verif.Model.Tensor
import Verif.Model.Transform
import Verif.Proofs.Transform1D
import Verif.Proofs.TransformEF
import Verif.Proofs.TransformND
import Verif.Proofs.TransformExtra
import Verif.Props.Transform
import Verif.Model.Interval
import Verif.Proofs.Interval
import Verif.Props.Interval
import Verif.Model.Bounding
import Verif.Proofs.LinearTerms
import Verif.Proofs.Bounding
import Verif.Proofs.SVDExists
import Verif.Props.Bounding
import Verif.Model.Zoom
import Verif.Proofs.Zoom
import Verif.Proofs.Trim
import Verif.Props.Zoom
import Verif.Model.Subdivide
import Verif.Proofs.InverseOrder
import Verif.Proofs.Subdivide
import Verif.Proofs.EvalC
import Verif.Props.Subdivide
import Verif.Model.Combine
import Verif.Proofs.Combine
import Verif.Props.Combine
import Verif.Model.Solver
import Verif.Proofs.Solver
import Verif.Props.Solver
import Verif.Model.Quadratic
import Verif.Proofs.QuadForm
import Verif.Proofs.QuadSplit
import Verif.Proofs.Quad2D3D
import Verif.Proofs.QuadND
import Verif.Props.Quadratic
import Verif.Props.NoLostRoot
import Verif.Props.NoLostRootExample
import Verif.Model.Polynomial
import Verif.Proofs.PolyArith
import Verif.Proofs.PolyEval
import Verif.Proofs.PolyClean
import Verif.Proofs.PolyGrad
import Verif.Props.Polynomial
import Verif.Model.Dtype
import Verif.Props.Dtype
import Verif.Model.Solve
import Verif.Proofs.Solve
import Verif.Props.SolveExample
import Verif.Props.Solve
import Verif.Model.Approx
import Verif.Proofs.Approx
import Verif.Proofs.ApproxError
import Verif.Proofs.ApproxLoop
import Verif.Proofs.ApproxAlias
import Verif.Props.Approx
import Verif.Spec.Float
import Verif.Model.Float
import Verif.Proofs.Float
import Verif.Props.Float
import Verif.Model.Heap
import Verif.Proofs.Heap
import Verif.Proofs.HeapInv
import Verif.Props.Heap
import Verif.Model.HeapSolver
import Verif.Proofs.HeapLoops
import Verif.Proofs.HeapTouch
import Verif.Proofs.HeapZoom
import Verif.Proofs.HeapSplit
import Verif.Proofs.HeapCombine
import Verif.Proofs.HeapRec
import Verif.Props.HeapSolver
import Verif.Proofs.Interior
import Verif.Props.Interior
import Verif.Props.FinalRoots
import Verif.Props.Progress
import Verif.Props.Fuel
import Verif.Model.OneDim
import Verif.Spec.OneDim
import Verif.Proofs.OneDim
import Verif.Proofs.OneDimRoots
import Verif.Props.OneDim
import Verif.Model.IntervalChecks
import Verif.Proofs.IntervalBounds
import Verif.Proofs.QuadBox
import Verif.Proofs.Subintervals
import Verif.Props.IntervalChecks
import Verif.Model.MonCombos
import Verif.Model.Memo
import Verif.Model.TrimCoeffs
import Verif.Proofs.MonCombos
import Verif.Proofs.Memo
import Verif.Proofs.TrimCoeffs
import Verif.Props.MonCombos
import Verif.Model.RootTracker
import Verif.Proofs.RootTracker
import Verif.Props.RootTracker
import Verif.Model.PySet
import Verif.Props.PySet
import Verif.Props.ApproxAccept
import Verif.Props.SolvePoly
import Verif.Model.TermOrder
import Verif.Props.LegacyTerm
import Verif.Model.SolveInput
import Verif.Props.SolveInput
import Verif.Model.SolveLinear
import Verif.Props.SolveLinear
import Verif.Model.TriangularSolve
import Verif.Props.TriangularSolve
import Verif.Model.RootsAtInf
import Verif.Props.RootsAtInf
import Verif.Model.MonMult
import Verif.Props.MonMult
import Verif.Model.MMaker
import Verif.Proofs.MMaker
import Verif.Props.MMaker
import Verif.Model.PolyString
import Verif.Props.PolyString
import Verif.Model.Tolerances
import Verif.Props.Tolerances
import Verif.Model.EigCond
import Verif.Props.EigCond
import Verif.Model.Rref
import Verif.Props.Rref
import Verif.Model.Parallelepiped
import Verif.Proofs.PivotQR
import Verif.Props.Parallelepiped
import Verif.Model.BlockCopy
import Verif.Props.BlockCopy
import Verif.Model.Solve1D
import Verif.Proofs.Solve1D
import Verif.Props.Solve1D
import Verif.Model.Macaulay
import Verif.Proofs.MacTerms
import Verif.Props.MacTerms
import Verif.Proofs.MacMult
import Verif.Props.MacMatrix
import Verif.Proofs.MacReduce
import Verif.Props.MacReduce
import Verif.Props.MacEigen
import Verif.Proofs.MsRoots
import Verif.Props.MsRoots
import Verif.Proofs.Schur
import Verif.Props.MacSolve
import Verif.Model.Eigensolve
import Verif.Props.Eigensolve
import Verif.Model.SolveND
import Verif.Proofs.SolveND
import Verif.Props.SolveND
import Verif.Props.SolveNDRoots
import Verif.Props.SolveNDExample
import Verif.Model.SubdivideTop
import Verif.Props.SubdivideTop
import Verif.Props.SubdivideTopExample
import Verif.Props.SubdivideTopOnce
import Verif.Model.Permutations
import Verif.Spec.Rows
import Verif.Proofs.Permutations
import Verif.Proofs.PermutationsMul
import Verif.Proofs.PermutationsCheb
import Verif.Props.Permutations
import Verif.Model.DegDPolys
import Verif.Spec.MonRows
import Verif.Proofs.DegDPolys
import Verif.Props.DegDPolys
import Verif.Model.Newton
import Verif.Spec.Newton
import Verif.Proofs.Newton
import Verif.Props.Newton
import Verif.Model.Sorting
import Verif.Props.Sorting
import Verif.Model.Dimensions
import Verif.Props.Dimensions
import Verif.Proofs.SolveNDAffine
import Verif.Props.SolveNDAffine
import Verif.Props.AffineApprox
import Verif.Proofs.AffineTensor
import Verif.Proofs.AffineBounding
import Verif.Proofs.SolverAffine
import Verif.Props.SolverAffine
import Verif.Props.SolveAffine
import Verif.Proofs.ApproxAffine
import Verif.Props.ApproxAffine
import Verif.Model.RowDeps
import Verif.Proofs.RowDeps
import Verif.Props.RowDeps
import Verif.Model.RemoveLinear
import Verif.Proofs.RemoveLinear
import Verif.Props.RemoveLinear
import Verif.Model.EvalNoise
import Verif.Props.EvalNoise
import Verif.Model.FloatBounding
import Verif.Spec.FloatSum
import Verif.Proofs.FloatBounding
import Verif.Props.FloatBounding
import Verif.Model.FloatTransform
import Verif.Proofs.FloatTransform
import Verif.Props.FloatTransform
import Verif.Model.FloatTrim
import Verif.Proofs.FloatConstant
import Verif.Props.FloatConstant
import Verif.Model.FloatInterval
import Verif.Proofs.FloatInterval
import Verif.Props.FloatInterval
import Verif.Model.FloatQuadratic
import Verif.Proofs.FloatQuadratic
import Verif.Props.FloatQuadratic
import Verif.Proofs.FloatQuadratic3D
import Verif.Props.FloatQuadratic3D
import Verif.Proofs.QuadSlide
import Verif.Proofs.FloatSlack3D
import Verif.Spec.FloatSvd
import Verif.Proofs.FloatStart
import Verif.Props.FloatStart
import Verif.Model.FloatTransformExact
import Verif.Proofs.FloatTransformExact
import Verif.Proofs.FloatTransformSeq
import Verif.Proofs.FloatTransformRun
import Verif.Props.FloatTransformExact
import Verif.Model.FloatZoom
import Verif.Proofs.FloatZoom
import Verif.Props.FloatZoom
import Verif.Model.FloatIter
import Verif.Proofs.NormBound
import Verif.Proofs.FloatIter
import Verif.Props.FloatIter
import Verif.Model.FloatSearch
import Verif.Proofs.FloatSearch
import Verif.Props.FloatSearch
import Verif.Model.FloatCombine
import Verif.Proofs.FloatCombine
import Verif.Props.FloatCombine
import Verif.Proofs.LostRoot
import Verif.Props.LostRoot
import Verif.Proofs.SplitLoss
import Verif.Props.SplitLoss
import Verif.Model.Slices
import Verif.Props.Slices
