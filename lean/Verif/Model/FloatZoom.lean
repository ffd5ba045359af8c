import Verif.Model.FloatTransform
import Verif.Model.FloatBounding
import Verif.Model.FloatInterval

/-!
# Re-expansion on a subinterval in floating-point arithmetic

`getTransformPoints`, `getTransformationError`, `transformCheb` and `transformChebToInterval` with `exact=False`,
`ChebyshevSubdivisionSolver.py` lines 801-886, every operation rounded.  Overflow and underflow are left out.
-/

namespace YRoots

variable {n : ℕ} {K : Type*} [Field K] [LinearOrder K]

/-- `getTransformPoints(newInterval)`, lines 801-804, rounded; the same operations give the transforms recorded by `addTransform`
(lines 438-443), which is where `transformChebToInterval` gets them from (line 950). -/
def getTransformPointsF (fl : K → K) (a b : K) : K × K := (fl (fl (b - a) / 2), fl (fl (b + a) / 2))

/-- `getTransformationError(M, dim)`, lines 806-832, rounded. -/
def getTransformationErrorF (ar : FloatArith K) (M : Tensor n K) (d : Fin n) : K :=
  ar.fl (ar.fl ((M.shape d : K) * macheps) * ar.sum M.absList)

/-- `transformCheb(M, alphas, betas, error, False)`, lines 834-859, rounded. -/
def transformChebF (ar : FloatArith K) (M : Tensor n K) (α β : Fin n → K) (error : K) : Tensor n K × K :=
  (List.finRange n).foldl
    (fun p d => (transformNDF ar.fl p.1 d (α d) (β d), ar.fl (p.2 + getTransformationErrorF ar p.1 d))) (M, error)

/-- `transformChebToInterval(Ms, *getLastTransform(), errors, False)` after `addTransform(subInterval)`, lines 861-886 and 949-950, rounded;
`a` and `b` are the bounds of the subinterval. -/
def zoomToF (ar : FloatArith K) (Ms : Fin n → Tensor n K) (errors : Fin n → K) (a b : Fin n → K) : (Fin n → Tensor n K) × (Fin n → K) :=
  let α := fun d => (getTransformPointsF ar.fl (a d) (b d)).1
  let β := fun d => (getTransformPointsF ar.fl (a d) (b d)).2
  (fun i => (transformChebF ar (Ms i) α β (errors i)).1, fun i => (transformChebF ar (Ms i) α β (errors i)).2)

end YRoots
