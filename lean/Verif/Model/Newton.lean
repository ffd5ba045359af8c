import Mathlib.Analysis.CStarAlgebra.Matrix
import Mathlib.LinearAlgebra.Matrix.NonsingularInverse

/-!
# Newton polishing and sampling of roots (`utils.py`)

The arithmetic is exact.  The polynomials enter through their values and gradients; `numpy.linalg.solve` is a parameter
that returns `none` where numpy raises `LinAlgError`.
-/

namespace YRoots.Legacy

variable {ι : Type*} [Fintype ι] [DecidableEq ι]

/-- The values of the polynomials, `newton_polish.f`, `utils.py` lines 1284-1288. -/
noncomputable def newtonF (value : ι → EuclideanSpace ℂ ι → ℂ) (x : EuclideanSpace ℂ ι) : EuclideanSpace ℂ ι :=
  WithLp.toLp 2 fun i => value i x

/-- The Jacobian, `newton_polish.Df`, `utils.py` lines 1290-1294. -/
def newtonDf (grad : ι → EuclideanSpace ℂ ι → ι → ℂ) (x : EuclideanSpace ℂ ι) : Matrix ι ι ℂ := Matrix.of fun i => grad i x

/-- `newton_polish(polys, root, niter, tol)`, `utils.py` lines 1260-1309, for as many polynomials as variables.  The recursion is over
the number of iterations left; a negative `niter` (no limit) is left out.  The result `none` stands for an exception of
`numpy.linalg.solve`. -/
noncomputable def newtonPolish (solve : Matrix ι ι ℂ → EuclideanSpace ℂ ι → Option (EuclideanSpace ℂ ι))
    (value : ι → EuclideanSpace ℂ ι → ℂ) (grad : ι → EuclideanSpace ℂ ι → ι → ℂ) (tol : ℝ) :
    (niter : ℕ) → (root : EuclideanSpace ℂ ι) → Option (EuclideanSpace ℂ ι)
  | 0, x0 => some x0
  | niter + 1, x0 =>
    match solve (newtonDf grad x0) (-newtonF value x0) with
    | none => none
    | some delta => if ‖delta‖ < tol then some (delta + x0) else newtonPolish solve value grad tol niter (delta + x0)

/-- The real part of a point. -/
noncomputable def rePart (x : EuclideanSpace ℂ ι) : EuclideanSpace ℝ ι := WithLp.toLp 2 fun i => (x i).re

open Classical in
/-- The body of the loop of `getRootSample`, `utils.py` lines 1328-1338, for the polished point `realRoot`. -/
noncomputable def sampleStep (realRoots : List (EuclideanSpace ℝ ι)) (realRoot : EuclideanSpace ℝ ι) : List (EuclideanSpace ℝ ι) :=
  if ∃ i, 1 < |realRoot i| then realRoots
  else if ∃ root ∈ realRoots, ‖realRoot - root‖ < 1 / 100000 then realRoots
  else realRoots ++ [realRoot]

/-- `getRootSample(polys, tests)`, `utils.py` lines 1311-1341.  The random starting points are a parameter, and so is the call of
`newton_polish`. -/
noncomputable def getRootSample (polish : EuclideanSpace ℂ ι → Option (EuclideanSpace ℂ ι)) (starts : List (EuclideanSpace ℂ ι)) :
    Option (List (EuclideanSpace ℝ ι)) :=
  starts.foldl (fun st testRoot => st.bind fun realRoots => (polish testRoot).map fun y => sampleStep realRoots (rePart y)) (some [])

end YRoots.Legacy
