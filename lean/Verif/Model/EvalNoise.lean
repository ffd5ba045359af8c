import Verif.Model.BlockCopy

/-!
# Estimate of the noise of a function (`subdivision.py`, lines 576-660)
-/

namespace YRoots.Legacy

variable {n : ℕ}

/-- `coeff[deg_slices(deg, dim)] = 0`, `subdivision.py` lines 610 and 622-641. -/
def zeroLow (deg : ℕ) (M : Tensor n ℝ) : Tensor n ℝ := ⟨M.shape, fun k => if ∀ i, k i < deg then 0 else M.coef k⟩

/-- `get_abs_approx_tol(func, deg, a, b, dim)`, `subdivision.py` lines 576-620.  `r` is `random_point(dim)` (lines 643-660, drawn once), `st` the
shared array of `chebyshev_block_copy`, `garbage` the content of a new array. -/
noncomputable def getAbsApproxTol (garbage : (Fin n → ℕ) → ℝ) (st : ValuesArr n) (r : Fin n → ℝ) (func : (Fin n → ℝ) → ℝ) (deg : ℕ)
    (a b : Fin n → ℝ) : ℝ :=
  let linearizationSize : ℝ := 1 / 10 ^ 14
  let x := transformPt r a b
  let F : MakerFn n := ⟨func, fun i => x i - linearizationSize, fun i => x i + linearizationSize, false⟩
  let coeff := zeroLow deg (sharedApprox garbage F (2 * deg) st).1.1
  let absApproxTol := ∑ k ∈ coeff.idx, |coeff.coef k|
  let numSpots : ℝ := (deg * 2 : ℝ) ^ n - (deg : ℝ) ^ n
  absApproxTol * 10 / numSpots

end YRoots.Legacy
