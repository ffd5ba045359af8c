import Mathlib.Analysis.SpecialFunctions.Complex.Arg
import Mathlib.Analysis.Real.Sqrt
import Mathlib.LinearAlgebra.Matrix.ConjTranspose
import Mathlib.Data.Matrix.Mul

/-!
# Condition numbers of eigenvalues (`utils.py`)

`scipy.linalg.qr` (mode `r`), `scipy.linalg.solve_triangular` (with `trans=2`, that is for the adjoint) and the smallest singular value
from `scipy.linalg.svd` are parameters.  Arithmetic is exact.
-/

namespace YRoots.Legacy

open Matrix

/-- `scipy.linalg.norm` of a vector. -/
noncomputable def vnorm {n : ℕ} (x : Fin n → ℂ) : ℝ := Real.sqrt (∑ i, ‖x i‖ ^ 2)

/-- The vector `u` of `householder` before it is normalised, `utils.py` lines 1494-1495. -/
noncomputable def householderVec {m : ℕ} (x : Fin (m + 1) → ℂ) : Fin (m + 1) → ℂ :=
  Function.update x 0 (x 0 + Complex.exp (Complex.I * Complex.arg (x 0)) * vnorm x)

/-- `householder`, `utils.py` lines 1490-1497. -/
noncomputable def householder {m : ℕ} (x : Fin (m + 1) → ℂ) : Matrix (Fin (m + 1)) (Fin (m + 1)) ℂ :=
  let u : Fin (m + 1) → ℂ := fun i => householderVec x i / vnorm (householderVec x)
  fun i j => (if i = j then 1 else 0) - 2 * (u i * star (u j))

/-- The routines of scipy: `qr(M, mode='r')[0]`, `solve_triangular(R, b, trans=2)` (`none` for `LinAlgError`),
`svd(R, compute_uv=False)[-1]`. -/
structure EigLib (m : ℕ) where
  qrR : Matrix (Fin m) (Fin m) ℂ → Matrix (Fin m) (Fin m) ℂ
  solveAdj : Matrix (Fin m) (Fin m) ℂ → (Fin m → ℂ) → Option (Fin m → ℂ)
  sigmaMin : Matrix (Fin m) (Fin m) ℂ → ℝ

variable {m : ℕ}

/-- The matrix `B`, `utils.py` lines 1467-1468. -/
noncomputable def condB (A : Matrix (Fin (m + 1)) (Fin (m + 1)) ℂ) (x : Fin (m + 1) → ℂ) : Matrix (Fin (m + 1)) (Fin (m + 1)) ℂ :=
  (householder x)ᴴ * A * householder x

/-- `B[1:,1:]-eig*np.eye(n-1)`, `utils.py` line 1469. -/
noncomputable def condM (A : Matrix (Fin (m + 1)) (Fin (m + 1)) ℂ) (eig : ℂ) (x : Fin (m + 1) → ℂ) : Matrix (Fin m) (Fin m) ℂ :=
  fun i j => condB A x i.succ j.succ - eig * if i = j then 1 else 0

/-- `condeig` without `condvec`, `utils.py` lines 1462-1474; `none` stands for `LinAlgError`. -/
noncomputable def condeig (L : EigLib m) (A : Matrix (Fin (m + 1)) (Fin (m + 1)) ℂ) (eig : ℂ) (x : Fin (m + 1) → ℂ) : Option ℝ :=
  (L.solveAdj (L.qrR (condM A eig x)) fun j => -star (condB A x 0 j.succ)).map fun v => Real.sqrt (1 + vnorm v ^ 2)

/-- `condeig` with `condvec=True`, `utils.py` lines 1471-1472. -/
noncomputable def condeigVec (L : EigLib m) (A : Matrix (Fin (m + 1)) (Fin (m + 1)) ℂ) (eig : ℂ) (x : Fin (m + 1) → ℂ) :
    Option (ℝ × ℝ) :=
  (condeig L A eig x).map fun c => (c, 1 / L.sigmaMin (L.qrR (condM A eig x)))

end YRoots.Legacy
