import Mathlib.Algebra.MvPolynomial.PDeriv
import Mathlib.Analysis.CStarAlgebra.Matrix

/-!
# Specification: systems of polynomials and linear systems
-/

namespace YRoots.Legacy

open MvPolynomial

variable {ι : Type*}

/-- The values of polynomials. -/
noncomputable def polyValue (p : ι → MvPolynomial ι ℂ) (i : ι) (x : EuclideanSpace ℂ ι) : ℂ := eval (fun k => x k) (p i)

/-- The partial derivatives of polynomials. -/
noncomputable def polyGrad (p : ι → MvPolynomial ι ℂ) (i : ι) (x : EuclideanSpace ℂ ι) (j : ι) : ℂ :=
  eval (fun k => x k) (pderiv j (p i))

/-- A common zero at which the Jacobian determinant does not vanish. -/
def SimpleZero [Fintype ι] [DecidableEq ι] (p : ι → MvPolynomial ι ℂ) (z : EuclideanSpace ℂ ι) : Prop :=
  (∀ i, polyValue p i z = 0) ∧ (Matrix.of fun i j => polyGrad p i z j).det ≠ 0

/-- A solver for linear systems: it answers for invertible matrices, with the solution, and raises for the others. -/
def SolvesLinear [Fintype ι] [DecidableEq ι] (solve : Matrix ι ι ℂ → EuclideanSpace ℂ ι → Option (EuclideanSpace ℂ ι)) : Prop :=
  ∀ A b, (A.det ≠ 0 → ∃ x, solve A b = some x ∧ A.mulVec x.ofLp = b.ofLp) ∧ (A.det = 0 → solve A b = none)

end YRoots.Legacy
