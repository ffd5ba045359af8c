import Verif.Spec.Cheb
import Mathlib.Data.Fintype.Pi
import Mathlib.Algebra.BigOperators.Group.Finset.Basic
import Mathlib.Algebra.Order.BigOperators.Group.Finset
import Mathlib.Algebra.Order.AbsoluteValue.Basic

/-!
# Coefficient tensors

`Tensor n K` is a numpy array of `ndim = n`: a shape and an entry for every multi-index.
Entries at multi-indices outside the shape are never meaningful (no spec below looks at them).

`Tensor.eval` is the *specification* of the function represented by a Chebyshev tensor and
`Tensor.evalPow` that of a power-basis tensor.  They are defining sums; no code is modelled by them.
-/

namespace YRoots

/-- A numpy array with `n` axes.  -/
structure Tensor (n : ℕ) (K : Type*) where
  shape : Fin n → ℕ
  coef : (Fin n → ℕ) → K

namespace Tensor

variable {n : ℕ} {K : Type*}

/-- The valid multi-indices of an array. -/
def idx (M : Tensor n K) : Finset (Fin n → ℕ) :=
  Fintype.piFinset fun i => Finset.range (M.shape i)

/-- No axis has length zero (numpy arrays holding polynomial coefficients are never empty). -/
def Nonempty (M : Tensor n K) : Prop := ∀ i, 0 < M.shape i

section
variable [CommRing K]

/-- Specification: value at `x` of the Chebyshev series with coefficient tensor `M`. -/
noncomputable def eval (M : Tensor n K) (x : Fin n → K) : K :=
  ∑ k ∈ M.idx, M.coef k * ∏ i, chebT (k i) (x i)

/-- Specification: value at `x` of the power-basis polynomial with coefficient tensor `M`. -/
def evalPow (M : Tensor n K) (x : Fin n → K) : K :=
  ∑ k ∈ M.idx, M.coef k * ∏ i, (x i) ^ (k i)
end

/-- `np.sum(np.abs(M))`. -/
def absSum [AddCommGroup K] [LinearOrder K] (M : Tensor n K) : K :=
  ∑ k ∈ M.idx, |M.coef k|

/-- `M.ravel()[0]`, the entry at multi-index `(0,...,0)`. -/
def const (M : Tensor n K) : K := M.coef fun _ => 0

end Tensor

/-- The cube `[-1,1]^n`. -/
def InCube {n : ℕ} {K : Type*} [Ring K] [LinearOrder K] (x : Fin n → K) : Prop := ∀ i, |x i| ≤ 1

end YRoots
