import Verif.Model.FloatBounding
import Mathlib.Data.Fintype.BigOperators

/-!
# What is asked of the linear algebra in floating-point arithmetic
-/

namespace YRoots

variable {n : ℕ} {K : Type*} [Field K] [LinearOrder K]

/-- For a matrix that passes the test of line 694 there is a matrix `B` (the computed `Ainv`) with `B A` equal to the identity up to `ρ` in every row;
`-Ainv@consts` and `np.sum(np.abs(Ainv*err),axis=1)` are computed from it with errors of at most `γ` relative to the sum of the absolute values.
(For condition numbers up to `10 ^ 10`, in which case the test lets the matrix pass, backward stable routines have `ρ` of the order of `10 ^ -6`,
and `γ` of the order of `n 2 ^ -53`.) -/
def SvdF.Accurate (svd : SvdF n K) (ρ γ : K) : Prop :=
  ∀ A : Matrix (Fin n) (Fin n) K, svd.wellConditioned A = true → ∃ B : Matrix (Fin n) (Fin n) K,
    (∀ j, ∑ k, |(∑ i, B j i * A i k) - if j = k then 1 else 0| ≤ ρ) ∧
    (∀ (c : Fin n → K) (j : Fin n), |svd.center A c j + ∑ i, B j i * c i| ≤ γ * ∑ i, |B j i * c i|) ∧
    ∀ (e : Fin n → K) (j : Fin n), |svd.width A e j - (∑ i, |B j i * e i|)| ≤ γ * ∑ i, |B j i * e i|

end YRoots
