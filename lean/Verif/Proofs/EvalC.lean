import Verif.Model.Tensor

/-!
# Computable evaluation of Chebyshev series (for concrete witnesses only)
-/

namespace YRoots

variable {n : ℕ} {K : Type*} [CommRing K]

/-- `(T_k x, T_{k+1} x)` by the recurrence. -/
def chebPair (x : K) : ℕ → K × K
  | 0 => (1, x)
  | k + 1 => ((chebPair x k).2, 2 * x * (chebPair x k).2 - (chebPair x k).1)

theorem chebPair_eq (x : K) (k : ℕ) : chebPair x k = (chebT k x, chebT (k + 1) x) := by
  induction k with
  | zero => simp [chebPair]
  | succ k ih => simp only [chebPair, ih]; rw [← chebT_add_two]

/-- Computable evaluation. -/
def Tensor.evalC (M : Tensor n K) (x : Fin n → K) : K :=
  ∑ k ∈ M.idx, M.coef k * ∏ i, (chebPair (x i) (k i)).1

theorem Tensor.eval_eq_evalC (M : Tensor n K) (x : Fin n → K) : M.eval x = M.evalC x := by
  simp only [Tensor.eval, Tensor.evalC, chebPair_eq]

end YRoots
