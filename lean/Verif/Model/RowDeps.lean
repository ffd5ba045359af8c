import Mathlib.Data.Matrix.Mul
import Mathlib.Algebra.Order.Field.Basic
import Mathlib.Data.List.FinRange

/-!
# Dependent rows of a matrix (`utils.py`, `row_linear_dependencies`)

`scipy.linalg.qr(A, pivoting=True)` is an oracle.
-/

namespace YRoots.Legacy

variable {K : Type*} [Field K] [LinearOrder K]

/-- `Q, R, P = scipy.linalg.qr(A, pivoting=True)` for matrices of all sizes. -/
structure PivotQR (K : Type*) where
  Q : ∀ {h w : ℕ}, Matrix (Fin h) (Fin w) K → Matrix (Fin h) (Fin h) K
  R : ∀ {h w : ℕ}, Matrix (Fin h) (Fin w) K → Matrix (Fin h) (Fin w) K
  P : ∀ {h w : ℕ}, Matrix (Fin h) (Fin w) K → Equiv.Perm (Fin w)

/-- `np.diagonal(R)`. -/
def diagonals {h w : ℕ} (R : Matrix (Fin h) (Fin w) K) : List K :=
  (List.finRange (min h w)).map fun k : Fin (min h w) => R ⟨k, lt_of_lt_of_le k.2 (min_le_left _ _)⟩ ⟨k, lt_of_lt_of_le k.2 (min_le_right _ _)⟩

/-- `np.sum(np.abs(diagonals) > accuracy)`, `utils.py` lines 323-324. -/
def diagRank {h w : ℕ} (R : Matrix (Fin h) (Fin w) K) (accuracy : K) : ℕ := (diagonals R).countP fun d => |d| > accuracy

/-- `Q.T[-numMissing:]`, `utils.py` line 332, with `rank` rows left out. -/
def lastRows {h : ℕ} (Q : Matrix (Fin h) (Fin h) K) (rank : ℕ) : Matrix (Fin (h - rank)) (Fin h) K :=
  Matrix.of fun i j => Q j ⟨rank + i, by omega⟩

/-- `row_linear_dependencies(matrix, accuracy)`, `utils.py` lines 301-336: rows kept, rows that can be left out, and `Q` (`none` for `None`). -/
def rowLinearDependencies (L : PivotQR K) {h w : ℕ} (matrix : Matrix (Fin h) (Fin w) K) (accuracy : K) :
    List (Fin h) × List (Fin h) × Option (Matrix (Fin h) (Fin h) K) :=
  let rank := diagRank (L.R matrix) accuracy
  let numMissing := h - rank
  if numMissing = 0 then (List.finRange h, [], none)
  else
    let P1 := L.P (lastRows (L.Q matrix) rank)
    (((List.finRange h).drop numMissing).map P1, ((List.finRange h).take numMissing).map P1, some (L.Q matrix))

end YRoots.Legacy
