import Verif.Model.IntervalChecks

/-!
# Linear systems (`utils.py`)

`np.linalg.solve` is the oracle `LinSolve` of `Model/IntervalChecks`.  `scipy.linalg.lu` is written out: it is LAPACK's
elimination with partial pivoting, which leaves a column alone when its pivot is zero.
-/

namespace YRoots.Legacy

variable {n : ℕ} {K : Type*} [Field K] [LinearOrder K]

/-- The row of the pivot of step `j`: the first entry of largest absolute value in column `j`, rows `j, …` (`idamax`). -/
def pivotRow (A : Matrix (Fin n) (Fin (n + 1)) K) (j : Fin n) : Fin n :=
  ((List.finRange n).filter fun i => j < i).foldl (fun p i => if |A i j.castSucc| > |A p j.castSucc| then i else p) j

/-- Step `j` of the elimination (LAPACK `getf2`): exchange of rows, then elimination below the diagonal. -/
def luStep (A : Matrix (Fin n) (Fin (n + 1)) K) (j : Fin n) : Matrix (Fin n) (Fin (n + 1)) K :=
  if A (pivotRow A j) j.castSucc = 0 then A
  else
    let B := A.submatrix (Equiv.swap j (pivotRow A j)) id
    Matrix.of fun i l => if j < i then B i l - B i j.castSucc / B j j.castSucc * B j l else B i l

/-- `lu(M)[2]` for a matrix with one column more than rows. -/
def luU (A : Matrix (Fin n) (Fin (n + 1)) K) : Matrix (Fin n) (Fin (n + 1)) K := (List.finRange n).foldl luStep A

/-- The column of the first entry of a row that is not zero, `np.flatnonzero(U[i, :])[0]`. -/
def pivotColumn (U : Matrix (Fin n) (Fin (n + 1)) K) (i : Fin n) : Option (Fin (n + 1)) :=
  (List.finRange (n + 1)).find? fun l => U i l ≠ 0

/-- What `solve_linear` raises. -/
inductive LinearFailure
  | indexError
  | tooManyRoots
  deriving DecidableEq

/-- The matrix `A`, `utils.py` lines 409-420. -/
def linearA (coeffs : Fin (n + 1) → Tensor (n + 1) K) : Matrix (Fin (n + 1)) (Fin (n + 1)) K :=
  Matrix.of fun row col => if (coeffs row).shape 0 = 1 then 0 else linCoef (coeffs row) col

/-- `solve_linear(coeffs)`, `utils.py` lines 395-440, for `n + 1` variables.  The answer `none` is the empty array of
roots. -/
def solveLinear (S : LinSolve (n + 1) K) (coeffs : Fin (n + 1) → Tensor (n + 1) K) :
    Except LinearFailure (Option (Fin (n + 1) → K)) :=
  if ∃ i j, (coeffs i).shape j = 0 ∨ (coeffs i).shape 0 ≠ 1 ∧ (coeffs i).shape j = 1 then .error .indexError
  else
    let A := linearA coeffs
    let B := fun row => (coeffs row).const
    match S A (-B) with
    | some x => .ok (some x)
    | none =>
      let U := luU (Matrix.of fun i l => Fin.snoc (α := fun _ => K) (A i) (-B i) l)
      if (List.finRange (n + 1)).all fun i => pivotColumn U i ≠ some (Fin.last (n + 1)) then .error .tooManyRoots
      else .ok none

end YRoots.Legacy
