import Mathlib.Algebra.BigOperators.Group.Finset.Basic
import Mathlib.Algebra.BigOperators.Intervals
import Mathlib.Algebra.Field.Defs

/-!
# Reduction of echelon matrices (`utils.py`)

A matrix of shape `(m, n)` is a function of two indices.
-/

namespace YRoots.Legacy

variable {K : Type*}

/-- `inverse_P(P)`, `utils.py` lines 164-184 (entries in `range(len(P))`). -/
def inverseP (P : List ℕ) : List ℕ :=
  (P.zipIdx).foldl (fun inv p => inv.set p.1 p.2) (List.replicate P.length 0)

variable [Field K] [DecidableEq K]

/-- The loop of `triangular_solve` with the statement after it, `utils.py` lines 362-374: `order_c` and `order_d`. The first
argument is `n - k`. -/
def pivotScan (m : ℕ) (A : ℕ → ℕ → K) : ℕ → ℕ → ℕ → List ℕ × List ℕ
  | 0, _, _ => ([], [])
  | r + 1, j, k =>
    if j < m then
      if A j k ≠ 0 then
        let s := pivotScan m A r (j + 1) (k + 1)
        (k :: s.1, s.2)
      else
        let s := pivotScan m A r j (k + 1)
        (s.1, k :: s.2)
    else ([], List.range' k (r + 1))

/-- Back substitution, rows `m - t, …, m - 1`: `solve_triangular(C, d)` (LAPACK `trtrs`) reads the upper triangle of `C`. -/
def backSub (m : ℕ) (C : ℕ → ℕ → K) (d : ℕ → K) : ℕ → ℕ → K
  | 0 => fun _ => 0
  | t + 1 =>
    let x := backSub m C d t
    let i := m - 1 - t
    Function.update x i ((d i - ∑ j ∈ Finset.Ico (i + 1) m, C i j * x j) / C i i)

/-- What `triangular_solve` raises: `solve_triangular` wants a square matrix, without zeros on the diagonal. -/
inductive TriFailure
  | notSquare
  | singular
  deriving DecidableEq

/-- `triangular_solve(matrix)`, `utils.py` lines 339-393. -/
def triangularSolve (m n : ℕ) (A : ℕ → ℕ → K) : Except TriFailure (ℕ → ℕ → K) :=
  if m ≠ n then
    let order := pivotScan m A n 0 0
    let C := fun i j => A i (order.1.getD j 0)
    if order.1.length ≠ m then .error .notSquare
    else if ∃ i ∈ List.range m, C i i = 0 then .error .singular
    else
      let X := fun i s => backSub m C (fun i => A i (order.2.getD s 0)) m i
      let solver := fun i t => if t < m then (if i = t then 1 else 0) else X i (t - m)
      let inv := inverseP (order.1 ++ order.2)
      .ok fun i k => solver i (inv.getD k 0)
  else .ok fun i k => if i = k then 1 else 0

end YRoots.Legacy
