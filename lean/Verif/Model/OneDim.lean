import Mathlib.Data.Complex.Basic
import Mathlib.LinearAlgebra.Matrix.Notation

/-!
# Model of `yroots/OneDimension.py`

The one-dimensional solver by companion, colleague and division matrices, lines 6-236.  Coefficients are real (float
arrays; integer arrays fail in the in-place divisions as in C41).  `la.eigvals` and `scipy.linalg.eig` are parameters.
numpy's in-place writes through `matrix.reshape(-1)[start:stop:step]` are kept as writes to flat positions.  A division
by zero gives a non-finite entry, here `none`; a matrix with a non-finite entry makes the eigenvalue routine raise.
Printing is left out.
-/

namespace YRoots.OneD

/-- What the functions raise. -/
inductive Failure where
  | indexError
  | valueError
  | nonFinite
  deriving DecidableEq

/-- A one-dimensional polynomial object: `MultiPower` or `MultiCheb` with its `coeff` array. -/
inductive Poly where
  | power (coeff : List ℝ)
  | cheb (coeff : List ℝ)

/-- `la.eigvals(matrix)` and `eig(matrix, left=True, right=False)` (eigenvalues with left eigenvectors). -/
structure Eigen where
  eigvals : (n : ℕ) → Matrix (Fin n) (Fin n) ℝ → List ℂ
  eigLeft : (n : ℕ) → Matrix (Fin n) (Fin n) ℝ → List (ℂ × (Fin n → ℂ))

/-- `matrix.reshape(-1)[start:stop:step][...] = v`. -/
def writeFlat {n : ℕ} (A : Matrix (Fin n) (Fin n) ℝ) (start stop step : ℕ) (v : ℝ) : Matrix (Fin n) (Fin n) ℝ :=
  Matrix.of fun i j =>
    if start ≤ i.val * n + j.val ∧ i.val * n + j.val < stop ∧ (i.val * n + j.val - start) % step = 0 then v else A i j

/-- `np.rot90(matrix, 2)`. -/
def rot180 {n : ℕ} (A : Matrix (Fin n) (Fin n) ℝ) : Matrix (Fin n) (Fin n) ℝ := Matrix.of fun i j => A i.rev j.rev

/-- A quotient of numpy floats; `none` is an infinity or a NaN. -/
noncomputable def npDiv (x y : ℂ) : Option ℂ := if y = 0 then none else some (x / y)

/-- Component `i` of a column of `vecs`. -/
def comp {n : ℕ} (v : Fin n → ℂ) (i : ℕ) : ℂ := if h : i < n then v ⟨i, h⟩ else 0

/-- The matrix of `multPower`, lines 64-69. -/
noncomputable def companion (coeff : List ℝ) : Matrix (Fin (coeff.length - 1)) (Fin (coeff.length - 1)) ℝ :=
  let n := coeff.length - 1
  let A := writeFlat (0 : Matrix (Fin n) (Fin n) ℝ) n (n * n) (n + 1) 1
  rot180 (Matrix.of fun i j =>
    if j.val = n - 1 then A i j - coeff.getD i.val 0 / coeff.getD n 0 else A i j)

/-- `multPower`, lines 43-82. -/
noncomputable def multPower (E : Eigen) (coeff : List ℝ) (eigvals : Bool) : Except Failure (List (Option ℂ)) :=
  let n := coeff.length - 1
  if coeff.length ≤ 1 then .ok []
  else if n = 1 then .ok [npDiv (-(coeff.getD 0 0 : ℝ)) (coeff.getD 1 0 : ℝ)]
  else if coeff.getD n 0 = 0 then .error .nonFinite
  else if eigvals then .ok ((E.eigvals n (companion coeff)).map some)
  else .ok ((E.eigLeft n (companion coeff)).map fun p =>
    (npDiv (comp p.2 (n - 2)) (comp p.2 (n - 1))).map (starRingEnd ℂ))

/-- The matrix of `divPower`, lines 106-109. -/
noncomputable def divisionPower (coeff : List ℝ) : Matrix (Fin (coeff.length - 1)) (Fin (coeff.length - 1)) ℝ :=
  let n := coeff.length - 1
  let A := writeFlat (0 : Matrix (Fin n) (Fin n) ℝ) 1 (n * n) (n + 1) 1
  Matrix.of fun i j => if j.val = 0 then A i j - coeff.getD (i.val + 1) 0 / coeff.getD 0 0 else A i j

/-- `divPower`, lines 84-122. -/
noncomputable def divPower (E : Eigen) (coeff : List ℝ) (eigvals : Bool) : Except Failure (List (Option ℂ)) :=
  let n := coeff.length - 1
  if coeff.length ≤ 1 then .ok []
  else if n = 1 then .ok [npDiv (-(coeff.getD 0 0 : ℝ)) (coeff.getD 1 0 : ℝ)]
  else if coeff.getD 0 0 = 0 then .error .nonFinite
  else if eigvals then .ok ((E.eigvals n (divisionPower coeff)).map fun z => npDiv 1 z)
  else .ok ((E.eigLeft n (divisionPower coeff)).map fun p =>
    (npDiv (comp p.2 1) (comp p.2 0)).map (starRingEnd ℂ))

/-- The matrix of `multCheb`, lines 145-151. -/
noncomputable def colleague (coeff : List ℝ) : Matrix (Fin (coeff.length - 1)) (Fin (coeff.length - 1)) ℝ :=
  let n := coeff.length - 1
  let A : Matrix (Fin n) (Fin n) ℝ := Matrix.of fun i j => if i.val = 1 ∧ j.val = 0 then 1 else 0
  let A := writeFlat A 1 (n * n) (n + 1) (1 / 2)
  let A := writeFlat A (2 * n + 1) (n * n) (n + 1) (1 / 2)
  Matrix.of fun i j =>
    if j.val = n - 1 then A i j - (1 / 2) * coeff.getD i.val 0 / coeff.getD n 0 else A i j

/-- `multCheb`, lines 124-164.  (Unlike the other three functions it does not conjugate.) -/
noncomputable def multCheb (E : Eigen) (coeff : List ℝ) (eigvals : Bool) : Except Failure (List (Option ℂ)) :=
  let n := coeff.length - 1
  if coeff.length ≤ 1 then .ok []
  else if n = 1 then .ok [npDiv (-(coeff.getD 0 0 : ℝ)) (coeff.getD 1 0 : ℝ)]
  else if coeff.getD n 0 = 0 then .error .nonFinite
  else if eigvals then .ok ((E.eigvals n (colleague coeff)).map some)
  else .ok ((E.eigLeft n (colleague coeff)).map fun p => npDiv (comp p.2 1) (comp p.2 0))

/-- One pass of the loop of `getXinv`, lines 171-174, on `(curr, xinv)`. -/
def xinvStep (s : (ℕ → ℝ) × (ℕ → ℝ)) (i : ℕ) : (ℕ → ℝ) × (ℕ → ℝ) :=
  let val := -s.1 (i + 1)
  (Function.update s.1 (i - 1) (s.1 (i - 1) + val), Function.update s.2 i (s.2 i + 2 * val))

/-- `getXinv`, lines 166-177: `range(1,n)[::-1]`, then lines 175-177.  `curr[1]` raises `IndexError` for an array of
length 1 (or 0). -/
def getXinv (coeff : List ℝ) : Except Failure ((ℕ → ℝ) × ℝ) :=
  if coeff.length ≤ 1 then .error .indexError
  else
    let n := coeff.length - 1
    let s := ((List.range' 1 (n - 1)).reverse).foldl xinvStep (fun i => coeff.getD i 0, fun _ => 0)
    let temp := -s.1 1
    .ok (Function.update s.2 0 (s.2 0 + temp), s.1 0)

/-- The loop of lines 203-207: `range(1,n,2)`, writing `2*sign` on every second upper diagonal; then `matrix[0] /= 2`,
line 208. -/
noncomputable def chebDivBase (n : ℕ) : Matrix (Fin n) (Fin n) ℝ :=
  let A := ((List.range n).filter fun col => col % 2 = 1).foldl
    (fun (s : Matrix (Fin n) (Fin n) ℝ × ℝ) col =>
      (writeFlat s.1 col (min ((n - col) * n) (n * n)) (n + 1) (2 * s.2), -s.2))
    ((0 : Matrix (Fin n) (Fin n) ℝ), 1)
  Matrix.of fun i j => if i.val = 0 then A.1 i j / 2 else A.1 i j

/-- The loop of lines 215-218: `range(0,n,2)`, adding `xinv*sign` to every second column. -/
noncomputable def addXinv {n : ℕ} (xinv : ℕ → ℝ) (A : Matrix (Fin n) (Fin n) ℝ) : Matrix (Fin n) (Fin n) ℝ :=
  (((List.range n).filter fun col => col % 2 = 0).foldl
    (fun (s : Matrix (Fin n) (Fin n) ℝ × ℝ) col =>
      (Matrix.of fun i j => if j.val = col then s.1 i j + xinv i.val * s.2 else s.1 i j, -s.2))
    (A, 1)).1

/-- The matrix of `divCheb`, lines 201-218. -/
noncomputable def divisionCheb (n : ℕ) (xinv : ℕ → ℝ) (divisor : ℝ) : Matrix (Fin n) (Fin n) ℝ :=
  if |divisor| > 1 then addXinv (fun i => xinv i / divisor) (chebDivBase n)
  else addXinv xinv (divisor • chebDivBase n)

/-- `divCheb`, lines 179-236. -/
noncomputable def divCheb (E : Eigen) (coeff : List ℝ) (eigvals : Bool) : Except Failure (List (Option ℂ)) :=
  match getXinv coeff with
  | .error e => .error e
  | .ok (xinv, divisor) =>
    let n := coeff.length - 1
    if coeff.length ≤ 1 then .ok []
    else if n = 1 then .ok [npDiv (-(coeff.getD 0 0 : ℝ)) (coeff.getD 1 0 : ℝ)]
    else if eigvals then
      .ok ((E.eigvals n (divisionCheb n xinv divisor)).map fun z =>
        if |divisor| > 1 then npDiv 1 z else (npDiv 1 z).map fun r => r * (divisor : ℂ))
    else .ok ((E.eigLeft n (divisionCheb n xinv divisor)).map fun p =>
      (npDiv (comp p.2 1) (comp p.2 0)).map (starRingEnd ℂ))

/-- `np.trim_zeros(coeff)`: leading and trailing zeros removed. -/
noncomputable def trimZeros (coeff : List ℝ) : List ℝ :=
  ((coeff.dropWhile fun c => decide (c = 0)).reverse.dropWhile fun c => decide (c = 0)).reverse

/-- `solve`, lines 6-41. -/
noncomputable def solve (E : Eigen) (poly : Poly) (MSmatrix : ℤ) (eigvals : Bool) : Except Failure (List (Option ℂ)) :=
  if MSmatrix ≠ -1 ∧ MSmatrix ≠ 0 then .error .valueError
  else
    match poly with
    | .power full =>
      let coeff := trimZeros full
      let zeros : List (Option ℂ) := List.replicate (full.length - coeff.length) (some 0)
      match (if MSmatrix = 0 then multPower E coeff eigvals else divPower E coeff eigvals) with
      | .error e => .error e
      | .ok r => .ok (zeros ++ r)
    | .cheb coeff => if MSmatrix = 0 then multCheb E coeff eigvals else divCheb E coeff eigvals

end YRoots.OneD
