import Verif.Model.OneDim
import Mathlib.Analysis.Complex.Norm

/-!
# Roots at infinity (`ProjectiveSpace.py`)

Coefficient arrays of shape `(m, n)` are functions of two indices, coefficient of `x^i y^j`.  The one-dimensional solver is
the one of `Model/OneDim`.
-/

namespace YRoots.OneD

/-- `pad_with_zeros(matrix)`, `ProjectiveSpace.py` lines 81-98, entry `(i, j)`. -/
def padded (m n : ℕ) (A : ℕ → ℕ → ℝ) (i j : ℕ) : ℝ := if i < m ∧ j < n then A i j else 0

/-- `np.diag(np.fliplr(pad_with_zeros(coeff)))`, lines 35, 37, 59. -/
def antiDiag (m n : ℕ) (A : ℕ → ℕ → ℝ) : List ℝ :=
  (List.range (max m n)).map fun i => padded m n A i (max m n - 1 - i)

/-- Cleaning of a one-dimensional array by the constructor of `MultiPower` (`polynomial.py` lines 155-174): zeros at the end
are removed as long as the array has more than one entry. -/
noncomputable def cleanLast (v : List ℝ) : List ℝ :=
  let r := v.reverse.dropWhile fun c => decide (c = 0)
  if r = [] then v.take 1 else r.reverse

/-- `np.isclose(z, 0)`. -/
def CloseToZero (z : ℂ) : Prop := ‖z‖ ≤ 1 / 10 ^ 8

open Classical in
/-- Lines 72-79: the points `(x, 1)`, and `(1, 0)` if the last coefficient is close to zero (`none`: a non-finite
coordinate). -/
noncomputable def infPoints (v : List ℝ) (xs : List (Option ℂ)) : List (Option (ℂ × ℂ)) :=
  xs.map (Option.map fun x => (x, 1)) ++ if CloseToZero (v.getLastD 0 : ℝ) then [some (1, 0)] else []

/-- `roots_at_inf(f)`, `ProjectiveSpace.py` lines 46-79. -/
noncomputable def rootsAtInf (E : Eigen) (m n : ℕ) (A : ℕ → ℕ → ℝ) : Except Failure (List (Option (ℂ × ℂ))) :=
  let v := antiDiag m n A
  if (v.filter fun c => decide (c ≠ 0)).length = 1 then
    if v.getD 0 0 ≠ 0 then .ok [some (1, 0)] else .ok (infPoints v [some 0])
  else
    match solve E (.power (cleanLast v)) 0 true with
    | .error e => .error e
    | .ok xs => .ok (infPoints v xs)

/-- The polynomial `second_poly`, lines 35 and 37, at a point: `np.diag(w[::-1])` has entry `w[l-1-r]` at `(r, r)`. -/
noncomputable def secondPoly (m n : ℕ) (A : ℕ → ℕ → ℝ) (p : ℂ × ℂ) : ℂ :=
  ∑ r ∈ Finset.range (max m n), (((antiDiag m n A).getD (max m n - 1 - r) 0 : ℝ) : ℂ) * p.1 ^ r * p.2 ^ r

/-- A coefficient array with its shape. -/
structure Array2 where
  m : ℕ
  n : ℕ
  coef : ℕ → ℕ → ℝ

open Classical in
/-- The loop of lines 38-44. -/
noncomputable def anyClose (g : Array2) (pts : List (Option (ℂ × ℂ))) : Bool :=
  pts.any fun o => match o with
    | some p => decide (CloseToZero (secondPoly g.m g.n g.coef p))
    | none => false

/-- `common_root_at_inf([f, g])`, `ProjectiveSpace.py` lines 9-44. -/
noncomputable def commonRootAtInf (E : Eigen) (f g : Array2) : Except Failure Bool :=
  match rootsAtInf E f.m f.n f.coef with
  | .ok pts => .ok (anyClose g pts)
  | .error _ =>
    match rootsAtInf E g.m g.n g.coef with
    | .ok pts => .ok (anyClose f pts)
    | .error e => .error e

end YRoots.OneD
