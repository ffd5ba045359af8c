import Verif.Model.Quadratic
import Verif.Model.FloatBounding

/-!
# The quadratic check in two and three variables in floating-point arithmetic

`quadratic_check_2D` and `quadratic_check_3D` of `/repo/yroots/QuadraticCheck.py`, lines 34-182 and 184-520, with every operation rounded by `fl`, in the order in which Python performs
them.  Negation and absolute value are exact, and squares such as `c[4]**2` are taken to be rounded to nearest.  Overflow and underflow are left out.
-/

namespace YRoots

variable {K : Type*} [Field K] [LinearOrder K]

/-- `eval_func`, lines 83-87, rounded (see `evalFunc2D`). -/
def evalFunc2DF (fl : K → K) (c : Fin 6 → K) (p : Fin 2 → K) : K :=
  let x := p 0
  let y := p 1
  let k0 := fl (fl (c 0 - c 3) - c 5)
  let k3 := fl (2 * c 3)
  let k5 := fl (2 * c 5)
  fl (fl (k0 + fl (fl (fl (c 1 + fl (k3 * x)) + fl (c 4 * y)) * x)) + fl (fl (c 2 + fl (k5 * y)) * y))

/-- The interior point of lines 94-100 by Cramer's rule, rounded; `det` is the rounded determinant. -/
def interior2DF (fl : K → K) (c : Fin 6 → K) (det : K) : Fin 2 → K :=
  ![fl (fl (fl (c 2 * c 4) - fl (fl (4 * c 1) * c 5)) / det), fl (fl (fl (c 1 * c 4) - fl (fl (4 * c 2) * c 3)) / det)]

/-- `det`, line 94, rounded. -/
def det2DF (fl : K → K) (c : Fin 6 → K) : K := fl (fl (fl (16 * c 3) * c 5) - fl (c 4 ^ 2))

/-- The points of evaluation, rounded (see `points2D`): corners (104-126), sides with `x` constant (131-148), sides with `y` constant (153-171), interior
(94-100, 174). -/
def points2DF (fl : K → K) (c : Fin 6 → K) : List (Fin 2 → K) :=
  [![-1, -1], ![1, -1], ![-1, 1], ![1, 1]] ++
  (if c 5 ≠ 0 then
    ([-1, 1] : List K).flatMap fun x =>
      let y := fl (-fl (c 2 + fl (c 4 * x)) / fl (4 * c 5))
      if inside y then [![x, y]] else []
  else []) ++
  (if c 3 ≠ 0 then
    ([-1, 1] : List K).flatMap fun y =>
      let x := fl (-fl (c 1 + fl (c 4 * y)) / fl (4 * c 3))
      if inside x then [![x, y]] else []
  else []) ++
  (let det := det2DF fl c
   if det ≠ 0 then
    if inside (interior2DF fl c det 0) ∧ inside (interior2DF fl c det 1) then [interior2DF fl c det] else []
   else [])

/-- `other_sum`, line 79, rounded: `np.sum` of the array, the builtin `sum` of the six absolute values from left to right starting at `0`, the
difference, and the addition of `tol`. -/
def otherSum2DF (ar : FloatArith K) (M : Tensor 2 K) (tol : K) : K :=
  ar.fl (ar.fl (ar.sum M.absList - (List.ofFn fun i => |coeffs2D M i|).foldl (fun s a => ar.fl (s + a)) 0) + tol)

/-- `quadratic_check_2D(test_coeff, tol)`, lines 34-182, rounded. -/
def quadraticCheck2DF (ar : FloatArith K) (M : Tensor 2 K) (tol : K) : Bool :=
  checkLoop (otherSum2DF ar M tol) ((points2DF ar.fl (coeffs2D M)).map (evalFunc2DF ar.fl (coeffs2D M))) false false

/-- `quadratic_check` over the functions of a system as in `solvePolyRecursive`, `ChebyshevSubdivisionSolver.py` lines 1221-1224, in two variables. -/
def quadraticDiscards2DF (ar : FloatArith K) (Ms : Fin 2 → Tensor 2 K) (errs : Fin 2 → K) : Bool :=
  decide (∃ i, quadraticCheck2DF ar (Ms i) (errs i) = true)

/-! ### Three variables -/

/-- `eval_func`, lines 236-243, rounded (see `evalFunc3D`). -/
def evalFunc3DF (fl : K → K) (c : Fin 10 → K) (p : Fin 3 → K) : K :=
  let x := p 0
  let y := p 1
  let z := p 2
  let k0 := fl (fl (fl (c 0 - c 7) - c 8) - c 9)
  let k7 := fl (2 * c 7)
  let k8 := fl (2 * c 8)
  let k9 := fl (2 * c 9)
  fl (fl (fl (k0 + fl (fl (fl (fl (c 1 + fl (k7 * x)) + fl (c 4 * y)) + fl (c 5 * z)) * x)) +
    fl (fl (fl (c 2 + fl (k8 * y)) + fl (c 6 * z)) * y)) + fl (fl (c 3 + fl (k9 * z)) * z))

/-- `kk7`, `kk8`, `kk9`, lines 237-239 and 251-253, rounded: four times a coefficient. -/
def fourF (fl : K → K) (a : K) : K := fl (2 * fl (2 * a))

/-- Edges: two coordinates at the boundary, lines 324-430, rounded (see `edges3D`). -/
def edges3DF (fl : K → K) (c : Fin 10 → K) : List (Fin 3 → K) :=
  (if c 9 ≠ 0 then
    ([-1, 1] : List K).flatMap fun x => ([-1, 1] : List K).flatMap fun y =>
      let z := fl (-fl (fl (fl (c 5 * x) + c 3) + fl (c 6 * y)) / fourF fl (c 9))
      if inside z then [![x, y, z]] else []
  else []) ++
  (if c 8 ≠ 0 then
    ([-1, 1] : List K).flatMap fun x => ([-1, 1] : List K).flatMap fun z =>
      let y := fl (-fl (fl (c 2 + fl (c 4 * x)) + fl (c 6 * z)) / fourF fl (c 8))
      if inside y then [![x, y, z]] else []
  else []) ++
  (if c 7 ≠ 0 then
    ([-1, 1] : List K).flatMap fun y => ([-1, 1] : List K).flatMap fun z =>
      let x := fl (-fl (fl (c 1 + fl (c 4 * y)) + fl (c 5 * z)) / fourF fl (c 7))
      if inside x then [![x, y, z]] else []
  else [])

/-- `fix_x_det` and its like, lines 254-256, rounded; `p`, `q` are `kk8`, `kk9` and so on. -/
def minorF (fl : K → K) (p q r : K) : K := fl (fl (p * q) - fl (r ^ 2))

/-- Faces: one coordinate at the boundary, lines 436-508, rounded (see `faces3D`). -/
def faces3DF (fl : K → K) (c : Fin 10 → K) : List (Fin 3 → K) :=
  let kk7 := fourF fl (c 7)
  let kk8 := fourF fl (c 8)
  let kk9 := fourF fl (c 9)
  let fix_x_det := minorF fl kk8 kk9 (c 6)
  let fix_y_det := minorF fl kk7 kk9 (c 5)
  let fix_z_det := minorF fl kk7 kk8 (c 4)
  (if fix_x_det ≠ 0 then
    ([-1, 1] : List K).flatMap fun x =>
      let b2 := fl (c 2 + fl (c 4 * x))
      let b3 := fl (c 3 + fl (c 5 * x))
      let y := fl (fl (fl (-kk9 * b2) + fl (c 6 * b3)) / fix_x_det)
      let z := fl (fl (fl (c 6 * b2) - fl (kk8 * b3)) / fix_x_det)
      if inside y ∧ inside z then [![x, y, z]] else []
  else []) ++
  (if fix_y_det ≠ 0 then
    ([-1, 1] : List K).flatMap fun y =>
      let b1 := fl (c 1 + fl (c 4 * y))
      let b3 := fl (c 3 + fl (c 6 * y))
      let x := fl (fl (fl (-kk9 * b1) + fl (c 5 * b3)) / fix_y_det)
      let z := fl (fl (fl (c 5 * b1) - fl (kk7 * b3)) / fix_y_det)
      if inside x ∧ inside z then [![x, y, z]] else []
  else []) ++
  (if fix_z_det ≠ 0 then
    ([-1, 1] : List K).flatMap fun z =>
      let b1 := fl (c 1 + fl (c 5 * z))
      let b2 := fl (c 2 + fl (c 6 * z))
      let x := fl (fl (fl (-kk8 * b1) + fl (c 4 * b2)) / fix_z_det)
      let y := fl (fl (fl (c 4 * b1) - fl (kk7 * b2)) / fix_z_det)
      if inside x ∧ inside y then [![x, y, z]] else []
  else [])

/-- `det` of line 260, rounded. -/
def det3DF (fl : K → K) (c : Fin 10 → K) : K :=
  let kk8 := fourF fl (c 8)
  let kk9 := fourF fl (c 9)
  let minor_1_2 := fl (fl (kk9 * c 4) - fl (c 5 * c 6))
  let minor_1_3 := fl (fl (c 4 * c 6) - fl (kk8 * c 5))
  fl (fl (fl (fl (4 * c 7) * minorF fl kk8 kk9 (c 6)) - fl (c 4 * minor_1_2)) + fl (c 5 * minor_1_3))

/-- A row of lines 262-264, rounded. -/
def row3DF (fl : K → K) (c : Fin 10 → K) (m1 m2 m3 det : K) : K :=
  fl (fl (fl (fl (c 1 * m1) + fl (c 2 * m2)) + fl (c 3 * m3)) / det)

/-- Interior critical point by Cramer's rule, lines 251-268 and 511-513, rounded (see `interior3D`). -/
def interior3DF (fl : K → K) (c : Fin 10 → K) : List (Fin 3 → K) :=
  let kk7 := fourF fl (c 7)
  let kk8 := fourF fl (c 8)
  let kk9 := fourF fl (c 9)
  let fix_x_det := minorF fl kk8 kk9 (c 6)
  let fix_y_det := minorF fl kk7 kk9 (c 5)
  let fix_z_det := minorF fl kk7 kk8 (c 4)
  let minor_1_2 := fl (fl (kk9 * c 4) - fl (c 5 * c 6))
  let minor_1_3 := fl (fl (c 4 * c 6) - fl (kk8 * c 5))
  let minor_2_3 := fl (fl (kk7 * c 6) - fl (c 4 * c 5))
  let det := det3DF fl c
  if det ≠ 0 then
    let x := row3DF fl c (-fix_x_det) minor_1_2 (-minor_1_3) det
    let y := row3DF fl c minor_1_2 (-fix_y_det) minor_2_3 det
    let z := row3DF fl c (-minor_1_3) minor_2_3 (-fix_z_det) det
    if inside x ∧ inside y ∧ inside z then [![x, y, z]] else []
  else []

/-- The points of evaluation, rounded. -/
def points3DF (fl : K → K) (c : Fin 10 → K) : List (Fin 3 → K) := corners3D ++ edges3DF fl c ++ faces3DF fl c ++ interior3DF fl c

/-- `other_sum`, line 232, rounded. -/
def otherSum3DF (ar : FloatArith K) (M : Tensor 3 K) (tol : K) : K :=
  ar.fl (ar.fl (ar.sum M.absList - (List.ofFn fun i => |coeffs3D M i|).foldl (fun s a => ar.fl (s + a)) 0) + tol)

/-- `quadratic_check_3D(test_coeff, tol)`, lines 184-520, rounded. -/
def quadraticCheck3DF (ar : FloatArith K) (M : Tensor 3 K) (tol : K) : Bool :=
  checkLoop (otherSum3DF ar M tol) ((points3DF ar.fl (coeffs3D M)).map (evalFunc3DF ar.fl (coeffs3D M))) false false

/-- `quadratic_check` over the functions of a system, `ChebyshevSubdivisionSolver.py` lines 1221-1224, in three variables. -/
def quadraticDiscards3DF (ar : FloatArith K) (Ms : Fin 3 → Tensor 3 K) (errs : Fin 3 → K) : Bool :=
  decide (∃ i, quadraticCheck3DF ar (Ms i) (errs i) = true)

end YRoots
