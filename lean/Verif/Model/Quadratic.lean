import Verif.Model.Bounding
import Mathlib.Data.Fin.VecNotation
import Mathlib.Algebra.BigOperators.Fin
import Mathlib.Data.List.FinRange

/-!
# Model of the quadratic check

`/repo/yroots/QuadraticCheck.py`.  `np.linalg.matrix_rank` and `scipy.linalg.solve` (used by the n-D version only) are
parameters.
-/

namespace YRoots

variable {n : ℕ} {K : Type*} [Field K] [LinearOrder K]

/-- The repeated block "evaluate, update `min_satisfied` / `max_satisfied`, return `False` when both hold"
(e.g. lines 104-108), over the list of evaluations; at the end `True`. -/
def checkLoop (other_sum : K) : List K → Bool → Bool → Bool
  | [], _, _ => true
  | e :: l, minSat, maxSat =>
    let minSat' := minSat || decide (e < other_sum)
    let maxSat' := maxSat || decide (e > -other_sum)
    if minSat' && maxSat' then false else checkLoop other_sum l minSat' maxSat'

/-- `interval[0][i] < t < interval[1][i]`. -/
def inside (t : K) : Prop := -1 < t ∧ t < 1

instance (t : K) : Decidable (inside t) := inferInstanceAs (Decidable (_ ∧ _))

/-! ### Two variables -/

/-- `c`, lines 62-74. -/
def coeffs2D (M : Tensor 2 K) : Fin 6 → K :=
  ![M.coef ![0, 0],
    if M.shape 0 > 1 then M.coef ![1, 0] else 0,
    if M.shape 1 > 1 then M.coef ![0, 1] else 0,
    if M.shape 0 > 2 then M.coef ![2, 0] else 0,
    if M.shape 0 > 1 ∧ M.shape 1 > 1 then M.coef ![1, 1] else 0,
    if M.shape 1 > 2 then M.coef ![0, 2] else 0]

/-- `eval_func`, lines 83-87. -/
def evalFunc2D (c : Fin 6 → K) (p : Fin 2 → K) : K :=
  let x := p 0
  let y := p 1
  let k0 := c 0 - c 3 - c 5
  let k3 := 2 * c 3
  let k5 := 2 * c 5
  k0 + (c 1 + k3 * x + c 4 * y) * x + (c 2 + k5 * y) * y

/-- The points at which the quadratic part is evaluated, in order: corners (104-126), sides with `x` constant
(131-148), sides with `y` constant (153-171), interior (94-100, 174).  `np.inf` never passes the interior test. -/
def points2D (c : Fin 6 → K) : List (Fin 2 → K) :=
  [![-1, -1], ![1, -1], ![-1, 1], ![1, 1]] ++
  (if c 5 ≠ 0 then
    ([-1, 1] : List K).flatMap fun x =>
      let y := -(c 2 + c 4 * x) / (4 * c 5)
      if inside y then [![x, y]] else []
  else []) ++
  (if c 3 ≠ 0 then
    ([-1, 1] : List K).flatMap fun y =>
      let x := -(c 1 + c 4 * y) / (4 * c 3)
      if inside x then [![x, y]] else []
  else []) ++
  (let det := 16 * c 3 * c 5 - c 4 ^ 2
   if det ≠ 0 then
    let x := (c 2 * c 4 - 4 * c 1 * c 5) / det
    let y := (c 1 * c 4 - 4 * c 2 * c 3) / det
    if inside x ∧ inside y then [![x, y]] else []
   else [])

/-- `quadratic_check_2D(test_coeff, tol)`, lines 34-182.  `test_coeff.ndim != 2` is excluded by typing. -/
def quadraticCheck2D (M : Tensor 2 K) (tol : K) : Bool :=
  let c := coeffs2D M
  let other_sum := M.absSum - ∑ i, |c i| + tol
  checkLoop other_sum ((points2D c).map (evalFunc2D c)) false false

/-! ### Three variables -/

/-- `c`, lines 209-229. -/
def coeffs3D (M : Tensor 3 K) : Fin 10 → K :=
  ![M.coef ![0, 0, 0],
    if M.shape 0 > 1 then M.coef ![1, 0, 0] else 0,
    if M.shape 1 > 1 then M.coef ![0, 1, 0] else 0,
    if M.shape 2 > 1 then M.coef ![0, 0, 1] else 0,
    if M.shape 0 > 1 ∧ M.shape 1 > 1 then M.coef ![1, 1, 0] else 0,
    if M.shape 0 > 1 ∧ M.shape 2 > 1 then M.coef ![1, 0, 1] else 0,
    if M.shape 1 > 1 ∧ M.shape 2 > 1 then M.coef ![0, 1, 1] else 0,
    if M.shape 0 > 2 then M.coef ![2, 0, 0] else 0,
    if M.shape 1 > 2 then M.coef ![0, 2, 0] else 0,
    if M.shape 2 > 2 then M.coef ![0, 0, 2] else 0]

/-- `eval_func`, lines 236-243. -/
def evalFunc3D (c : Fin 10 → K) (p : Fin 3 → K) : K :=
  let x := p 0
  let y := p 1
  let z := p 2
  let k0 := c 0 - c 7 - c 8 - c 9
  let k7 := 2 * c 7
  let k8 := 2 * c 8
  let k9 := 2 * c 9
  k0 + (c 1 + k7 * x + c 4 * y + c 5 * z) * x + (c 2 + k8 * y + c 6 * z) * y + (c 3 + k9 * z) * z

/-- The corners in the order of lines 281-316. -/
def corners3D : List (Fin 3 → K) :=
  [![-1, -1, -1], ![1, -1, -1], ![-1, 1, -1], ![-1, -1, 1], ![1, 1, -1], ![1, -1, 1], ![-1, 1, 1], ![1, 1, 1]]

/-- Edges: two coordinates at the boundary, lines 324-430. -/
def edges3D (c : Fin 10 → K) : List (Fin 3 → K) :=
  let kk7 := 2 * (2 * c 7)
  let kk8 := 2 * (2 * c 8)
  let kk9 := 2 * (2 * c 9)
  (if c 9 ≠ 0 then
    ([-1, 1] : List K).flatMap fun x => ([-1, 1] : List K).flatMap fun y =>
      let z := -(c 5 * x + c 3 + c 6 * y) / kk9
      if inside z then [![x, y, z]] else []
  else []) ++
  (if c 8 ≠ 0 then
    ([-1, 1] : List K).flatMap fun x => ([-1, 1] : List K).flatMap fun z =>
      let y := -(c 2 + c 4 * x + c 6 * z) / kk8
      if inside y then [![x, y, z]] else []
  else []) ++
  (if c 7 ≠ 0 then
    ([-1, 1] : List K).flatMap fun y => ([-1, 1] : List K).flatMap fun z =>
      let x := -(c 1 + c 4 * y + c 5 * z) / kk7
      if inside x then [![x, y, z]] else []
  else [])

/-- Faces: one coordinate at the boundary, lines 436-508. -/
def faces3D (c : Fin 10 → K) : List (Fin 3 → K) :=
  let kk7 := 2 * (2 * c 7)
  let kk8 := 2 * (2 * c 8)
  let kk9 := 2 * (2 * c 9)
  let fix_x_det := kk8 * kk9 - c 6 ^ 2
  let fix_y_det := kk7 * kk9 - c 5 ^ 2
  let fix_z_det := kk7 * kk8 - c 4 ^ 2
  (if fix_x_det ≠ 0 then
    ([-1, 1] : List K).flatMap fun x =>
      let y := (-kk9 * (c 2 + c 4 * x) + c 6 * (c 3 + c 5 * x)) / fix_x_det
      let z := (c 6 * (c 2 + c 4 * x) - kk8 * (c 3 + c 5 * x)) / fix_x_det
      if inside y ∧ inside z then [![x, y, z]] else []
  else []) ++
  (if fix_y_det ≠ 0 then
    ([-1, 1] : List K).flatMap fun y =>
      let x := (-kk9 * (c 1 + c 4 * y) + c 5 * (c 3 + c 6 * y)) / fix_y_det
      let z := (c 5 * (c 1 + c 4 * y) - kk7 * (c 3 + c 6 * y)) / fix_y_det
      if inside x ∧ inside z then [![x, y, z]] else []
  else []) ++
  (if fix_z_det ≠ 0 then
    ([-1, 1] : List K).flatMap fun z =>
      let x := (-kk8 * (c 1 + c 5 * z) + c 4 * (c 2 + c 6 * z)) / fix_z_det
      let y := (c 4 * (c 1 + c 5 * z) - kk7 * (c 2 + c 6 * z)) / fix_z_det
      if inside x ∧ inside y then [![x, y, z]] else []
  else [])

/-- Interior critical point, lines 251-268 and 511-513. -/
def interior3D (c : Fin 10 → K) : List (Fin 3 → K) :=
  let kk7 := 2 * (2 * c 7)
  let kk8 := 2 * (2 * c 8)
  let kk9 := 2 * (2 * c 9)
  let fix_x_det := kk8 * kk9 - c 6 ^ 2
  let fix_y_det := kk7 * kk9 - c 5 ^ 2
  let fix_z_det := kk7 * kk8 - c 4 ^ 2
  let minor_1_2 := kk9 * c 4 - c 5 * c 6
  let minor_1_3 := c 4 * c 6 - kk8 * c 5
  let minor_2_3 := kk7 * c 6 - c 4 * c 5
  let det := 4 * c 7 * fix_x_det - c 4 * minor_1_2 + c 5 * minor_1_3
  if det ≠ 0 then
    let x := (c 1 * -fix_x_det + c 2 * minor_1_2 + c 3 * -minor_1_3) / det
    let y := (c 1 * minor_1_2 + c 2 * -fix_y_det + c 3 * minor_2_3) / det
    let z := (c 1 * -minor_1_3 + c 2 * minor_2_3 + c 3 * -fix_z_det) / det
    if inside x ∧ inside y ∧ inside z then [![x, y, z]] else []
  else []

/-- `quadratic_check_3D(test_coeff, tol)`, lines 184-520. -/
def quadraticCheck3D (M : Tensor 3 K) (tol : K) : Bool :=
  let c := coeffs3D M
  let other_sum := M.absSum - ∑ i, |c i| + tol
  checkLoop other_sum ((corners3D ++ edges3D c ++ faces3D c ++ interior3D c).map (evalFunc3D c)) false false

/-! ### Any number of variables -/

/-- The external linear algebra of the n-D version, for the principal submatrix with rows and columns `S`:
`np.linalg.matrix_rank(A[S][:,S], hermitian=True) == len(S)` and `la.solve(A[S][:,S], b[S], assume_a='sym')`
(entries outside `S` of the argument and the result are never used). -/
structure LinAlg (n : ℕ) (K : Type*) where
  fullRank : Finset (Fin n) → Matrix (Fin n) (Fin n) K → Bool
  solve : Finset (Fin n) → Matrix (Fin n) (Fin n) K → (Fin n → K) → Fin n → K

/-- `itertools.combinations(l, r)`, in its (lexicographic) order. -/
def combinations {α : Type*} : List α → ℕ → List (List α)
  | _, 0 => [[]]
  | [], _ + 1 => []
  | a :: l, r + 1 => (combinations l r).map (a :: ·) ++ combinations l (r + 1)

/-- `get_fixed_vars(dim)`, lines 6-23. -/
def getFixedVars (n : ℕ) : List (List (Fin n)) :=
  ((List.range (n - 1)).reverse.map (· + 1)).flatMap fun r => combinations (List.finRange n) r

/-- `itertools.product([0,1], repeat=len(fixed))` read as boundary values `-1, 1` of the variables in `fixed`. -/
def sides : List (Fin n) → List (Fin n → K)
  | [] => [fun _ => 0]
  | i :: l => ([-1, 1] : List K).flatMap fun s => (sides l).map fun x => Function.update x i s

/-- `np.pad(test_coeff, ...)` to at least 3 entries per axis, lines 544-545. -/
def Tensor.pad3 (M : Tensor n K) : Tensor n K :=
  ⟨fun i => M.shape i + (3 - M.shape i), fun k => if ∀ i, k i < M.shape i then M.coef k else 0⟩

/-- The multi-index with entries 1 at `i` and `j` (2 at `i` if equal). -/
abbrev spot2 (i j : Fin n) : Fin n → ℕ := Pi.single i 1 + Pi.single j 1

/-- `B`, line 567. -/
def quadB (M : Tensor n K) (i : Fin n) : K := M.pad3.coef (Pi.single i 1)

/-- `pure_quad_coeff`, line 588. -/
def pureQuad (M : Tensor n K) (i : Fin n) : K := M.pad3.coef (spot2 i i)

/-- `A`, lines 581-582 and 592. -/
def quadA (M : Tensor n K) : Matrix (Fin n) (Fin n) K :=
  Matrix.of fun i j => if i = j then pureQuad M i * 2 * 2 else M.pad3.coef (spot2 i j)

/-- `eval_func`, lines 595-602. -/
def evalFuncND (M : Tensor n K) (point : Fin n → K) : K :=
  (List.finRange n).foldl (fun s i =>
    s + (quadB M i + pureQuad M i * 2 * point i + ∑ j ∈ Finset.univ.filter (i < ·), quadA M i j * point j) * point i)
    (M.pad3.coef (fun _ => 0) - ∑ i, pureQuad M i)

/-- `other_sum`, line 605: the loop of lines 562-590 has zeroed the entries of total degree at most 2. -/
def otherSumND (M : Tensor n K) (tol : K) : K :=
  (∑ k ∈ M.pad3.idx, |if ∑ i, k i ≤ 2 then 0 else M.pad3.coef k|) + tol

/-- "sign change?" between neighbouring diagonal entries, lines 632-635 and 665-668. -/
def signChange : List K → Bool
  | a :: b :: l => decide (a * b < 0) || signChange (b :: l)
  | _ => false

/-- The points evaluated for one choice of fixed variables, lines 627-654 (and 665-681 for none fixed, where the
code tests the sign changes on `pure_quad_coeff`, a quarter of the diagonal). -/
def pointsFixed (la : LinAlg n K) (M : Tensor n K) (fixed : List (Fin n)) : List (Fin n → K) :=
  let A := quadA M
  let unfixed := (List.finRange n).filter (· ∉ fixed)
  let diag := unfixed.map fun i => if fixed = [] then pureQuad M i else A i i
  if signChange diag then []
  else if la.fullRank unfixed.toFinset A then
    (sides fixed).flatMap fun X0 =>
      let X_ := la.solve unfixed.toFinset A fun i => -quadB M i - ∑ j ∈ fixed.toFinset, A i j * X0 j
      if ∀ i ∈ unfixed, -1 ≤ X_ i ∧ X_ i ≤ 1 then [fun i => if i ∈ fixed then X0 i else X_ i] else []
  else []

/-- `quadratic_check_nd(test_coeff, tol)`, lines 522-687.  Corners, then the sides in the order of
`get_fixed_vars`, then the interior. -/
def quadraticCheckND (la : LinAlg n K) (M : Tensor n K) (tol : K) : Bool :=
  let points := sides (List.finRange n) ++ (getFixedVars n).flatMap (pointsFixed la M) ++ pointsFixed la M []
  checkLoop (otherSumND M tol) (points.map (evalFuncND M)) false false

/-- `quadratic_check(test_coeff, tol)` (with `nd_check=False`), lines 25-31. -/
def quadraticCheck : (n : ℕ) → LinAlg n K → Tensor n K → K → Bool
  | 2, _, M, tol => quadraticCheck2D M tol
  | 3, _, M, tol => quadraticCheck3D M tol
  | _, la, M, tol => quadraticCheckND la M tol

end YRoots
