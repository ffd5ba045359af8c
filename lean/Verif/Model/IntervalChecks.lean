import Verif.Model.Quadratic
import Verif.Model.Solve
import Mathlib.LinearAlgebra.Matrix.Determinant.Basic

/-!
# Model of the interval checks of the legacy solver

`/repo/yroots/IntervalChecks.py`, used by `/repo/yroots/subdivision.py`.  Not modelled: printing, plotting, the polishing
bookkeeping (lines 135-155) and the unused stub `slices_max_min_check` (1405-1418).

`scipy.linalg.solve` (line 594) is the parameter `LinSolve`; `np.linalg.matrix_rank` and `la.solve` of the n-D quadratic
check are `LinAlg` as in `Model/Quadratic`.  Arithmetic is exact.
-/

namespace YRoots.Legacy

/-- The exceptions that can be raised. -/
inductive Failure
  | indexError
  | linAlgError
  deriving DecidableEq, Repr

variable {n : ℕ} {K : Type*} [Field K] [LinearOrder K]

/-! ### Interval reduction (lines 395-647) -/

/-- `mergeIntervals`, lines 408-414. -/
def mergeIntervals : List (K × K) → K × K
  | [] => (-1, 1)
  | i :: l =>
    let result := ((l.map Prod.fst).foldl max i.1, (l.map Prod.snd).foldl min i.2)
    if result.1 > result.2 then (0, 0) else result

/-- `max(min(a,1),-1)`, lines 421-422 and 434-435. -/
def clamp (t : K) : K := max (min t 1) (-1)

/-- `boundingIntervalWidthAndBoundCheck`, lines 416-436; `MIN_WIDTH = .01`. -/
def widthAndBoundCheck (interval : K × K) : K × K :=
  let a := clamp interval.1
  let b := clamp interval.2
  if a = b then (0, 0)
  else if b - a < 1 / 100 then
    let center := (a + b) / 2
    (clamp (center - 1 / 100 / 2), clamp (center + 1 / 100 / 2))
  else (a, b)

/-- The lists `allIntervals`, one per variable. -/
abbrev Intervals (n : ℕ) (K : Type*) := Fin n → List (K × K)

/-- `allIntervals[var].append([center - width, center + width])`. -/
def Intervals.push (iv : Intervals n K) (var : Fin n) (center width : K) : Intervals n K :=
  Function.update iv var (iv var ++ [(center - width, center + width)])

/-- `improveBound2D`, lines 438-483. -/
def improveBound2D (iv : Intervals 2 K) (x_terms y_terms consts errors : Fin 2 → K) : Intervals 2 K :=
  let iv := if x_terms 0 ≠ 0 then
    iv.push 0 (-consts 0 / x_terms 0) ((|errors 0| + |y_terms 0|) / |x_terms 0|) else iv
  let iv := if x_terms 1 ≠ 0 then
    iv.push 0 (-consts 1 / x_terms 1) ((|errors 1| + |y_terms 1|) / |x_terms 1|) else iv
  let iv := if y_terms 0 ≠ 0 then
    iv.push 1 (-consts 0 / y_terms 0) ((|errors 0| + |x_terms 0|) / |y_terms 0|) else iv
  if y_terms 1 ≠ 0 then
    iv.push 1 (-consts 1 / y_terms 1) ((|errors 1| + |x_terms 1|) / |y_terms 1|) else iv

/-- Body of the inner loop of `improveBoundND`, lines 513-517. -/
def improveStep (A : Matrix (Fin n) (Fin n) K) (consts errors : Fin n → K) (funcNum : Fin n) (iv : Intervals n K)
    (var : Fin n) : Intervals n K :=
  let totalError := ∑ v, |A funcNum v| + |errors funcNum|
  if |A funcNum var| = 0 then iv
  else iv.push var (-consts funcNum / A funcNum var) (totalError / |A funcNum var| - 1)

/-- `improveBoundND`, lines 485-519. -/
def improveBoundND (iv : Intervals n K) (A : Matrix (Fin n) (Fin n) K) (consts errors : Fin n → K) : Intervals n K :=
  (List.finRange n).foldl (fun iv funcNum => (List.finRange n).foldl (improveStep A consts errors funcNum) iv) iv

/-- `getBoundingParallelogram2D`, lines 521-557. -/
def parallelogram2D (iv : Intervals 2 K) (x_terms y_terms consts errors : Fin 2 → K) : Intervals 2 K :=
  let denom := x_terms 0 * y_terms 1 - x_terms 1 * y_terms 0
  if denom ≠ 0 then
    let yCenter := (x_terms 1 * consts 0 - x_terms 0 * consts 1) / denom
    let xCenter := (y_terms 0 * consts 1 - y_terms 1 * consts 0) / denom
    let yWidth := (|x_terms 1 * errors 0| + |x_terms 0 * errors 1|) / |denom|
    let xWidth := (|y_terms 1 * errors 0| + |y_terms 0 * errors 1|) / |denom|
    (iv.push 0 xCenter xWidth).push 1 yCenter yWidth
  else iv

/-- `scipy.linalg.solve(A, b)` for one right-hand side; `none` is `LinAlgError`. -/
abbrev LinSolve (n : ℕ) (K : Type*) := Matrix (Fin n) (Fin n) K → (Fin n → K) → Option (Fin n → K)

/-- Contract of `scipy.linalg.solve`: the solution for a nonsingular matrix, `LinAlgError` for a singular one. -/
def LinSolve.Exact (S : LinSolve n K) : Prop :=
  ∀ (A : Matrix (Fin n) (Fin n) K) (b : Fin n → K), (A.det ≠ 0 → ∃ x, S A b = some x ∧ A.mulVec x = b) ∧ (A.det = 0 → S A b = none)

/-- `np.min` and `np.max` of a nonempty list (the head is passed apart). -/
def listMin (a : K) (l : List K) : K := l.foldl min a
def listMax (a : K) (l : List K) : K := l.foldl max a

/-- `getBoundingParallelogramND`, lines 559-601: `B` has one column per sign choice `(e, -e)` of the errors
(`boolProduct`, `false` for `e`). -/
def parallelogramND (S : LinSolve n K) (iv : Intervals n K) (A : Matrix (Fin n) (Fin n) K) (consts errors : Fin n → K) :
    Except Failure (Intervals n K) :=
  match (boolProduct n).mapM fun s => S A fun i => -consts i + if s i then -errors i else errors i with
  | none => .error .linAlgError
  | some [] => .ok iv
  | some (x :: X) => .ok fun i =>
      iv i ++ [(listMin (x i) (X.map fun y => y i), listMax (x i) (X.map fun y => y i))]

/-- `INTERVAL_REDUCTION_FUNCS`, line 20 (names) and 603-604 (functions). -/
inductive Reduction
  | improveBound
  | getBoundingParallelogram
  deriving DecidableEq, Repr

/-- Lines 643-647 (and 627-631): merge, clamp, widen. -/
def finish (iv : Intervals n K) : Box n K :=
  ⟨fun i => (widthAndBoundCheck (mergeIntervals (iv i))).1, fun i => (widthAndBoundCheck (mergeIntervals (iv i))).2⟩

/-- The linear coefficient of variable `j`, `P[1,0]` / `coeff[tuple(get_var_list(dim))]`. -/
def linCoef (M : Tensor n K) (j : Fin n) : K := M.coef (Pi.single j 1)

/-- `np.sum(np.abs(P)) - abs(a) - abs(b) - abs(c) + error`, lines 617, 621; the n-D lines 640-641 compute the same
number in another order. -/
def errTerm (M : Tensor n K) (tol : K) : K := M.absSum + tol - |M.const| - ∑ j, |linCoef M j|

/-- `INTERVAL_REDUCTION_FUNCS_ND[idx](allIntervals, A, consts, err)`, line 642. -/
def reduceND (S : LinSolve n K) (A : Matrix (Fin n) (Fin n) K) (consts err : Fin n → K) (iv : Intervals n K) :
    Reduction → Except Failure (Intervals n K)
  | .improveBound => .ok (improveBoundND iv A consts err)
  | .getBoundingParallelogram => parallelogramND S iv A consts err

/-- `INTERVAL_REDUCTION_FUNCS_2D[idx]([xIntervals, yIntervals], ...)`, line 625. -/
def reduce2D (x_terms y_terms consts err : Fin 2 → K) (iv : Intervals 2 K) : Reduction → Intervals 2 K
  | .improveBound => improveBound2D iv x_terms y_terms consts err
  | .getBoundingParallelogram => parallelogram2D iv x_terms y_terms consts err

/-- `getBoundingInterval2D`, lines 606-631 (`P1[1,0]`, `P1[0,1]` raise `IndexError` if the axis has one entry). -/
def getBoundingInterval2D (P : Fin 2 → Tensor 2 K) (errors : Fin 2 → K) (methods : List Reduction) :
    Except Failure (Box 2 K) :=
  if ∀ i j, 1 < (P i).shape j then
    .ok (finish (methods.foldl (reduce2D (fun i => linCoef (P i) 0) (fun i => linCoef (P i) 1) (fun i => (P i).const)
      fun i => errTerm (P i) (errors i)) fun _ => []))
  else .error .indexError

/-- `getBoundingIntervalND`, lines 633-647. -/
def getBoundingIntervalND (S : LinSolve n K) (P : Fin n → Tensor n K) (tols : Fin n → K) (methods : List Reduction) :
    Except Failure (Box n K) :=
  if ∀ i j, 1 < (P i).shape j then
    let A : Matrix (Fin n) (Fin n) K := Matrix.of fun i j => linCoef (P i) j
    let consts := fun i => (P i).const
    let err := fun i => errTerm (P i) (tols i)
    match methods.foldlM (reduceND S A consts err) (fun _ => []) with
    | .error e => .error e
    | .ok iv => .ok (finish iv)
  else .error .indexError

/-- The choice between the two versions, lines 402-405. -/
def boundingDispatch : (n : ℕ) → LinSolve n K → (Fin n → Tensor n K) → (Fin n → K) → List Reduction →
    Except Failure (Box n K)
  | 2, _, P, errors, methods => getBoundingInterval2D P errors methods
  | _, S, P, errors, methods => getBoundingIntervalND S P errors methods

/-- `getBoundingInterval`, lines 395-406.  `approx` pairs the polynomials with the errors (both lists; there are never
more polynomials than errors). -/
def getBoundingInterval (n : ℕ) (S : LinSolve n K) (approx : List (Tensor n K × K)) (methods : List Reduction) :
    Except Failure (Option (Box n K)) :=
  if approx.length = 0 then .ok none
  else if h : approx.length = n then
    match boundingDispatch n S (fun i => (approx.get (i.cast h.symm)).1) (fun i => (approx.get (i.cast h.symm)).2)
      methods with
    | .error e => .error e
    | .ok B => .ok (some B)
  else .ok none

/-! ### The checks (lines 649-1403) -/

/-- `constant_term_check`, lines 649-672; `false` means "throw the interval out". -/
def constantTermCheck (M : Tensor n K) (tol : K) : Bool := if |M.const| * 2 > M.absSum + tol then false else true

/-- `interval[0][i] < t < interval[1][i]`. -/
def insideAx (B : Box n K) (i : Fin n) (t : K) : Prop := B.lo i < t ∧ t < B.hi i

instance (B : Box n K) (i : Fin n) (t : K) : Decidable (insideAx B i t) := inferInstanceAs (Decidable (_ ∧ _))

/-- `[interval[0][i], interval[1][i]]`. -/
def ends (B : Box n K) (i : Fin n) : List K := [B.lo i, B.hi i]

/-- Points visited by `quadratic_check_2D` on one subinterval: corners (775-797), sides (802-841), interior (844-849).
The coefficients `c` (727-741) and `eval_func` (751-755) have the same text as in `QuadraticCheck.py` and are
`coeffs2D`, `evalFunc2D`. -/
def points2D (c : Fin 6 → K) (B : Box 2 K) : List (Fin 2 → K) :=
  [![B.lo 0, B.lo 1], ![B.hi 0, B.lo 1], ![B.lo 0, B.hi 1], ![B.hi 0, B.hi 1]] ++
  (if c 5 ≠ 0 then
    (ends B 0).flatMap fun x =>
      let y := -(c 2 + c 4 * x) / (4 * c 5)
      if insideAx B 1 y then [![x, y]] else []
  else []) ++
  (if c 3 ≠ 0 then
    (ends B 1).flatMap fun y =>
      let x := -(c 1 + c 4 * y) / (4 * c 3)
      if insideAx B 0 x then [![x, y]] else []
  else []) ++
  (let det := 16 * c 3 * c 5 - c 4 ^ 2
   if det ≠ 0 then
    let x := (c 2 * c 4 - 4 * c 1 * c 5) / det
    let y := (c 1 * c 4 - 4 * c 2 * c 3) / det
    if insideAx B 0 x ∧ insideAx B 1 y then [![x, y]] else []
   else [])

/-- `quadratic_check_2D` on one subinterval, lines 700-853: `true` means "no root possible". -/
def check2D (M : Tensor 2 K) (tol : K) (B : Box 2 K) : Bool :=
  let c := coeffs2D M
  checkLoop (M.absSum - ∑ i, |c i| + tol) ((points2D c B).map (evalFunc2D c)) false false

/-- Corners in the order of lines 961-1000. -/
def corners3D (B : Box 3 K) : List (Fin 3 → K) :=
  [![B.lo 0, B.lo 1, B.lo 2], ![B.hi 0, B.lo 1, B.lo 2], ![B.lo 0, B.hi 1, B.lo 2], ![B.lo 0, B.lo 1, B.hi 2],
    ![B.hi 0, B.hi 1, B.lo 2], ![B.hi 0, B.lo 1, B.hi 2], ![B.lo 0, B.hi 1, B.hi 2], ![B.hi 0, B.hi 1, B.hi 2]]

/-- Edges, lines 1001-1111. -/
def edges3D (c : Fin 10 → K) (B : Box 3 K) : List (Fin 3 → K) :=
  let kk7 := 2 * (2 * c 7)
  let kk8 := 2 * (2 * c 8)
  let kk9 := 2 * (2 * c 9)
  (if c 9 ≠ 0 then
    (ends B 0).flatMap fun x => (ends B 1).flatMap fun y =>
      let z := -(c 5 * x + c 3 + c 6 * y) / kk9
      if insideAx B 2 z then [![x, y, z]] else []
  else []) ++
  (if c 8 ≠ 0 then
    (ends B 0).flatMap fun x => (ends B 2).flatMap fun z =>
      let y := -(c 2 + c 4 * x + c 6 * z) / kk8
      if insideAx B 1 y then [![x, y, z]] else []
  else []) ++
  (if c 7 ≠ 0 then
    (ends B 1).flatMap fun y => (ends B 2).flatMap fun z =>
      let x := -(c 1 + c 4 * y + c 5 * z) / kk7
      if insideAx B 0 x then [![x, y, z]] else []
  else [])

/-- Faces, lines 1113-1191. -/
def faces3D (c : Fin 10 → K) (B : Box 3 K) : List (Fin 3 → K) :=
  let kk7 := 2 * (2 * c 7)
  let kk8 := 2 * (2 * c 8)
  let kk9 := 2 * (2 * c 9)
  let fix_x_det := kk8 * kk9 - c 6 ^ 2
  let fix_y_det := kk7 * kk9 - c 5 ^ 2
  let fix_z_det := kk7 * kk8 - c 4 ^ 2
  (if fix_x_det ≠ 0 then
    (ends B 0).flatMap fun x =>
      let y := (-kk9 * (c 2 + c 4 * x) + c 6 * (c 3 + c 5 * x)) / fix_x_det
      let z := (c 6 * (c 2 + c 4 * x) - kk8 * (c 3 + c 5 * x)) / fix_x_det
      if insideAx B 1 y ∧ insideAx B 2 z then [![x, y, z]] else []
  else []) ++
  (if fix_y_det ≠ 0 then
    (ends B 1).flatMap fun y =>
      let x := (-kk9 * (c 1 + c 4 * y) + c 5 * (c 3 + c 6 * y)) / fix_y_det
      let z := (c 5 * (c 1 + c 4 * y) - kk7 * (c 3 + c 6 * y)) / fix_y_det
      if insideAx B 0 x ∧ insideAx B 2 z then [![x, y, z]] else []
  else []) ++
  (if fix_z_det ≠ 0 then
    (ends B 2).flatMap fun z =>
      let x := (-kk8 * (c 1 + c 5 * z) + c 4 * (c 2 + c 6 * z)) / fix_z_det
      let y := (c 4 * (c 1 + c 5 * z) - kk7 * (c 2 + c 6 * z)) / fix_z_det
      if insideAx B 0 x ∧ insideAx B 1 y then [![x, y, z]] else []
  else [])

/-- Interior critical point, lines 924-945 and 1193-1200. -/
def interior3D (c : Fin 10 → K) (B : Box 3 K) : List (Fin 3 → K) :=
  let kk7 := 2 * (2 * c 7)
  let kk8 := 2 * (2 * c 8)
  let kk9 := 2 * (2 * c 9)
  let fix_x_det := kk8 * kk9 - c 6 ^ 2
  let fix_y_det := kk7 * kk9 - c 5 ^ 2
  let fix_z_det := kk7 * kk8 - c 4 ^ 2
  let minor_1_2 := kk9 * c 4 - c 5 * c 6
  let minor_1_3 := c 4 * c 6 - kk8 * c 5
  let minor_2_3 := kk7 * c 6 - c 4 * c 5
  let det := 4 * c 7 * fix_x_det - c 4 * minor_1_2 + c 5 * minor_1_3
  if det ≠ 0 then
    let x := (c 1 * -fix_x_det + c 2 * minor_1_2 + c 3 * -minor_1_3) / det
    let y := (c 1 * minor_1_2 + c 2 * -fix_y_det + c 3 * minor_2_3) / det
    let z := (c 1 * -minor_1_3 + c 2 * minor_2_3 + c 3 * -fix_z_det) / det
    if insideAx B 0 x ∧ insideAx B 1 y ∧ insideAx B 2 z then [![x, y, z]] else []
  else []

/-- `quadratic_check_3D` on one subinterval, lines 855-1204 (`c` and `eval_func`, lines 882-917, are `coeffs3D`,
`evalFunc3D`). -/
def check3D (M : Tensor 3 K) (tol : K) (B : Box 3 K) : Bool :=
  let c := coeffs3D M
  checkLoop (M.absSum - ∑ i, |c i| + tol)
    ((corners3D B ++ edges3D c B ++ faces3D c B ++ interior3D c B).map (evalFunc3D c)) false false

/-- `X0` for all sides, lines 1353-1354: the variable `fixed[i]` is given a bound of variable `i`, its *position* in
`fixed`.  The list holds the pairs `(fixed[i], i)`. -/
def sidesAt (B : Box n K) : List (Fin n × Fin n) → List (Fin n → K)
  | [] => [fun _ => 0]
  | (v, i) :: l => (ends B i).flatMap fun s => (sidesAt B l).map fun x => Function.update x v s

/-- The points evaluated for one choice of fixed variables, lines 1334-1373 (and 1376-1399 for none fixed). -/
def pointsFixed (la : LinAlg n K) (M : Tensor n K) (B : Box n K) (fixed : List (Fin n)) : List (Fin n → K) :=
  let A := quadA M
  let unfixed := (List.finRange n).filter (· ∉ fixed)
  let diag := unfixed.map fun i => if fixed = [] then pureQuad M i else A i i
  if signChange diag then []
  else if la.fullRank unfixed.toFinset A then
    (sidesAt B (fixed.zip (List.finRange n))).flatMap fun X0 =>
      let X_ := la.solve unfixed.toFinset A fun i => -quadB M i - ∑ j ∈ fixed.toFinset, A i j * X0 j
      if ∀ i ∈ unfixed, B.lo i ≤ X_ i ∧ X_ i ≤ B.hi i then [fun i => if i ∈ fixed then X0 i else X_ i] else []
  else []

/-- `quadratic_check_nd` on one subinterval, lines 1226-1403 (coefficient extraction 1250-1308 as in
`QuadraticCheck.py`). -/
def checkND (la : LinAlg n K) (M : Tensor n K) (tol : K) (B : Box n K) : Bool :=
  let points := sidesAt B ((List.finRange n).zip (List.finRange n)) ++
    (getFixedVars n).flatMap (pointsFixed la M B) ++ pointsFixed la M B []
  checkLoop (otherSumND M tol) (points.map (evalFuncND M)) false false

/-- `quadratic_check`, lines 674-698, for one subinterval. -/
def quadraticCheck : (n : ℕ) → LinAlg n K → Tensor n K → K → Box n K → Bool
  | 2, _, M, tol, B => check2D M tol B
  | 3, _, M, tol, B => check3D M tol B
  | _, la, M, tol, B => checkND la M tol B

/-! ### `IntervalData` (lines 22-393) -/

/-- `self.middleVal`, lines 117 and 120: `2*RAND - 1` with `RAND = 0.5139303900908738`. -/
def middleVal : K := 2 * (5139303900908738 / 10 ^ 16) - 1

/-- `self.subintervals[spot]`, lines 123-127 (`true` for the upper half). -/
def subinterval (spot : Fin n → Bool) : Box n K :=
  ⟨fun i => if spot i then middleVal else -1, fun i => if spot i then 1 else middleVal⟩

/-- `transform` of `utils.py`, lines 1241-1258, on both corners of a box; also lines 204-205 of `get_subintervals` (the two
assignments there together cover the whole array). -/
def transformBox (a b : Fin n → K) (B : Box n K) : Box n K :=
  ⟨fun i => (B.lo i * (b i - a i) + (b i + a i)) / 2, fun i => (B.hi i * (b i - a i) + (b i + a i)) / 2⟩

/-- `np.prod(interval[1] - interval[0])`. -/
def area (B : Box n K) : K := ∏ i, (B.hi i - B.lo i)

/-- The attributes of `IntervalData` used by `get_subintervals`. -/
structure Data (n : ℕ) (K : Type*) where
  methods : List Reduction
  results : List (String × Box n K)
  current_area : K
  polishing : Bool

/-- `track_interval`, lines 253-265. -/
def Data.track (D : Data n K) (name : String) (interval : Box n K) : Data n K :=
  { D with
    results := if D.polishing then D.results else D.results ++ [(name, interval)]
    current_area := D.current_area + area interval }

/-- `track_interval_bounded`, lines 267-280. -/
def Data.trackBounded (D : Data n K) (name : String) (interval bounding : Box n K) : Data n K :=
  { D with
    results := if D.polishing then D.results else D.results ++ [(name, interval)]
    current_area := D.current_area + (area interval - area bounding) }

/-- One pass of the loop over the checks, lines 212-219: the mask and `thrownOuts`. -/
def checkStep (la : LinAlg n K) (a b : Fin n → K) (st : ((Fin n → Bool) → Bool) × List (Box n K)) (p : Tensor n K × K) :
    ((Fin n → Bool) → Bool) × List (Box n K) :=
  let throwOut := fun spot => st.1 spot && quadraticCheck n la p.1 p.2 (subinterval spot)
  (fun spot => st.1 spot && !throwOut spot,
    st.2 ++ ((boolProduct n).filter throwOut).map fun spot => transformBox a b (subinterval spot))

/-- The loop over the checks, lines 207-219. -/
def runChecks (la : LinAlg n K) (a b : Fin n → K) (approx : List (Tensor n K × K)) :
    ((Fin n → Bool) → Bool) × List (Box n K) :=
  approx.foldl (checkStep la a b) (fun _ => true, [])

/-- `get_subintervals` from line 194 on (no bounding interval small enough). -/
def subdivide (la : LinAlg n K) (D : Data n K) (a b : Fin n → K) (approx : List (Tensor n K × K)) (checks : Bool)
    (bounding : Option (Box n K)) : List (Box n K) × Data n K :=
  let st := if checks then runChecks la a b approx else (fun _ => true, [])
  let mask := st.1
  let plain := (((boolProduct n).filter mask).map fun spot => transformBox a b (subinterval spot),
    st.2.foldl (fun D B => D.track "quadratic_check" B) D)
  match bounding with
  | none => plain
  | some B =>
    if area B < (((boolProduct n).filter mask).length : K) ∧ area B < 3 then
      ([transformBox a b B], D.trackBounded "getBoundingInterval" ⟨a, b⟩ (transformBox a b B))
    else plain

/-- `get_subintervals(a, b, polys, errors, runChecks)`, lines 157-228. -/
def getSubintervals (S : LinSolve n K) (la : LinAlg n K) (D : Data n K) (a b : Fin n → K) (approx : List (Tensor n K × K))
    (checks : Bool) : Except Failure (List (Box n K) × Data n K) :=
  match (if D.methods.length ≠ 0 then getBoundingInterval n S approx D.methods else .ok none) with
  | .error e => .error e
  | .ok none => .ok (subdivide la D a b approx checks none)
  | .ok (some B) =>
    if area B = 0 then .ok ([], D.trackBounded "getBoundingInterval" ⟨a, b⟩ (transformBox a b B))
    else if area B < 1 / 2 then
      .ok ([transformBox a b B], D.trackBounded "getBoundingInterval" ⟨a, b⟩ (transformBox a b B))
    else .ok (subdivide la D a b approx checks (some B))

end YRoots.Legacy
