import Verif.Model.Solve
import Mathlib.Analysis.SpecialFunctions.Trigonometric.Basic
import Mathlib.Analysis.SpecialFunctions.Pow.Real

/-!
# Model of the Chebyshev approximator

`/repo/yroots/ChebyshevApproximator.py`, over the reals (exact arithmetic; decimal literals have their decimal
value).  A function argument is its mathematical function: for `MultiCheb`, `MultiPower` objects the calls return
the value of the polynomial (C33).  Array arguments that are changed in place (`degs`) are returned.
-/

namespace YRoots

variable {n : ℕ}

open scoped Classical in
/-- A proposition as a Boolean (comparisons of reals are decidable only classically). -/
noncomputable abbrev test (p : Prop) : Bool := decide p

/-- `np.cos(np.arange(deg+1)*np.pi/deg)[j]`, line 60. -/
noncomputable def chebPt (deg j : ℕ) : ℝ := Real.cos (j * Real.pi / deg)

/-- The grid point with index `j`, lines 60-62. -/
noncomputable def gridPt (degs : Fin n → ℕ) (a b : Fin n → ℝ) (j : Fin n → ℕ) : Fin n → ℝ :=
  transformPt (fun i => chebPt (degs i) (j i)) a b

/-- External: kernel of `scipy.fftpack.dct(x, type=1)` on `N + 1` values,
`y_k = x_0 + (-1)^k x_N + 2 sum_{0<j<N} x_j cos(pi k j / N)`. -/
noncomputable def dctKernel (N k j : ℕ) : ℝ :=
  if j = 0 then 1 else if j = N then (-1) ^ k else 2 * Real.cos (Real.pi * k * j / N)

/-- External: `scipy.fftpack.dctn(x, type=1)`, the type 1 transform along every axis; axis `i` has `N i + 1` entries. -/
noncomputable def dctn (N : Fin n → ℕ) (x : (Fin n → ℕ) → ℝ) (k : Fin n → ℕ) : ℝ :=
  ∑ j ∈ Fintype.piFinset fun i => Finset.range (N i + 1), x j * ∏ i, dctKernel (N i) (k i) (j i)

/-- The loop of lines 81-83: halve the entries with first, then those with last index along each axis. -/
noncomputable def halveEdges (degs : Fin n → ℕ) (c : (Fin n → ℕ) → ℝ) : (Fin n → ℕ) → ℝ :=
  (List.finRange n).foldl (fun c d =>
    let c := fun k => if k d = 0 then c k / 2 else c k
    fun k => if k d = degs d then c k / 2 else c k) c

/-- What `interval_approximate_nd` returns, and the array `degs` it has changed. -/
structure ApproxResult (n : ℕ) where
  coeffs : Tensor n ℝ
  supNorm : ℝ
  degs : Fin n → ℕ

/-- `degs[degs == 0] = 1`, line 57. -/
def bumpDegs (degs : Fin n → ℕ) : Fin n → ℕ := fun i => if degs i = 0 then 1 else degs i

/-- `interval_approximate_nd(f, degs, a, b, retSupNorm)`, lines 28-90. -/
noncomputable def intervalApproximate (f : (Fin n → ℝ) → ℝ) (degs : Fin n → ℕ) (a b : Fin n → ℝ) : ApproxResult n :=
  let originalDegs := degs
  let degs := bumpDegs degs
  let values := fun j => f (gridPt degs a b j)
  let grid := Fintype.piFinset fun i => Finset.range (degs i + 1)
  let supNorm := grid.toList.foldl (fun m j => max m |values j|) 0
  let coeffs := dctn degs fun j => values j / ∏ i, (degs i : ℝ)
  { coeffs := ⟨fun i => originalDegs i + 1, halveEdges degs coeffs⟩, supNorm := supNorm, degs := degs }

/-- `np.average(np.abs(coeff), axis=tupleForChunk)[k]`, lines 285, 304. -/
noncomputable def coeffChunk (M : Tensor n ℝ) (d : Fin n) (k : ℕ) : ℝ :=
  (∑ j ∈ M.idx.filter (fun j => j d = k), |M.coef j|) / ∏ i ∈ Finset.univ.erase d, (M.shape i : ℝ)

/-- `startedConverging(coeffList, tol)`, lines 91-106, on a list of length `len`. -/
noncomputable def startedConverging (len : ℕ) (c : ℕ → ℝ) (tol : ℝ) : Bool :=
  test (∀ k, len - 5 ≤ k → k < len → c k < tol)

/-- `hasConverged(coeff, coeff2, tol)`, lines 108-129. -/
noncomputable def hasConverged (M M2 : Tensor n ℝ) (tol : ℝ) : Bool :=
  let coeff3 := fun k => if ∀ i, k i < M.shape i then M2.coef k - M.coef k else M2.coef k
  test (∀ k ∈ M2.idx, |coeff3 k| < tol)

/-- `np.argmax` on a list of length `len` (first index of the largest entry). -/
noncomputable def argmax (len : ℕ) (c : ℕ → ℝ) : ℕ :=
  (List.range len).foldl (fun m k => if c k > c m then k else m) 0

/-- What `getFinalDegree` returns. -/
structure FinalDegree where
  degree : ℕ
  epsVal : ℝ
  rho : ℝ

/-- `getFinalDegree(coeff, tol)`, lines 131-172, on a list of length `len`.  The exponent `1/((degree-maxSpot)+1)` is
an integer division by a possibly vanishing number; numpy then gives an infinite exponent, the model exponent 0. -/
noncomputable def getFinalDegree (len : ℕ) (c : ℕ → ℝ) (tol : ℝ) : FinalDegree :=
  let convergedDeg := 3 * (len - 1) / 4
  let epsVal : ℝ := 2 * (List.range' convergedDeg (len - convergedDeg)).foldl (fun m k => max m (c k)) (macheps : ℝ)
  let nonZeroCoeffs := (List.range len).filter fun k => test (c k > epsVal)
  let degree := match nonZeroCoeffs.getLast? with
    | none => 1
    | some k => max 1 k
  let degree := if test (∀ k, 1 ≤ k → k < len → c k < tol) then 0 else degree
  let maxSpot := argmax len c
  let epsVal := if epsVal = 0 then c maxSpot * (1 / 10 ^ 24) else epsVal
  { degree := degree, epsVal := epsVal
    rho := (c maxSpot / epsVal) ^ ((1 : ℝ) / (((degree : ℝ) - maxSpot) + 1)) }

/-- `np.isclose(x, y, rtol, atol)`. -/
def isCloseTol (rtol atol x y : ℝ) : Prop := |x - y| ≤ atol + rtol * |y|

/-- The points along the dimension tested first, line 211. -/
noncomputable def testVals1 : List ℝ :=
  [-7996847717584993 / 10 ^ 16, 18546110255464776 / 10 ^ 17, -13975937255055182 / 10 ^ 17, 0, 1, -1]

/-- The points along the dimension tested second, line 222. -/
noncomputable def testVals2 : List ℝ :=
  [-17223860129797386 / 10 ^ 17, 10828286380141305 / 10 ^ 17, -5333148248321931 / 10 ^ 16, 46471703497219596 / 10 ^ 17]

/-- `transform(val, a, b)` in one dimension. -/
noncomputable def transform1 (x a b : ℝ) : ℝ := ((b - a) * x + (b + a)) / 2

/-- One of the two tests of `checkConstantInDimension`, lines 205-215 and 218-225: from the base point `x`. -/
noncomputable def constantAlong (f : (Fin n → ℝ) → ℝ) (a b : Fin n → ℝ) (d : Fin n) (rtol atol : ℝ) (x : Fin n → ℝ)
    (vals : List ℝ) : Bool :=
  !test (isCloseTol rtol atol (f x) 0) &&
    test (∀ v ∈ vals, isCloseTol rtol atol (f x) (f (Function.update x d (transform1 v (a d) (b d)))))

/-- `checkConstantInDimension(f, a, b, currDim, relApproxTol, absApproxTol)`, lines 174-226. -/
noncomputable def checkConstantInDimension (f : (Fin n → ℝ) → ℝ) (a b : Fin n → ℝ) (d : Fin n) (rtol atol : ℝ) : Bool :=
  let x1 := transformPt (fun i : Fin n => (8984743990614998 / 10 ^ 16 : ℝ) ^ (i.1 + 1)) a b
  let x2 := transformPt (fun i : Fin n => (-(2598647169391334 / 10 ^ 16) * ((i.1 : ℝ) + 1) / n : ℝ) ^ 2) a b
  constantAlong f a b d rtol atol x1 testVals1 && constantAlong f a b d rtol atol x2 testVals2

/-- The loop of lines 278-309 for one dimension; the warning of lines 279-283 is left out. -/
noncomputable def degreeLoop (f : (Fin n → ℝ) → ℝ) (a b : Fin n → ℝ) (rtol atol : ℝ) (d : Fin n) :
    ℕ → (Fin n → ℕ) → ℕ → Except Exc FinalDegree
  | 0, _, _ => .error .outOfFuel
  | fuel + 1, degs, currGuess =>
    let r := intervalApproximate f (Function.update degs d currGuess) a b
    let tol := atol + r.supNorm * rtol
    if !startedConverging (r.coeffs.shape d) (coeffChunk r.coeffs d) tol then
      degreeLoop f a b rtol atol d fuel r.degs (currGuess * 2)
    else
      let r2 := intervalApproximate f (Function.update r.degs d (currGuess * 2 + 1)) a b
      let tol := atol + max r.supNorm r2.supNorm * rtol
      if !hasConverged r.coeffs r2.coeffs tol then degreeLoop f a b rtol atol d fuel r2.degs (currGuess * 2)
      else .ok (getFinalDegree (r2.coeffs.shape d) (coeffChunk r2.coeffs d) tol)

/-- The state of the loop of lines 266-309: `chebDegrees` (`none` is `np.inf`), `epsilons`, `rhos` (`⊤` is `np.inf`).
The two lists get their entries in the order of the dimensions, one for each. -/
structure DegState (n : ℕ) where
  degs : Fin n → Option ℕ
  epsilons : Fin n → ℝ
  rhos : Fin n → WithTop ℝ

/-- The degrees fixed in the other dimensions, lines 272-275. -/
def fixedDegs (s : DegState n) : Fin n → ℕ := fun i =>
  let d0 := if n ≤ 5 then 5 else 2
  match s.degs i with
  | none => d0
  | some k => if k < d0 then k else d0

/-- The body of the loop of lines 266-309. -/
noncomputable def degStep (f : (Fin n → ℝ) → ℝ) (a b : Fin n → ℝ) (rtol atol : ℝ) (fuel : ℕ) (s : DegState n)
    (d : Fin n) : Except Exc (DegState n) :=
  if s.degs d = some 0 then
    .ok { s with epsilons := Function.update s.epsilons d 0, rhos := Function.update s.rhos d ⊤ }
  else
    match degreeLoop f a b rtol atol d fuel (fixedDegs s) 8 with
    | .error e => .error e
    | .ok r => .ok ⟨Function.update s.degs d (some r.degree), Function.update s.epsilons d r.epsVal,
        Function.update s.rhos d (r.rho : WithTop ℝ)⟩

/-- `getChebyshevDegrees(f, a, b, relApproxTol, absApproxTol)`, lines 228-311. -/
noncomputable def getChebyshevDegrees (f : (Fin n → ℝ) → ℝ) (a b : Fin n → ℝ) (rtol atol : ℝ) (fuel : ℕ) :
    Except Exc (DegState n) :=
  let s : DegState n :=
    ⟨fun d => if checkConstantInDimension f a b d rtol atol then some 0 else none, fun _ => 0, fun _ => ⊤⟩
  (List.finRange n).foldlM (degStep f a b rtol atol fuel) s

section Error

variable {K : Type*} [Field K] [LinearOrder K]

/-- `1/(rho - 1)`, with `1/(inf - 1) = 0`. -/
def tailFactor : WithTop K → K
  | ⊤ => 0
  | (r : K) => 1 / (r - 1)

/-- One pass of the loop of lines 337-355: the product `s` and `thisEps`. -/
def errorTerm (degs : Fin n → ℕ) (epsilons : Fin n → K) (rhos : Fin n → WithTop K) (idxs : Fin n → Bool) : K :=
  let p := (List.finRange n).foldl (fun (p : K × K) i =>
    if idxs i then (p.1 * tailFactor (rhos i), max p.2 (epsilons i)) else (p.1 * (degs i + 1), p.2)) (1, 0)
  p.1 * p.2

/-- `getApproxError(degs, epsilons, rhos)`, lines 313-356. -/
def getApproxError (degs : Fin n → ℕ) (epsilons : Fin n → K) (rhos : Fin n → WithTop K) : K :=
  (boolProduct n).foldl (fun e idxs => if ∀ i, idxs i = false then e else e + errorTerm degs epsilons rhos idxs) 0

end Error

/-- `chebApproximate(f, a, b, relApproxTol=1e-10)`, lines 358-450: coefficients and error.  The input tests of lines
424-442 other than `b < a` are excluded by typing.  `interval_approximate_nd` changes `degs` before `getApproxError`
reads it (line 450). -/
noncomputable def chebApproximate (fuel : ℕ) (f : (Fin n → ℝ) → ℝ) (a b : Fin n → ℝ) (rtol : ℝ := 1 / 10 ^ 10) :
    Except Exc (Tensor n ℝ × ℝ) :=
  if ∃ i, b i < a i then .error .valueError
  else
    match getChebyshevDegrees f a b rtol 0 fuel with
    | .error e => .error e
    | .ok s =>
      let r := intervalApproximate f (fun i => (s.degs i).getD 0) a b
      .ok (r.coeffs, getApproxError r.degs s.epsilons s.rhos)

end YRoots
