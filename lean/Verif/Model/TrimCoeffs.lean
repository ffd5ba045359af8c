import Verif.Model.MonCombos
import Verif.Model.Tensor

/-!
# Trimming to a triangular coefficient array (`subdivision.py`)

`coeff[slices]` with `slices = tuple(np.array(mons).T[:dim])` addresses the entries at the listed monomials.  For an empty
list of monomials `np.array([]).T[:dim]` is the empty array, `slices` is the empty tuple and `coeff[()]` is the whole
array; the model keeps this.
-/

namespace YRoots.Legacy

variable {n : ℕ} {K : Type*} [Field K] [LinearOrder K]

/-- `coeff.shape` as a list. -/
def shapeList (M : Tensor n K) : List ℕ := List.ofFn M.shape

/-- `np.sum(np.abs(coeff[slices]))`, `subdivision.py` lines 871-873 and 885-887. -/
def sliceSum (M : Tensor n K) (mons : List (List ℕ)) : K :=
  if mons = [] then M.absSum else (mons.map fun m => |M.coef fun i => m.getD i 0|).sum

/-- `coeff[slices] = 0`, `subdivision.py` lines 881 and 896. -/
def zeroAt (M : Tensor n K) (mons : List (List ℕ)) : Tensor n K :=
  { M with coef := fun k => if mons = [] ∨ List.ofFn k ∈ mons then 0 else M.coef k }

/-- `coeff[tuple([slice(0, deg+1)]*dim)]`, `subdivision.py` lines 891-892 and 899-900. -/
def truncate (M : Tensor n K) (deg : ℕ) : Tensor n K :=
  { M with shape := fun i => min (M.shape i) (deg + 1) }

/-- The list `initial_mons`, `subdivision.py` lines 866-870: all monomials of degree `shape[0]` to
`sum(shape) - dim - 1`. -/
def initialMons (M : Tensor n K) : List (List ℕ) :=
  (List.range' ((shapeList M).getD 0 0) (((shapeList M).sum - n - 1) + 1 - (shapeList M).getD 0 0)).flatMap fun deg =>
    monCombosLimitedWrap deg n (shapeList M)

/-- The loop `while deg > 1`, `subdivision.py` lines 884-901; `T` is the allowed error.  Returns the array and the
error. -/
def trimLoop (T : K) : ℕ → Tensor n K → K → Tensor n K × K
  | 0, M, err => (M, err)
  | 1, M, err => (M, err)
  | d + 2, M, err =>
    let mons := monCombosLimitedWrap (d + 2) n (shapeList M)
    let s := sliceSum M mons
    if T < s + err then
      (if d + 2 < (shapeList M).getD 0 0 - 1 then truncate M (d + 2) else M, err)
    else if d + 1 = 1 then (truncate (zeroAt M mons) 1, err + s)
    else trimLoop T (d + 1) (zeroAt M mons) (err + s)

/-- The body of the loop over the polynomials, `subdivision.py` lines 860-903, with `T = abs_approx_tol +
rel_approx_tol*inf_norms[num]`.  Returns the array, the error and whether the approximation was good. -/
def trimOne (T : K) (M : Tensor n K) (err : K) : Tensor n K × K × Bool :=
  let mons := initialMons M
  let s := sliceSum M mons
  if T < err + s then (M, err + s, false)
  else
    let r := trimLoop T ((shapeList M).getD 0 0 - 1) (zeroAt M mons) (err + s)
    (r.1, r.2, true)

/-- `trim_coeffs`, `subdivision.py` lines 833-905.  An entry of the list is a coefficient array, the norm and the error of
the approximation; the tolerances are numbers.  Returns the arrays with their errors and `good_approx`. -/
def trimCoeffs (absTol relTol : K) (l : List (Tensor n K × K × K)) : List (Tensor n K × K) × Bool :=
  let r := l.map fun p => trimOne (absTol + relTol * p.2.1) p.1 p.2.2
  (r.map fun q => (q.1, q.2.1), r.all fun q => q.2.2)

end YRoots.Legacy
