import Verif.Model.Solver

/-!
# Model of the dtype of the coefficient arrays

`Polynomial.__init__` (`/repo/yroots/polynomial.py` lines 92-115) keeps integer arrays as integers, `solve`
(`/repo/yroots/Combined_Solver.py` lines 122-124) hands `funcs[i].coeff` to the solver as it is, and
`BoundingIntervalLinearSystem` divides in place.  This file tracks dtypes up to the first call of that function, the
first place where they matter.  (Later, `TransformChebInPlace1D` would truncate to integers, since `np.zeros_like` keeps
the dtype; this is not modelled: after the first bounding step the model is the one for floats.)
-/

namespace YRoots

variable {n : ℕ} {K : Type*}

/-- Dtypes of arrays of reals. -/
inductive DType where
  | int
  | float
  deriving DecidableEq

/-- Exceptions, with numpy's `UFuncTypeError` for an in-place operation whose result does not fit the dtype. -/
inductive DExc where
  | ufuncTypeError
  | other (e : Exc)
  deriving DecidableEq

section

variable [Field K] [LinearOrder K]

/-- The dtype of `A = np.array([getLinearTerms(M) for M in Ms])`, line 659 with lines 601-607: `float` if some entry is a
float; entries are the literal integer 0 where the axis has length 1, otherwise elements of `M`. -/
def linTermsDtype (dts : Fin n → DType) (Ms : Fin n → Tensor n K) : DType :=
  if ∃ i j, (Ms i).shape j ≠ 1 ∧ dts i = .float then .float else .int

/-- `BoundingIntervalLinearSystem` with dtypes: `A[i] /= s`, line 673, is reached if row `i` has a nonzero entry, and
raises if `A` is an integer array. -/
def boundingD [FloorSemiring K] (svd : SVD n K) (dts : Fin n → DType) (Ms : Fin n → Tensor n K) (errors : Fin n → K)
    (finalStep : Bool) : Except DExc (BoundResult n K) :=
  if linTermsDtype dts Ms = .int ∧ ∃ i, maxAbs (fun j : Fin n => (getLinearTerms (Ms i)).getD j 0) > 0 then
    .error .ufuncTypeError
  else .ok (boundingIntervalLinearSystem svd Ms errors finalStep)

/-- `solvePolyRecursive`, lines 1177-1385, with dtypes up to the first call of `BoundingIntervalLinearSystem`. -/
def solvePolyRecursiveD [FloorSemiring K] (env : Env n K) (fuel : ℕ) (opts : Opts) (dts : Fin n → DType)
    (Ms : Fin n → Tensor n K) (ti : TrackedInterval n K) (errors : Fin n → K) : Except DExc (Boxes n K) :=
  let floats := match solvePolyRecursive env fuel opts Ms ti errors with
    | .error e => .error (.other e)
    | .ok b => .ok b
  if ti.isPoint then floats
  else if opts.constant_check && constantCheck Ms errors then floats
  else if quadraticDiscard env opts Ms errors then floats
  else
    let tr := trimMs Ms errors (1 / 10 ^ 3) 0
    match boundingD env.svd dts tr.1 tr.2 ti.finalStep with
    | .error e => .error e
    | .ok _ => floats

/-- `solveChebyshevSubdivision`, lines 1387-1464, with dtypes. -/
def solveChebyshevSubdivisionD [FloorSemiring K] (env : Env n K) (fuel : ℕ) (dts : Fin n → DType)
    (Ms : Fin n → Tensor n K) (errors : Fin n → K) (exact : Bool) :
    Except DExc (List (Fin n → K) × List (TrackedInterval n K)) :=
  match solvePolyRecursiveD env fuel ⟨exact, true, true, false, 25, 0, true⟩ dts Ms
      (TrackedInterval.new (Box.unit n K)) errors with
  | .error e => .error e
  | .ok b => .ok ((b.1 ++ b.2).flatMap reportedRoots, b.1 ++ b.2)

end

end YRoots
