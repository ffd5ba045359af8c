import Verif.Model.Bounding

/-!
# Model of zooming, trimming and the constant-term check

`/repo/yroots/ChebyshevSubdivisionSolver.py` lines 864-956, 1131-1171, 1213-1217.
-/

namespace YRoots

variable {n : ℕ} {K : Type*} [Field K] [LinearOrder K]

/-- Exceptions (and the model's own running out of fuel) as values. -/
inductive Exc where
  | outOfFuel
  | indexError
  | valueError
  deriving DecidableEq, Repr

/-- `transformChebToInterval(Ms, alphas, betas, errors, exact)`,
ChebyshevSubdivisionSolver.py lines 864-894. -/
def transformChebToInterval (Ms : Fin n → Tensor n K) (α β : Fin n → K) (errors : Fin n → K) (exact : Bool) :
    (Fin n → Tensor n K) × (Fin n → K) :=
  (fun i => (transformCheb (Ms i) α β (errors i) exact).1,
   fun i => (transformCheb (Ms i) α β (errors i) exact).2)

/-- What `zoomInOnIntervalIter` returns. -/
structure ZoomResult (n : ℕ) (K : Type*) where
  Ms : Fin n → Tensor n K
  errors : Fin n → K
  ti : TrackedInterval n K
  changed : Bool
  shouldStop : Bool

/-- Lines 932-935: do not zoom in dimensions in which the interval is already a point. -/
def skipPointDims (B sub : Box n K) : Box n K :=
  ⟨fun i => if B.lo i = B.hi i then -1 else sub.lo i,
   fun i => if B.lo i = B.hi i then 1 else sub.hi i⟩

/-- `zoomInOnIntervalIter(Ms, errors, trackedInterval, exact)`,
ChebyshevSubdivisionSolver.py lines 896-956.  The object `trackedInterval` is mutated and returned; the
model returns the new value. -/
def zoomInOnIntervalIter [FloorSemiring K] (svd : SVD n K) (Ms : Fin n → Tensor n K) (errors : Fin n → K)
    (ti : TrackedInterval n K) (exact : Bool) : Except Exc (ZoomResult n K) :=
  let r := boundingIntervalLinearSystem svd Ms errors ti.finalStep
  let interval := skipPointDims ti.interval r.interval
  -- "We can't throw out on the final step", lines 937-940
  let noThrow := r.throwOut && !ti.canThrowOut
  let throwOut := r.throwOut && !noThrow
  let changed := r.changed || noThrow
  let shouldStop := r.shouldStop || noThrow
  if throwOut then .ok ⟨Ms, errors, { ti with empty := true }, true, true⟩
  else if !changed then .ok ⟨Ms, errors, ti, changed, shouldStop⟩
  else
    let ti' := ti.addTransform interval
    match ti'.getLastTransform with
    | none => .error .indexError
    | some ab =>
      let p := transformChebToInterval Ms ab.1 ab.2 errors exact
      if ti'.finalStep && ti'.isPoint then .ok ⟨p.1, p.2, ti', false, true⟩
      else .ok ⟨p.1, p.2, ti', changed, shouldStop⟩

/-- The constant-term check of lines 1214-1217: `True` means the box is discarded. -/
def constantCheck (Ms : Fin n → Tensor n K) (errors : Fin n → K) : Bool :=
  decide (∃ i, |(Ms i).ravel 0| > (Ms i).absSum - |(Ms i).ravel 0| + errors i)

/-! ### Trimming -/

/-- `np.sum(np.abs(M[..., -1, ...]))` along axis `d`. -/
def Tensor.lastSum (M : Tensor n K) (d : Fin n) : K :=
  ∑ k ∈ M.idx.filter (fun k => k d = M.shape d - 1), |M.coef k|

/-- `M[..., :-1, ...]` along axis `d`. -/
def Tensor.dropLast (M : Tensor n K) (d : Fin n) : Tensor n K :=
  { M with shape := Function.update M.shape d (M.shape d - 1) }

/-- State of the trimming of one polynomial: the array, `allowedErrorIncrease`, `errors[polyNum]`. -/
structure TrimState (n : ℕ) (K : Type*) where
  M : Tensor n K
  allowed : K
  err : K

/-- The while loop of lines 1160-1169 along axis `d`. -/
def trimAxis (d : Fin n) (s : TrimState n K) : TrimState n K :=
  if h : s.M.lastSum d < s.allowed ∧ 3 < s.M.shape d then
    trimAxis d ⟨s.M.dropLast d, s.allowed - s.M.lastSum d, s.err + s.M.lastSum d⟩
  else s
termination_by s.M.shape d
decreasing_by
  simp only [Tensor.dropLast, Function.update_self]
  omega

/-- The body of the loop over polynomials, lines 1151-1171. -/
def trimPoly (M : Tensor n K) (error relTol absTol : K) : TrimState n K :=
  (List.finRange n).foldl (fun s d => trimAxis d s) ⟨M, absTol + error * relTol, error⟩

/-- `trimMs(Ms, errors, relApproxTol, absApproxTol)`, lines 1131-1171 (in place; the model returns the new
list and error vector). -/
def trimMs (Ms : Fin n → Tensor n K) (errors : Fin n → K) (relTol absTol : K) :
    (Fin n → Tensor n K) × (Fin n → K) :=
  (fun i => (trimPoly (Ms i) (errors i) relTol absTol).M,
   fun i => (trimPoly (Ms i) (errors i) relTol absTol).err)

end YRoots
