import Verif.Model.Subdivide
import Verif.Model.Float

/-!
# Interval tracking in floating-point arithmetic

`TrackedInterval.addTransform`, `getFinalInterval`, `getFinalPoint` and the halves of an interval, `ChebyshevSubdivisionSolver.py` lines
420-514 and 1113-1127, and `transform` of `ChebyshevApproximator.py`, with every operation rounded by `fl`.  Overflow and underflow are left out.
-/

namespace YRoots

namespace TrackedInterval

variable {n : ℕ} {K : Type*} [Field K] [LinearOrder K]

/-- One dimension of the loop of lines 445-454, rounded (see `stepBounds`). -/
def stepBoundsF (fl : K → K) (lo hi x0 x1 : K) : K × K :=
  let α2 := fl (fl (hi - lo) / 2)
  let β2 := fl (fl (hi + lo) / 2)
  let lo' := if x0 = -1 then lo else if x0 = 1 then hi else fl (fl (α2 * x0) + β2)
  let hi' := if x1 = -1 then lo' else if x1 = 1 then hi else fl (fl (α2 * x1) + β2)
  (lo', hi')

/-- The part of `addTransform` after the emptiness test, lines 438-454, rounded. -/
def applySubF (fl : K → K) (t : TrackedInterval n K) (sub : Box n K) : TrackedInterval n K :=
  { t with
    transforms := t.transforms ++
      [(fun i => fl (fl (sub.hi i - sub.lo i) / 2), fun i => fl (fl (sub.hi i + sub.lo i) / 2))]
    interval :=
      ⟨fun i => (stepBoundsF fl (t.interval.lo i) (t.interval.hi i) (sub.lo i) (sub.hi i)).1,
       fun i => (stepBoundsF fl (t.interval.lo i) (t.interval.hi i) (sub.lo i) (sub.hi i)).2⟩ }

/-- `addTransform(subInterval)`, lines 420-454, rounded. -/
def addTransformF (fl : K → K) (t : TrackedInterval n K) (sub : Box n K) : TrackedInterval n K :=
  if (∃ i, sub.lo i > sub.hi i) ∧ t.canThrowOut then { t with empty := true }
  else if ∃ i, sub.lo i > sub.hi i then t.applySubF fl (clampSub sub)
  else t.applySubF fl sub

/-- The loop of lines 476-480 (= 507-511) for one bound, rounded: `(value, error)`. -/
def replayStepF (fl : K → K) (α β : K) (p : K × K) : K × K :=
  let m := twoProdF fl p.1 α
  let e := fl (fl (α * p.2) + m.2)
  let s := twoSumF fl m.1 β
  (s.1, fl (e + s.2))

/-- Apply recorded transforms, last one first, to a bound of the top interval and add up value and error (lines 473-484, 504-512), rounded. -/
def replayF (fl : K → K) (tr : List (AffTr n K)) (i : Fin n) (v : K) : K :=
  let p := tr.foldr (fun ab p => replayStepF fl (ab.1 i) (ab.2 i) p) (v, 0)
  fl (p.1 + p.2)

/-- `getFinalInterval`, lines 460-489, rounded. -/
def getFinalIntervalF (fl : K → K) (t : TrackedInterval n K) : Box n K :=
  let tr := if t.finalStep then t.preFinalTransforms else t.transforms
  ⟨fun i => replayF fl tr i (t.topInterval.lo i), fun i => replayF fl tr i (t.topInterval.hi i)⟩

/-- `getFinalPoint`, lines 491-514, rounded (called after `getFinalInterval`, or in the final step). -/
def getFinalPointF (fl : K → K) (t : TrackedInterval n K) : Fin n → K :=
  if !t.finalStep then fun i => fl (fl ((t.getFinalIntervalF fl).lo i + (t.getFinalIntervalF fl).hi i) / 2)
  else fun i => fl (fl (replayF fl t.transforms i (t.topInterval.lo i) + replayF fl t.transforms i (t.topInterval.hi i)) / 2)

/-- One half of an interval, lines 1113-1127, rounded (see `splitInterval`). -/
def splitIntervalF (fl : K → K) (mid : Fin n → K) (d : Fin n) (right : Bool) (t : TrackedInterval n K) : TrackedInterval n K :=
  let sub : Box n K :=
    if right then ⟨Function.update (fun _ => -1) d (mid d), fun _ => 1⟩
    else ⟨fun _ => -1, Function.update (fun _ => 1) d (mid d)⟩
  let t' := t.copy.addTransformF fl sub
  { t' with nextTransformPoints := Function.update t'.nextTransformPoints d 0 }

end TrackedInterval

/-- `transform(x, a, b)`, ChebyshevApproximator.py lines 9-26, rounded; it takes the reported points and boxes to the coordinates of the user
(Combined_Solver.py lines 173, 185-190). -/
def transformPtF {n : ℕ} {K : Type*} [Field K] (fl : K → K) (x a b : Fin n → K) : Fin n → K :=
  fun i => fl (fl (fl (fl (b i - a i) * x i) + fl (b i + a i)) / 2)

end YRoots
