import Verif.Model.Combine
import Verif.Model.FloatInterval

/-!
# Combining touching boxes in floating-point arithmetic

`ChebyshevSubdivisionSolver.py` lines 1318-1365, every operation rounded by `fl`.  Minima, maxima, comparisons and doubling are exact.  Overflow, underflow
and `nan` are left out.
-/

namespace YRoots

variable {n : ℕ} {K : Type*} [Field K] [LinearOrder K]

/-- One entry of the quotient of line 1347, rounded: `(2*x - a - b) / (b - a)`, from left to right. -/
def localCoordF (fl : K → K) (a b x : K) : K := fl (fl (fl (fl (2 * x) - a) - b) / fl (b - a))

/-- `currSubinterval`, lines 1340-1352, rounded (see `combinedSub`). -/
def combinedSubF (fl : K → K) (oldI oldFinal newI newFinal : Box n K) : Box n K :=
  let eq := fun i => oldFinal.hi i = oldFinal.lo i
  let oldHi := fun i => if eq i then fl (oldFinal.hi i + 1) else oldFinal.hi i
  ⟨fun i => if oldI.lo i = newI.lo i then -1 else if eq i then -1 else localCoordF fl (oldFinal.lo i) (oldHi i) (newFinal.lo i),
   fun i => if oldI.hi i = newI.hi i then 1 else if eq i then 1 else localCoordF fl (oldFinal.lo i) (oldHi i) (newFinal.hi i)⟩

/-- The combined interval of lines 1330-1357, rounded (see `combineIntervals`). -/
def combineIntervalsF (fl : K → K) (orig r1 r2 : TrackedInterval n K) : TrackedInterval n K :=
  let c := orig.copy
  let c := if c.finalStep then { c with interval := c.preFinalInterval, transforms := c.preFinalTransforms } else c
  let newI := Box.hull r1.getIntervalForCombining r2.getIntervalForCombining
  let newFinal := Box.hull (r1.getFinalIntervalF fl) (r2.getFinalIntervalF fl)
  let c := c.addTransformF fl (combinedSubF fl orig.interval (orig.getFinalIntervalF fl) newI newFinal)
  { c with interval := newI, reRun := true }

/-- Lines 1319-1365, rounded (see `combineExterior`). -/
def combineExteriorF (fl : K → K) (orig : TrackedInterval n K) (l : List (TrackedInterval n K)) :
    Except Exc (List (TrackedInterval n K)) :=
  combineAll TrackedInterval.overlapsWith (combineIntervalsF fl orig) (l.map fun t => { t with reRun := false })

end YRoots
