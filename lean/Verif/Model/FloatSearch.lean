import Verif.Model.FloatIter
import Verif.Model.FloatTrim
import Verif.Model.FloatInterval

/-!
# Subdivision and the search in floating-point arithmetic

`getSubdivisionDims` and `getSubdivisionIntervals`, `ChebyshevSubdivisionSolver.py` lines 1013-1129 with `exact=False`, and the part of
`solvePolyRecursive` that looks for the boxes at which the final step starts, lines 1200-1254 and 1300-1317, every operation rounded.  Overflow, underflow and `nan` are
left out.
-/

namespace YRoots

variable {n : ℕ} {K : Type*} [Field K] [LinearOrder K]

/-- `np.isclose(a, b)` with default tolerances, rounded (see `npIsclose`). -/
def npIscloseF (fl : K → K) (a b : K) : Bool :=
  decide (|fl (a - b)| ≤ fl (fl (1 / 10 ^ 8) + fl (fl (1 / 10 ^ 5) * |b|)))

/-- Lines 1031-1035, rounded (see `considerDims`). -/
def considerDimsF (fl : K → K) (B : Box n K) : List (Fin n) :=
  (List.finRange n).foldl (fun dims i =>
    if npIscloseF fl (B.lo i) (B.hi i) then (if dims.length ≠ 1 then dims.erase i else dims) else dims)
    (List.finRange n)

/-- Lines 1039-1041, rounded (see `longDims`). -/
def longDimsF (fl : K → K) (B : Box n K) (dims : List (Fin n)) : List (Fin n) :=
  let len := fun i => fl (B.hi i - B.lo i)
  let m := listMax (dims.map len)
  dims.filter fun i => decide (len i > fl (m / 5))

/-- `getSubdivisionDims(Ms, trackedInterval, level)`, lines 1013-1049, rounded.  The sums of degrees are integers; their quotient in line 1047 is only used
rounded down (see `degreeDims`). -/
def getSubdivisionDimsF (fl : K → K) (argsort : List ℕ → List ℕ) (Ms : Fin n → Tensor n K) (ti : TrackedInterval n K) (level : ℕ) :
    Fin n → List (Fin n) :=
  let dims := considerDimsF fl ti.interval
  let dims := if level > 5 then dims else degreeDims Ms (longDimsF fl ti.interval dims)
  fun i => sortDims argsort (Ms i) dims

/-- One half of a polynomial with its error, lines 1088-1097, rounded. -/
def splitPolyF (ar : FloatArith K) (mid : Fin n → K) (d : Fin n) (right : Bool) (p : Tensor n K × K) : Tensor n K × K :=
  let α := ar.fl (ar.fl (mid d + 1) / 2)
  let β := ar.fl (ar.fl (mid d - 1) / 2)
  (if right then transformNDF ar.fl p.1 d (-β) α else transformNDF ar.fl p.1 d α β,
   ar.fl (getTransformationErrorF ar p.1 d + p.2))

/-- Children of one polynomial, lines 1086-1107, rounded (see `polyChildren`). -/
def polyChildrenF (ar : FloatArith K) (mid : Fin n → K) (M : Tensor n K) (error : K) (order : List (Fin n)) :
    Except Exc (List (Tensor n K × K)) :=
  let curr := splitAll (splitPolyF ar mid) order [(M, error)]
  if n = 1 then .ok curr
  else if order = [] then .error .indexError
  else pick curr (getInverseOrder (order.map (·.1)))

/-- `getSubdivisionIntervals(Ms, errors, trackedInterval, False, level)`, lines 1051-1129, rounded (see `getSubdivisionIntervals`). -/
def getSubdivisionIntervalsF (ar : FloatArith K) (argsort : List ℕ → List ℕ) (setIter : Finset (Fin n) → List (Fin n))
    (Ms : Fin n → Tensor n K) (errors : Fin n → K) (ti : TrackedInterval n K) (level : ℕ) : Except Exc (List (Child n K)) :=
  let orders := getSubdivisionDimsF ar.fl argsort Ms ti level
  let dimSet : Finset (Fin n) := Finset.univ.biUnion fun i => (orders i).toFinset
  if ∃ i, dimSet.card ≠ (orders i).length then .error .valueError
  else do
    let allP ← (List.finRange n).mapM fun i => polyChildrenF ar ti.nextTransformPoints (Ms i) (errors i) (orders i)
    let tis := splitAll (TrackedInterval.splitIntervalF ar.fl ti.nextTransformPoints) (setIter dimSet) [ti]
    zipChildren allP tis

/-- `isPoint`, lines 558-560, rounded. -/
def TrackedInterval.isPointF (fl : K → K) (t : TrackedInterval n K) : Bool :=
  decide (∀ i, |fl (t.interval.lo i - t.interval.hi i)| < fl (1 / 10 ^ 32))

/-- `TrackedInterval(interval)`, lines 405-414: the decimal constant of line 414 is rounded. -/
def TrackedInterval.newF (fl : K → K) (interval : Box n K) : TrackedInterval n K :=
  { TrackedInterval.new interval with nextTransformPoints := fun _ => fl splitPoint }

variable [FloorSemiring K]

/-- `solvePolyRecursive` (lines 1177-1385) up to the final step, with the default options and `exact=False`, rounded: the boxes at which the search
stops, that is, the points of lines 1202-1203 and the boxes for which `should_stop` is set (line 1254), each with its polynomials and errors.  `quad` is the
quadratic check of lines 1221-1224.  Left out are the final step and the boxes that lines 1318-1385 combine and search again; they are built from the boxes
returned here.  `zoomFuel` bounds the number of zooms of one call. -/
def searchF (ar : FloatArith K) (svd : SvdF n K) (quad : (Fin n → Tensor n K) → (Fin n → K) → Bool) (argsort : List ℕ → List ℕ)
    (setIter : Finset (Fin n) → List (Fin n)) (zoomFuel : ℕ) :
    ℕ → ℕ → (Fin n → Tensor n K) → (Fin n → K) → TrackedInterval n K → Except Exc (List (Child n K))
  | 0, _, _, _, _ => .error .outOfFuel
  | fuel + 1, level, Ms, errors, ti =>
    if ti.isPointF ar.fl then .ok [⟨Ms, errors, ti⟩]
    else if constantCheckF ar Ms errors then .ok []
    else if quad Ms errors then .ok []
    else
      let tr := trimMsF ar Ms errors
      match zoomLoopF ar svd 25 zoomFuel tr.1 tr.2 ti.copy (fun i => ar.fl (ti.copy.dimSize i)) 0 with
      | .error e => .error e
      | .ok z =>
        if z.ti.empty then .ok []
        else if z.shouldStop then .ok [⟨z.Ms, z.errors, z.ti⟩]
        else
          match getSubdivisionIntervalsF ar argsort setIter z.Ms z.errors z.ti (level + 1) with
          | .error e => .error e
          | .ok cs =>
            match cs.mapM fun c => searchF ar svd quad argsort setIter zoomFuel fuel (level + 1) c.Ms c.errors c.ti with
            | .error e => .error e
            | .ok rs => .ok rs.flatten

end YRoots
