import Verif.Model.Transform
import Mathlib.Data.Fintype.Basic
import Mathlib.Order.Interval.Set.Basic

/-!
# Model of `TrackedInterval`

`/repo/yroots/ChebyshevSubdivisionSolver.py` lines 376-576.  Value semantics (aliasing is treated
separately in `Verif.Model.Heap`); exact arithmetic.  Attributes that are only set by a later method call
(`preFinalInterval`, `preFinalTransforms`, `reRun`) are ordinary fields with an arbitrary initial
value; no method reads them before they are set.  The unused attributes `finalAlpha`, `finalBeta` are left
out; `finalInterval` and `root` are results of `getFinalInterval`, `getFinalPoint`.
-/

namespace YRoots

/-- An interval array of shape `(n, 2)`: lower and upper bounds. -/
@[ext]
structure Box (n : ℕ) (K : Type*) where
  lo : Fin n → K
  hi : Fin n → K

namespace Box

variable {n : ℕ} {K : Type*}

/-- Specification: the points of a box. -/
def Mem [LE K] (x : Fin n → K) (B : Box n K) : Prop := ∀ i, B.lo i ≤ x i ∧ x i ≤ B.hi i

/-- `[-1,1]^n`. -/
def unit (n : ℕ) (K : Type*) [Ring K] : Box n K := ⟨fun _ => -1, fun _ => 1⟩

/-- Specification: the affine map sending `[-1,1]^n` onto a box. -/
def map [Field K] (B : Box n K) (x : Fin n → K) : Fin n → K :=
  fun i => (B.hi i - B.lo i) / 2 * x i + (B.hi i + B.lo i) / 2

/-- Specification: lower bounds do not exceed upper bounds. -/
def Ordered [LE K] (B : Box n K) : Prop := ∀ i, B.lo i ≤ B.hi i

/-- Specification: inclusion of boxes, by bounds. -/
def Within [LE K] (B C : Box n K) : Prop := ∀ i, C.lo i ≤ B.lo i ∧ B.hi i ≤ C.hi i

end Box

/-- One recorded transform: `np.array([alpha, beta])`. -/
abbrev AffTr (n : ℕ) (K : Type*) := (Fin n → K) × (Fin n → K)

/-- `TrackedInterval`, ChebyshevSubdivisionSolver.py lines 376-414. -/
structure TrackedInterval (n : ℕ) (K : Type*) where
  topInterval : Box n K
  interval : Box n K
  transforms : List (AffTr n K)
  empty : Bool
  finalStep : Bool
  canThrowOutFinalStep : Bool
  possibleDuplicateRoots : List (Fin n → K)
  possibleExtraRoot : Bool
  nextTransformPoints : Fin n → K
  preFinalInterval : Box n K
  preFinalTransforms : List (AffTr n K)
  reRun : Bool

namespace TrackedInterval

variable {n : ℕ} {K : Type*} [Field K] [LinearOrder K]

/-- The default split point of line 414. -/
def splitPoint : K := 394555475981047 / 10 ^ 16

/-- `__init__`, lines 404-414. -/
def new (interval : Box n K) : TrackedInterval n K where
  topInterval := interval
  interval := interval
  transforms := []
  empty := false
  finalStep := false
  canThrowOutFinalStep := false
  possibleDuplicateRoots := []
  possibleExtraRoot := false
  nextTransformPoints := fun _ => splitPoint
  preFinalInterval := interval
  preFinalTransforms := []
  reRun := false

/-- `canThrowOut`, lines 416-418. -/
def canThrowOut (t : TrackedInterval n K) : Bool := !t.finalStep || t.canThrowOutFinalStep

/-- The clamping of lines 434-437. -/
def clampSub (sub : Box n K) : Box n K :=
  let lo := fun i => max (min (sub.lo i) 1) (-1)
  ⟨lo, fun i => max (min (sub.hi i) 1) (lo i)⟩

/-- One dimension of the loop of lines 445-454.  The lower bound is written first, so the case
`x == -1` of the upper bound reads the *new* lower bound. -/
def stepBounds (lo hi x0 x1 : K) : K × K :=
  let α2 := (hi - lo) / 2
  let β2 := (hi + lo) / 2
  let lo' := if x0 = -1 then lo else if x0 = 1 then hi else α2 * x0 + β2
  let hi' := if x1 = -1 then lo' else if x1 = 1 then hi else α2 * x1 + β2
  (lo', hi')

/-- The part of `addTransform` after the emptiness test, lines 438-454. -/
def applySub (t : TrackedInterval n K) (sub : Box n K) : TrackedInterval n K :=
  { t with
    transforms := t.transforms ++
      [(fun i => (sub.hi i - sub.lo i) / 2, fun i => (sub.hi i + sub.lo i) / 2)]
    interval :=
      ⟨fun i => (stepBounds (t.interval.lo i) (t.interval.hi i) (sub.lo i) (sub.hi i)).1,
       fun i => (stepBounds (t.interval.lo i) (t.interval.hi i) (sub.lo i) (sub.hi i)).2⟩ }

/-- `addTransform(subInterval)`, lines 420-454. -/
def addTransform (t : TrackedInterval n K) (sub : Box n K) : TrackedInterval n K :=
  if (∃ i, sub.lo i > sub.hi i) ∧ t.canThrowOut then { t with empty := true }
  else if ∃ i, sub.lo i > sub.hi i then t.applySub (clampSub sub)
  else t.applySub sub

/-- `getLastTransform`, lines 456-458 (`none`: the `IndexError` of an empty list). -/
def getLastTransform (t : TrackedInterval n K) : Option (AffTr n K) := t.transforms.getLast?

/-- The loop of lines 476-480 (= 507-511) for one bound: `(value, error)`. -/
def replayStep (α β : K) (p : K × K) : K × K :=
  let m := twoProd p.1 α
  let e := α * p.2 + m.2
  let s := twoSum m.1 β
  (s.1, e + s.2)

/-- Apply recorded transforms, last one first, to a bound of the top interval and add up value and error
(lines 473-484, 504-512). -/
def replay (tr : List (AffTr n K)) (i : Fin n) (v : K) : K :=
  let p := tr.foldr (fun ab p => replayStep (ab.1 i) (ab.2 i) p) (v, 0)
  p.1 + p.2

/-- `getFinalInterval`, lines 460-489. -/
def getFinalInterval (t : TrackedInterval n K) : Box n K :=
  let tr := if t.finalStep then t.preFinalTransforms else t.transforms
  ⟨fun i => replay tr i (t.topInterval.lo i), fun i => replay tr i (t.topInterval.hi i)⟩

/-- `getFinalPoint`, lines 491-514 (called after `getFinalInterval`, or in the final step). -/
def getFinalPoint (t : TrackedInterval n K) : Fin n → K :=
  if !t.finalStep then fun i => (t.getFinalInterval.lo i + t.getFinalInterval.hi i) / 2
  else fun i => (replay t.transforms i (t.topInterval.lo i) + replay t.transforms i (t.topInterval.hi i)) / 2

/-- `dimSize`, lines 520-522. -/
def dimSize (t : TrackedInterval n K) (i : Fin n) : K := t.interval.hi i - t.interval.lo i

/-- `copy`, lines 528-542. -/
def copy (t : TrackedInterval n K) : TrackedInterval n K :=
  let c : TrackedInterval n K :=
    { new t.topInterval with
      interval := t.interval
      transforms := t.transforms
      empty := t.empty
      nextTransformPoints := t.nextTransformPoints }
  if t.finalStep then
    { c with
      finalStep := true
      canThrowOutFinalStep := t.canThrowOutFinalStep
      possibleDuplicateRoots := t.possibleDuplicateRoots
      possibleExtraRoot := t.possibleExtraRoot
      preFinalInterval := t.preFinalInterval
      preFinalTransforms := t.preFinalTransforms }
  else c

/-- `isPoint`, lines 558-560. -/
def isPoint (t : TrackedInterval n K) : Bool :=
  decide (∀ i, |t.interval.lo i - t.interval.hi i| < 1 / 10 ^ 32)

/-- `startFinalStep`, lines 562-566. -/
def startFinalStep (t : TrackedInterval n K) : TrackedInterval n K :=
  { t with finalStep := true, preFinalInterval := t.interval, preFinalTransforms := t.transforms }

/-- `getIntervalForCombining`, lines 568-570. -/
def getIntervalForCombining (t : TrackedInterval n K) : Box n K :=
  if t.finalStep then t.preFinalInterval else t.interval

/-- `overlapsWith`, lines 548-556. -/
def overlapsWith (s t : TrackedInterval n K) : Bool :=
  decide (∀ i, ¬ (s.getIntervalForCombining.lo i > t.getIntervalForCombining.hi i ∨
    t.getIntervalForCombining.lo i > s.getIntervalForCombining.hi i))

/-- `__contains__`, lines 544-546. -/
def contains (t : TrackedInterval n K) (p : Fin n → K) : Bool :=
  decide (∀ i, t.interval.lo i ≤ p i) && decide (∀ i, p i ≤ t.interval.hi i)

end TrackedInterval

end YRoots
