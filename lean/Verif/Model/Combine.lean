import Verif.Model.Subdivide

/-!
# Model of the combining of touching boxes

`/repo/yroots/ChebyshevSubdivisionSolver.py` lines 1318-1365.
-/

namespace YRoots

/-! ### The loop -/

section Loop

variable {A : Type*}

/-- State of the nested while loops: `resultExterior`, `idx1`, `idx2`. -/
structure CombineState (A : Type*) where
  l : List A
  idx1 : ℕ
  idx2 : ℕ

/-- One test of the nested while loops of lines 1326-1365: `none` when the outer loop ends.  `touch` is
`overlapsWith`, `merge` the construction of the combined interval. -/
def combineStep (touch : A → A → Bool) (merge : A → A → A) (s : CombineState A) : Option (CombineState A) :=
  match s.l[s.idx1]? with
  | none => none
  | some a =>
    match s.l[s.idx2]? with
    | none => some ⟨s.l, s.idx1 + 1, s.idx1 + 2⟩
    | some b =>
      if touch a b then
        some ⟨(s.l.eraseIdx s.idx2).eraseIdx s.idx1 ++ [merge a b], s.idx1, s.idx1 + 1⟩
      else some ⟨s.l, s.idx1, s.idx2 + 1⟩

/-- At most `fuel` tests. -/
def combineRun (touch : A → A → Bool) (merge : A → A → A) : ℕ → CombineState A → Except Exc (List A)
  | 0, _ => .error .outOfFuel
  | fuel + 1, s =>
    match combineStep touch merge s with
    | none => .ok s.l
    | some s' => combineRun touch merge fuel s'

/-- The loops from `idx1 = 0`, `idx2 = 1` (lines 1319-1320); the fuel always suffices (C26). -/
def combineAll (touch : A → A → Bool) (merge : A → A → A) (l : List A) : Except Exc (List A) :=
  combineRun touch merge ((l.length + 2) ^ 3) ⟨l, 0, 1⟩

end Loop

/-! ### The combined interval -/

variable {n : ℕ} {K : Type*} [Field K] [LinearOrder K]

/-- `currSubinterval`, lines 1340-1352. -/
def combinedSub (oldI oldFinal newI newFinal : Box n K) : Box n K :=
  let eq := fun i => oldFinal.hi i = oldFinal.lo i
  let oldHi := fun i => if eq i then oldFinal.hi i + 1 else oldFinal.hi i
  ⟨fun i => if oldI.lo i = newI.lo i then -1 else if eq i then -1
      else (2 * newFinal.lo i - oldFinal.lo i - oldHi i) / (oldHi i - oldFinal.lo i),
   fun i => if oldI.hi i = newI.hi i then 1 else if eq i then 1
      else (2 * newFinal.hi i - oldFinal.lo i - oldHi i) / (oldHi i - oldFinal.lo i)⟩

/-- Smallest box containing two boxes (lines 1334-1335, 1338-1339). -/
def Box.hull (A B : Box n K) : Box n K := ⟨fun i => min (A.lo i) (B.lo i), fun i => max (A.hi i) (B.hi i)⟩

/-- The combined interval of lines 1330-1357. -/
def combineIntervals (orig r1 r2 : TrackedInterval n K) : TrackedInterval n K :=
  let c := orig.copy
  let c := if c.finalStep then { c with interval := c.preFinalInterval, transforms := c.preFinalTransforms } else c
  let newI := Box.hull r1.getIntervalForCombining r2.getIntervalForCombining
  let newFinal := Box.hull r1.getFinalInterval r2.getFinalInterval
  let c := c.addTransform (combinedSub orig.interval orig.getFinalInterval newI newFinal)
  { c with interval := newI, reRun := true }

/-- Lines 1319-1365: reset `reRun`, combine until nothing later in the list touches. -/
def combineExterior (orig : TrackedInterval n K) (l : List (TrackedInterval n K)) :
    Except Exc (List (TrackedInterval n K)) :=
  combineAll TrackedInterval.overlapsWith (combineIntervals orig) (l.map fun t => { t with reRun := false })

end YRoots
