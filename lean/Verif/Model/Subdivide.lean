import Verif.Model.Zoom
import Mathlib.Data.Finset.Sort
import Mathlib.Data.Finset.Union
import Mathlib.Data.List.Sort

/-!
# Model of subdivision

`/repo/yroots/ChebyshevSubdivisionSolver.py` lines 958-1129.
-/

namespace YRoots

variable {n : ℕ} {K : Type*}

/-! ### `getInverseOrder` -/

/-- `itertools.product([0,1], repeat=k)`. -/
def bitVectors : ℕ → List (List ℕ)
  | 0 => [[]]
  | k + 1 => (bitVectors k).map (fun v => 0 :: v) ++ (bitVectors k).map (fun v => 1 :: v)

/-- `i @ order`. -/
def dot (u v : List ℕ) : ℕ := (List.zipWith (· * ·) u v).sum

/-- Scatter `out[idx[j]] = j` into zeros of the length of `idx` (lines 1004-1005 and 1009-1010). -/
def scatter (idx : List ℕ) : List ℕ :=
  idx.zipIdx.foldl (fun out p => out.set p.1 p.2) (List.replicate idx.length 0)

/-- `np.argsort` of a list of *distinct* numbers: for each `r` the position of the entry of rank `r`.  (For distinct
entries the result does not depend on the sorting algorithm.) -/
def argsortDistinct (l : List ℕ) : List ℕ :=
  (List.range l.length).insertionSort fun i j => l.getD i 0 ≤ l.getD j 0

/-- `getInverseOrder(order)`, ChebyshevSubdivisionSolver.py lines 981-1011. -/
def getInverseOrder (order : List ℕ) : List ℕ :=
  let t := scatter (argsortDistinct order)
  let w := t.map fun r => 2 ^ (order.length - 1 - r)
  let newOrder := (bitVectors order.length).map fun v => dot v w
  scatter newOrder

/-! ### `getSubdivisionDims` -/

variable [Field K] [LinearOrder K]

/-- `np.isclose(a, b)` with default tolerances. -/
def npIsclose (a b : K) : Bool := decide (|a - b| ≤ 1 / 10 ^ 8 + 1 / 10 ^ 5 * |b|)

/-- Lines 1031-1035: drop the dimensions whose interval is close to a point, keeping at least one. -/
def considerDims (B : Box n K) : List (Fin n) :=
  (List.finRange n).foldl (fun dims i =>
    if npIsclose (B.lo i) (B.hi i) then (if dims.length ≠ 1 then dims.erase i else dims) else dims)
    (List.finRange n)

/-- `np.max` of a nonempty list. -/
def listMax (l : List K) : K := l.tail.foldl max (l.headD 0)

/-- Lines 1039-1041: keep the dimensions longer than a fifth of the longest. -/
def longDims (B : Box n K) (dims : List (Fin n)) : List (Fin n) :=
  let len := fun i => B.hi i - B.lo i
  let m := listMax (dims.map len)
  dims.filter fun i => decide (len i > m / 5)

/-- Lines 1042-1048: delete dimensions of low total degree, keeping at least one.
`np.floor(total_sum/(dim+1))` is natural-number division. -/
def degreeDims (Ms : Fin n → Tensor n K) (dims : List (Fin n)) : List (Fin n) :=
  if dims.length > 1 then
    let degreeSums := fun j => ∑ i, (Ms i).shape j
    let total := ∑ j, degreeSums j
    dims.foldl (fun ds i => if ds.length > 1 ∧ degreeSums i < total / (n + 1) then ds.erase i else ds) dims
  else dims

/-- `dims[np.argsort(np.array(M.shape)[dims])[::-1]]`; `argsort` is an external function (its result on ties
depends on the sorting algorithm). -/
def sortDims (argsort : List ℕ → List ℕ) (M : Tensor n K) (dims : List (Fin n)) : List (Fin n) :=
  (argsort (dims.map M.shape)).reverse.filterMap fun k => dims[k]?

/-- `getSubdivisionDims(Ms, trackedInterval, level)`, lines 1013-1049: row `i` is the order for `Ms[i]`. -/
def getSubdivisionDims (argsort : List ℕ → List ℕ) (Ms : Fin n → Tensor n K) (ti : TrackedInterval n K)
    (level : ℕ) : Fin n → List (Fin n) :=
  let dims := considerDims ti.interval
  let dims := if level > 5 then dims else degreeDims Ms (longDims ti.interval dims)
  fun i => sortDims argsort (Ms i) dims

/-! ### `getSubdivisionIntervals` -/

/-- The doubling loops of lines 1086-1099 and 1111-1128: for each dimension in turn every element is replaced by
its left and right half. -/
def splitAll {A D : Type*} (f : D → Bool → A → A) (dims : List D) (l : List A) : List A :=
  dims.foldl (fun l d => l.flatMap fun a => [f d false a, f d true a]) l

/-- One half of a polynomial with its error, lines 1088-1097. -/
def splitPoly (mid : Fin n → K) (exact : Bool) (d : Fin n) (right : Bool) (p : Tensor n K × K) :
    Tensor n K × K :=
  let α := (mid d + 1) / 2
  let β := (mid d - 1) / 2
  (if right then transformND p.1 d (-β) α exact else transformND p.1 d α β exact,
   getTransformationError p.1 d + p.2)

/-- One half of an interval, lines 1113-1127 (`newMidpoint` is that of the parent). -/
def splitInterval (mid : Fin n → K) (d : Fin n) (right : Bool) (t : TrackedInterval n K) :
    TrackedInterval n K :=
  let sub : Box n K :=
    if right then ⟨Function.update (fun _ => -1) d (mid d), fun _ => 1⟩
    else ⟨fun _ => -1, Function.update (fun _ => 1) d (mid d)⟩
  let t' := t.copy.addTransform sub
  { t' with nextTransformPoints := Function.update t'.nextTransformPoints d 0 }

/-- `[l[i] for i in idx]`. -/
def pick {A : Type*} (l : List A) (idx : List ℕ) : Except Exc (List A) :=
  idx.mapM fun i => match l[i]? with
    | some a => .ok a
    | none => .error .indexError

/-- One child: its polynomials, errors and interval. -/
structure Child (n : ℕ) (K : Type*) where
  Ms : Fin n → Tensor n K
  errors : Fin n → K
  ti : TrackedInterval n K

/-- Children of one polynomial, aligned with increasing dimension order (lines 1086-1107).  For an empty order
`newOrder` of line 1007 is the float array `[0.]` (`() @ order`), which cannot index: `IndexError` at line 1010. -/
def polyChildren (mid : Fin n → K) (exact : Bool) (M : Tensor n K) (error : K) (order : List (Fin n)) :
    Except Exc (List (Tensor n K × K)) :=
  let curr := splitAll (splitPoly mid exact) order [(M, error)]
  if n = 1 then .ok curr
  else if order = [] then .error .indexError
  else pick curr (getInverseOrder (order.map (·.1)))

/-- `allMs[i][j]`, `allErrors[i][j]` (only read after the length test of `zipChildren`). -/
def childPoly (allP : List (List (Tensor n K × K))) (i : Fin n) (j : ℕ) : Tensor n K × K :=
  (allP.getD i []).getD j (⟨fun _ => 0, fun _ => 0⟩, 0)

/-- The transposition of lines 1108-1109 followed by `zip(allMs, allErrors, allIntervals)` in the caller
(lines 1270, 1314).  `IndexError` if `allMs` is empty or some later row is shorter than the first. -/
def zipChildren (allP : List (List (Tensor n K × K))) (tis : List (TrackedInterval n K)) :
    Except Exc (List (Child n K)) :=
  match allP with
  | [] => .error .indexError
  | p0 :: _ =>
    if ∀ p ∈ allP, p0.length ≤ p.length then
      .ok ((tis.take p0.length).zipIdx.map fun q =>
        ⟨fun i => (childPoly allP i q.2).1, fun i => (childPoly allP i q.2).2, q.1⟩)
    else .error .indexError

/-- `getSubdivisionIntervals(Ms, errors, trackedInterval, exact, level)`, lines 1051-1129.  `setIter` is the order in
which Python iterates over the set of subdivision dimensions. -/
def getSubdivisionIntervals (argsort : List ℕ → List ℕ) (setIter : Finset (Fin n) → List (Fin n))
    (Ms : Fin n → Tensor n K) (errors : Fin n → K) (ti : TrackedInterval n K) (exact : Bool) (level : ℕ) :
    Except Exc (List (Child n K)) :=
  let orders := getSubdivisionDims argsort Ms ti level
  let dimSet : Finset (Fin n) := Finset.univ.biUnion fun i => (orders i).toFinset
  if ∃ i, dimSet.card ≠ (orders i).length then .error .valueError
  else do
    let allP ← (List.finRange n).mapM fun i =>
      polyChildren ti.nextTransformPoints exact (Ms i) (errors i) (orders i)
    let tis := splitAll (splitInterval ti.nextTransformPoints) (setIter dimSet) [ti]
    zipChildren allP tis

end YRoots
