import Verif.Model.Interval
import Mathlib.Logic.Function.Basic

/-!
# Model of `TrackedInterval` with references

`Verif.Model.Interval` treats a `TrackedInterval` as a value.  Here the arrays, lists and objects are cells of a heap and
attributes hold addresses, so that sharing is visible: the constructor stores its argument twice
(`/repo/yroots/ChebyshevSubdivisionSolver.py` lines 405-406), `copy` passes `topInterval` on by reference (line 530) and
copies the interval array and the lists, `addTransform` writes into the interval array and appends to the list in
place, and clamps its argument in place (lines 434-437).

An address below `next` is in use.  The kinds of cells have separate maps and share the counter.  The arrays
`np.array([alpha, beta])` in the list `transforms` are never written to after their creation and are kept as values, and
so are the points in `possibleDuplicateRoots`.  An attribute that does not exist yet (`preFinalInterval`,
`preFinalTransforms`) refers to a cell with the value the value model gives it.
-/

namespace YRoots

/-- The attributes of a `TrackedInterval` object (lines 404-414, 565-566). -/
structure TIRef where
  topInterval : ℕ
  interval : ℕ
  transforms : ℕ
  empty : Bool
  finalStep : Bool
  canThrowOutFinalStep : Bool
  possibleDuplicateRoots : ℕ
  possibleExtraRoot : Bool
  nextTransformPoints : ℕ
  preFinalInterval : ℕ
  preFinalTransforms : ℕ
  reRun : Bool

/-- The heap: interval arrays, lists of transforms, lists of points, vectors, coefficient tensors, lists of tensors and
`TrackedInterval` objects. -/
structure Heap (n : ℕ) (K : Type*) where
  next : ℕ
  box : ℕ → Box n K
  trs : ℕ → List (AffTr n K)
  pts : ℕ → List (Fin n → K)
  vec : ℕ → Fin n → K
  tensor : ℕ → Tensor n K
  mlist : ℕ → Fin n → ℕ
  obj : ℕ → TIRef

namespace Heap

variable {n : ℕ} {K : Type*}

/-! ### Allocation and assignment -/

def allocBox (h : Heap n K) (v : Box n K) : Heap n K × ℕ :=
  ({ h with next := h.next + 1, box := Function.update h.box h.next v }, h.next)

def allocTrs (h : Heap n K) (v : List (AffTr n K)) : Heap n K × ℕ :=
  ({ h with next := h.next + 1, trs := Function.update h.trs h.next v }, h.next)

def allocPts (h : Heap n K) (v : List (Fin n → K)) : Heap n K × ℕ :=
  ({ h with next := h.next + 1, pts := Function.update h.pts h.next v }, h.next)

def allocVec (h : Heap n K) (v : Fin n → K) : Heap n K × ℕ :=
  ({ h with next := h.next + 1, vec := Function.update h.vec h.next v }, h.next)

def allocTensor (h : Heap n K) (v : Tensor n K) : Heap n K × ℕ :=
  ({ h with next := h.next + 1, tensor := Function.update h.tensor h.next v }, h.next)

def allocMlist (h : Heap n K) (v : Fin n → ℕ) : Heap n K × ℕ :=
  ({ h with next := h.next + 1, mlist := Function.update h.mlist h.next v }, h.next)

def allocObj (h : Heap n K) (v : TIRef) : Heap n K × ℕ :=
  ({ h with next := h.next + 1, obj := Function.update h.obj h.next v }, h.next)

def setBox (h : Heap n K) (a : ℕ) (v : Box n K) : Heap n K := { h with box := Function.update h.box a v }

def setTrs (h : Heap n K) (a : ℕ) (v : List (AffTr n K)) : Heap n K := { h with trs := Function.update h.trs a v }

def setPts (h : Heap n K) (a : ℕ) (v : List (Fin n → K)) : Heap n K := { h with pts := Function.update h.pts a v }

def setVec (h : Heap n K) (a : ℕ) (v : Fin n → K) : Heap n K := { h with vec := Function.update h.vec a v }

def setTensor (h : Heap n K) (a : ℕ) (v : Tensor n K) : Heap n K :=
  { h with tensor := Function.update h.tensor a v }

def setMlist (h : Heap n K) (a : ℕ) (v : Fin n → ℕ) : Heap n K := { h with mlist := Function.update h.mlist a v }

def setObj (h : Heap n K) (a : ℕ) (v : TIRef) : Heap n K := { h with obj := Function.update h.obj a v }

/-- What can be observed through a `TrackedInterval` object. -/
def view (h : Heap n K) (o : ℕ) : TrackedInterval n K where
  topInterval := h.box (h.obj o).topInterval
  interval := h.box (h.obj o).interval
  transforms := h.trs (h.obj o).transforms
  empty := (h.obj o).empty
  finalStep := (h.obj o).finalStep
  canThrowOutFinalStep := (h.obj o).canThrowOutFinalStep
  possibleDuplicateRoots := h.pts (h.obj o).possibleDuplicateRoots
  possibleExtraRoot := (h.obj o).possibleExtraRoot
  nextTransformPoints := h.vec (h.obj o).nextTransformPoints
  preFinalInterval := h.box (h.obj o).preFinalInterval
  preFinalTransforms := h.trs (h.obj o).preFinalTransforms
  reRun := (h.obj o).reRun

variable [Field K] [LinearOrder K]

/-! ### Methods -/

/-- `__init__(interval)`, lines 404-414: both attributes refer to the argument array. -/
def newTI (h : Heap n K) (interval : ℕ) : Heap n K × ℕ :=
  let (h, tr) := h.allocTrs []
  let (h, dup) := h.allocPts []
  let (h, nxt) := h.allocVec fun _ => TrackedInterval.splitPoint
  let (h, ptr) := h.allocTrs []
  h.allocObj
    { topInterval := interval
      interval := interval
      transforms := tr
      empty := false
      finalStep := false
      canThrowOutFinalStep := false
      possibleDuplicateRoots := dup
      possibleExtraRoot := false
      nextTransformPoints := nxt
      preFinalInterval := interval
      preFinalTransforms := ptr
      reRun := false }

/-- `copy()`, lines 528-542. -/
def copyTI (h : Heap n K) (o : ℕ) : Heap n K × ℕ :=
  let s := h.obj o
  let (h, c) := h.newTI s.topInterval
  let (h, iv) := h.allocBox (h.box s.interval)
  let h := h.setObj c { h.obj c with interval := iv }
  let (h, tr) := h.allocTrs (h.trs s.transforms)
  let h := h.setObj c { h.obj c with transforms := tr }
  let h := h.setObj c { h.obj c with empty := s.empty }
  let (h, nx) := h.allocVec (h.vec s.nextTransformPoints)
  let h := h.setObj c { h.obj c with nextTransformPoints := nx }
  if s.finalStep then
    let h := h.setObj c { h.obj c with finalStep := true }
    let h := h.setObj c { h.obj c with canThrowOutFinalStep := s.canThrowOutFinalStep }
    let (h, dp) := h.allocPts (h.pts s.possibleDuplicateRoots)
    let h := h.setObj c { h.obj c with possibleDuplicateRoots := dp }
    let h := h.setObj c { h.obj c with possibleExtraRoot := s.possibleExtraRoot }
    let (h, pi) := h.allocBox (h.box s.preFinalInterval)
    let h := h.setObj c { h.obj c with preFinalInterval := pi }
    let (h, pt) := h.allocTrs (h.trs s.preFinalTransforms)
    let h := h.setObj c { h.obj c with preFinalTransforms := pt }
    (h, c)
  else (h, c)

/-- `arr[i][0] = v`. -/
def setLo (h : Heap n K) (a : ℕ) (i : Fin n) (v : K) : Heap n K :=
  h.setBox a { h.box a with lo := Function.update (h.box a).lo i v }

/-- `arr[i][1] = v`. -/
def setHi (h : Heap n K) (a : ℕ) (i : Fin n) (v : K) : Heap n K :=
  h.setBox a { h.box a with hi := Function.update (h.box a).hi i v }

/-- Body of the loop of lines 445-454 for one dimension: `iv` and `sub` are the arrays `self.interval` and
`subInterval`, `α`, `β` the numbers `alpha2[dim]`, `beta2[dim]` computed before the loop. -/
def stepDim (iv sub : ℕ) (α β : Fin n → K) (h : Heap n K) (i : Fin n) : Heap n K :=
  let x := (h.box sub).lo i
  let h := if x = -1 then h.setLo iv i ((h.box iv).lo i)
    else if x = 1 then h.setLo iv i ((h.box iv).hi i)
    else h.setLo iv i (α i * x + β i)
  let x := (h.box sub).hi i
  if x = -1 then h.setHi iv i ((h.box iv).lo i)
  else if x = 1 then h.setHi iv i ((h.box iv).hi i)
  else h.setHi iv i (α i * x + β i)

/-- `addTransform(subInterval)`, lines 420-454; `sub` is the address of the argument. -/
def addTransform (h : Heap n K) (o sub : ℕ) : Heap n K :=
  if (∃ i, (h.box sub).lo i > (h.box sub).hi i) ∧
      (!(h.obj o).finalStep || (h.obj o).canThrowOutFinalStep) = true then
    h.setObj o { h.obj o with empty := true }
  else
    let h := if ∃ i, (h.box sub).lo i > (h.box sub).hi i then
        h.setBox sub (TrackedInterval.clampSub (h.box sub)) else h
    let S := h.box sub
    let I := h.box (h.obj o).interval
    let h := h.setTrs (h.obj o).transforms (h.trs (h.obj o).transforms ++
      [(fun i => (S.hi i - S.lo i) / 2, fun i => (S.hi i + S.lo i) / 2)])
    (List.finRange n).foldl
      (stepDim (h.obj o).interval sub (fun i => (I.hi i - I.lo i) / 2) (fun i => (I.hi i + I.lo i) / 2)) h

/-- `startFinalStep()`, lines 562-566. -/
def startFinalStep (h : Heap n K) (o : ℕ) : Heap n K :=
  let h := h.setObj o { h.obj o with finalStep := true }
  let (h, pi) := h.allocBox (h.box (h.obj o).interval)
  let h := h.setObj o { h.obj o with preFinalInterval := pi }
  let (h, pt) := h.allocTrs (h.trs (h.obj o).transforms)
  h.setObj o { h.obj o with preFinalTransforms := pt }

/-! ### Sequences of operations -/

/-- Operations of a program using `TrackedInterval` objects; objects are named by their addresses. -/
inductive TIOp (n : ℕ) (K : Type*) where
  /-- `TrackedInterval(np.array(B))`, a new array. -/
  | new (B : Box n K)
  /-- `TrackedInterval(o.topInterval)`, a second object with the same argument as an existing one. -/
  | newSame (o : ℕ)
  /-- `o.copy()`. -/
  | copy (o : ℕ)
  /-- `o.addTransform(np.array(B))`. -/
  | addTransform (o : ℕ) (B : Box n K)
  /-- `o.startFinalStep()`. -/
  | startFinalStep (o : ℕ)
  /-- `o.canThrowOutFinalStep = True` (line 1279). -/
  | setCanThrow (o : ℕ)
  /-- `o.nextTransformPoints[i] = v` (lines 1124-1125). -/
  | setNext (o : ℕ) (i : Fin n) (v : K)

/-- A heap and the objects created so far. -/
structure TIState (n : ℕ) (K : Type*) where
  heap : Heap n K
  live : List ℕ

/-- One operation; operations on names that are not live objects do nothing. -/
def TIState.step (s : TIState n K) : TIOp n K → TIState n K
  | .new B =>
    let (h, a) := s.heap.allocBox B
    let (h, o) := h.newTI a
    ⟨h, s.live ++ [o]⟩
  | .newSame o =>
    if o ∈ s.live then
      let (h, c) := s.heap.newTI (s.heap.obj o).topInterval
      ⟨h, s.live ++ [c]⟩
    else s
  | .copy o =>
    if o ∈ s.live then
      let (h, c) := s.heap.copyTI o
      ⟨h, s.live ++ [c]⟩
    else s
  | .addTransform o B =>
    if o ∈ s.live then
      let (h, a) := s.heap.allocBox B
      ⟨h.addTransform o a, s.live⟩
    else s
  | .startFinalStep o => if o ∈ s.live then ⟨s.heap.startFinalStep o, s.live⟩ else s
  | .setCanThrow o =>
    if o ∈ s.live then ⟨s.heap.setObj o { s.heap.obj o with canThrowOutFinalStep := true }, s.live⟩ else s
  | .setNext o i v =>
    if o ∈ s.live then
      ⟨s.heap.setVec (s.heap.obj o).nextTransformPoints
        (Function.update (s.heap.vec (s.heap.obj o).nextTransformPoints) i v), s.live⟩
    else s

/-- A sequence of operations. -/
def TIState.run (s : TIState n K) (ops : List (TIOp n K)) : TIState n K := ops.foldl TIState.step s

/-- The empty heap. -/
def TIState.init (n : ℕ) (K : Type*) [Field K] : TIState n K where
  heap :=
    { next := 0
      box := fun _ => ⟨fun _ => 0, fun _ => 0⟩
      trs := fun _ => []
      pts := fun _ => []
      vec := fun _ _ => 0
      tensor := fun _ => ⟨fun _ => 0, fun _ => 0⟩
      mlist := fun _ _ => 0
      obj := fun _ => ⟨0, 0, 0, false, false, false, 0, false, 0, 0, 0, false⟩ }
  live := []

end Heap

end YRoots
