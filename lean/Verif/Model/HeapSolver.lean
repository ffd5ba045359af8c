import Verif.Model.Heap
import Verif.Model.Solver

/-!
# Model of the recursive solver with references

The functions of `Verif.Model.Solver` once more, on the heap of `Verif.Model.Heap`: lists of tensors, tensors, error
vectors and `TrackedInterval` objects are cells, arguments and results are addresses, and the assignments in place
(`trimMs`, `addTransform`, `startFinalStep`, writes to attributes) are writes to cells.  A function returns the new heap
and a result or an exception.  `Verif.Props.HeapSolver` proves that this program computes what the value model computes
and changes no cell that existed before the call.

Slices of arrays (`Ms[polyNum][...]` in `trimMs`, `transformedCoeffs[:maxRow]`) are new cells.  The only writes to the
contents of coefficient tensors in the code are those to the freshly allocated `transformedCoeffs` (and to the padded
copy in `quadratic_check_nd`), so that sharing of memory between a slice and its base cannot be observed.  The elements
of an error vector are numbers, so Python lists of errors and numpy arrays of errors are both vectors.
`BoundingIntervalLinearSystem`, the constant-term check and `quadratic_check` only read their arguments (line 663 rebinds
`errors` to a new array, line 679 to a copy); their results are those of the value model.
-/

namespace YRoots

namespace Heap

variable {n : ℕ} {K : Type*}

/-- The coefficient tensors of a list. -/
def tensors (h : Heap n K) (m : ℕ) : Fin n → Tensor n K := fun i => h.tensor (h.mlist m i)

variable [Field K] [LinearOrder K]

/-! ### Loops -/

/-- `for i in range(n): out.append(f(i))`. -/
def collect {B : Type*} (f : Heap n K → Fin n → Heap n K × B) (d : B) (h : Heap n K) : Heap n K × (Fin n → B) :=
  (List.finRange n).foldl (fun p i => let r := f p.1 i; (r.1, Function.update p.2 i r.2)) (h, fun _ => d)

/-- `for a in l: out += f(a)`. -/
def flatMapH {A B : Type*} (f : Heap n K → A → Heap n K × List B) : List A → Heap n K → Heap n K × List B
  | [], h => (h, [])
  | a :: l, h =>
    let r := f h a
    let s := flatMapH f l r.1
    (s.1, r.2 ++ s.2)

/-- `for a in l: out.append(f(a))`, ended by the first exception. -/
def mapMH {A B : Type*} (f : Heap n K → A → Heap n K × Except Exc B) : List A → Heap n K → Heap n K × Except Exc (List B)
  | [], h => (h, .ok [])
  | a :: l, h =>
    match f h a with
    | (h, .error e) => (h, .error e)
    | (h, .ok b) =>
      match mapMH f l h with
      | (h, .error e) => (h, .error e)
      | (h, .ok bs) => (h, .ok (b :: bs))

/-- The doubling loops of lines 1086-1099 and 1111-1128. -/
def splitAllH {A D : Type*} (f : D → Heap n K → A → Heap n K × List A) (dims : List D) (p : Heap n K × List A) :
    Heap n K × List A :=
  dims.foldl (fun p d => flatMapH (f d) p.2 p.1) p

/-! ### Transformations -/

/-- `TransformChebInPlaceND`, lines 344-374: the argument itself, or a new array which the loops fill. -/
def transformNDH (h : Heap n K) (a : ℕ) (d : Fin n) (α β : K) (exact : Bool) : Heap n K × ℕ :=
  if (α = 1 ∧ β = 0) ∨ (h.tensor a).shape d = 1 then (h, a)
  else
    let r := h.allocTensor { (h.tensor a) with coef := fun _ => 0 }
    (r.1.setTensor r.2 (transformND (r.1.tensor a) d α β exact), r.2)

/-- `transformCheb`, lines 835-862. -/
def transformChebH (h : Heap n K) (a : ℕ) (α β : Fin n → K) (error : K) (exact : Bool) : Heap n K × ℕ × K :=
  (List.finRange n).foldl
    (fun p d =>
      let e := p.2.2 + getTransformationError (p.1.tensor p.2.1) d
      let r := transformNDH p.1 p.2.1 d (α d) (β d) exact
      (r.1, r.2, e)) (h, a, error)

/-- `transformChebToInterval`, lines 864-894: a new list and a new vector. -/
def transformChebToIntervalH (h : Heap n K) (m : ℕ) (α β : Fin n → K) (e : ℕ) (exact : Bool) : Heap n K × ℕ × ℕ :=
  let r := collect (fun h i =>
    let q := transformChebH h (h.mlist m i) α β (h.vec e i) exact
    (q.1, q.2.1, q.2.2)) (0, 0) h
  let s := r.1.allocMlist fun i => (r.2 i).1
  let t := s.1.allocVec fun i => (r.2 i).2
  (t.1, s.2, t.2)

/-! ### Zooming and trimming -/

/-- What `zoomInOnIntervalIter` returns: addresses of the list, the errors and the interval object. -/
structure ZoomRef where
  Ms : ℕ
  errors : ℕ
  ti : ℕ
  changed : Bool
  shouldStop : Bool

variable [FloorSemiring K]

/-- `zoomInOnIntervalIter(Ms, errors, trackedInterval, exact)`, lines 896-956. -/
def zoomIterH (svd : SVD n K) (h : Heap n K) (m e o : ℕ) (exact : Bool) : Heap n K × Except Exc ZoomRef :=
  let r := boundingIntervalLinearSystem svd (h.tensors m) (h.vec e) (h.obj o).finalStep
  let a := h.allocBox r.interval
  let h := a.1.setBox a.2 (skipPointDims (a.1.box (a.1.obj o).interval) (a.1.box a.2))
  let noThrow := r.throwOut && !(h.view o).canThrowOut
  let throwOut := r.throwOut && !noThrow
  let changed := r.changed || noThrow
  let shouldStop := r.shouldStop || noThrow
  if throwOut then (h.setObj o { h.obj o with empty := true }, .ok ⟨m, e, o, true, true⟩)
  else if !changed then (h, .ok ⟨m, e, o, changed, shouldStop⟩)
  else
    let h := h.addTransform o a.2
    match (h.trs (h.obj o).transforms).getLast? with
    | none => (h, .error .indexError)
    | some ab =>
      let p := transformChebToIntervalH h m ab.1 ab.2 e exact
      if (p.1.obj o).finalStep && (p.1.view o).isPoint then (p.1, .ok ⟨p.2.1, p.2.2, o, false, true⟩)
      else (p.1, .ok ⟨p.2.1, p.2.2, o, changed, shouldStop⟩)

/-- The zoom loop of lines 1243-1252. -/
def zoomLoopH (svd : SVD n K) (exact : Bool) (maxZoomCount : ℕ) :
    ℕ → Heap n K → ℕ → ℕ → ℕ → (Fin n → K) → ℕ → Heap n K × Except Exc ZoomRef
  | 0, h, _, _, _, _, _ => (h, .error .outOfFuel)
  | fuel + 1, h, m, e, o, lastSizes, zoomCount =>
    match zoomIterH svd h m e o exact with
    | (h, .error x) => (h, .error x)
    | (h, .ok r) =>
      if (h.obj r.ti).empty then (h, .ok r)
      else
        let newSizes := (h.view r.ti).dimSize
        let zoomCount' := if ∀ i, newSizes i ≥ lastSizes i / 2 then zoomCount + 1 else zoomCount
        if r.changed ∧ zoomCount' ≤ maxZoomCount then
          zoomLoopH svd exact maxZoomCount fuel h r.Ms r.errors r.ti newSizes zoomCount'
        else (h, .ok r)

/-- `trimMs(Ms, errors, relApproxTol, absApproxTol)`, lines 1131-1171: rebinds elements of the list `m` and writes
elements of the vector `e`. -/
def trimMsH (h : Heap n K) (m e : ℕ) (relTol absTol : K) : Heap n K :=
  (List.finRange n).foldl (fun h i =>
    let s := trimPoly (h.tensor (h.mlist m i)) (h.vec e i) relTol absTol
    let r := h.allocTensor s.M
    let h := r.1.setMlist m (Function.update (r.1.mlist m) i r.2)
    h.setVec e (Function.update (h.vec e) i s.err)) h

/-! ### Subdivision -/

/-- Lines 1088-1097 for one polynomial `(T, E)`. -/
def splitPolyH (mid : Fin n → K) (exact : Bool) (d : Fin n) (h : Heap n K) (p : ℕ × K) : Heap n K × List (ℕ × K) :=
  let α := (mid d + 1) / 2
  let β := (mid d - 1) / 2
  let p1 := transformNDH h p.1 d α β exact
  let p2 := transformNDH p1.1 p.1 d (-β) α exact
  let e1 := getTransformationError (p2.1.tensor p.1) d
  (p2.1, [(p1.2, e1 + p.2), (p2.2, e1 + p.2)])

/-- Lines 1113-1127 for one interval object.  The array `newSubinterval` is allocated for each pair of halves (the code
allocates it once for each dimension; it is local and overwritten before each use). -/
def splitIntervalH (mid : Fin n → K) (d : Fin n) (h : Heap n K) (o : ℕ) : Heap n K × List ℕ :=
  let s := h.allocBox ⟨fun _ => -1, fun _ => 1⟩
  let c1 := s.1.copyTI o
  let c2 := c1.1.copyTI o
  let h := c2.1.setBox s.2 ⟨Function.update (c2.1.box s.2).lo d (-1), Function.update (c2.1.box s.2).hi d (mid d)⟩
  let h := h.addTransform c1.2 s.2
  let h := h.setBox s.2 ⟨Function.update (h.box s.2).lo d (mid d), Function.update (h.box s.2).hi d 1⟩
  let h := h.addTransform c2.2 s.2
  let h := h.setVec (h.obj c1.2).nextTransformPoints
    (Function.update (h.vec (h.obj c1.2).nextTransformPoints) d 0)
  let h := h.setVec (h.obj c2.2).nextTransformPoints
    (Function.update (h.vec (h.obj c2.2).nextTransformPoints) d 0)
  (h, [c1.2, c2.2])

/-- Children of one polynomial, lines 1086-1107. -/
def polyChildrenH (mid : Fin n → K) (exact : Bool) (h : Heap n K) (a : ℕ) (error : K) (order : List (Fin n)) :
    Heap n K × Except Exc (List (ℕ × K)) :=
  let curr := splitAllH (splitPolyH mid exact) order (h, [(a, error)])
  (curr.1, if n = 1 then .ok curr.2 else if order = [] then .error .indexError
    else pick curr.2 (getInverseOrder (order.map (·.1))))

/-- One child: addresses of its list, errors and interval object. -/
structure ChildRef where
  Ms : ℕ
  errors : ℕ
  ti : ℕ

/-- `allMs[i][j]`, `allErrors[i][j]`. -/
def childPolyH (allP : List (List (ℕ × K))) (i : Fin n) (j : ℕ) : ℕ × K := (allP.getD i []).getD j (0, 0)

/-- Lines 1108-1109 and the `zip` of the caller: a new list and new errors for each child. -/
def zipChildrenH (h : Heap n K) (allP : List (List (ℕ × K))) (tis : List ℕ) : Heap n K × Except Exc (List ChildRef) :=
  match allP with
  | [] => (h, .error .indexError)
  | p0 :: _ =>
    if ∀ p ∈ allP, p0.length ≤ p.length then
      let r := flatMapH (fun h q =>
        let m := h.allocMlist fun i => (childPolyH allP i q.2).1
        let e := m.1.allocVec fun i => (childPolyH allP i q.2).2
        (e.1, [ChildRef.mk m.2 e.2 q.1])) (tis.take p0.length).zipIdx h
      (r.1, .ok r.2)
    else (h, .error .indexError)

/-- `getSubdivisionIntervals`, lines 1051-1129. -/
def getSubdivisionIntervalsH (argsort : List ℕ → List ℕ) (setIter : Finset (Fin n) → List (Fin n)) (h : Heap n K)
    (m e o : ℕ) (exact : Bool) (level : ℕ) : Heap n K × Except Exc (List ChildRef) :=
  let orders := getSubdivisionDims argsort (h.tensors m) (h.view o) level
  let dimSet : Finset (Fin n) := Finset.univ.biUnion fun i => (orders i).toFinset
  if ∃ i, dimSet.card ≠ (orders i).length then (h, .error .valueError)
  else
    match mapMH (fun h i => polyChildrenH (h.vec (h.obj o).nextTransformPoints) exact h (h.mlist m i) (h.vec e i)
        (orders i)) (List.finRange n) h with
    | (h, .error x) => (h, .error x)
    | (h, .ok allP) =>
      let r := splitAllH (splitIntervalH (h.vec (h.obj o).nextTransformPoints)) (setIter dimSet) (h, [o])
      zipChildrenH r.1 allP r.2

/-! ### Combining -/

/-- The combined interval of lines 1330-1357. -/
def combineIntervalsH (h : Heap n K) (orig r1 r2 : ℕ) : Heap n K × ℕ :=
  let c := h.copyTI orig
  let h := c.1
  let h := if (h.obj c.2).finalStep then
      let b := h.allocBox (h.box (h.obj c.2).preFinalInterval)
      let h := b.1.setObj c.2 { b.1.obj c.2 with interval := b.2 }
      let t := h.allocTrs (h.trs (h.obj c.2).preFinalTransforms)
      t.1.setObj c.2 { t.1.obj c.2 with transforms := t.2 }
    else h
  let newI := Box.hull (h.view r1).getIntervalForCombining (h.view r2).getIntervalForCombining
  let newFinal := Box.hull (h.view r1).getFinalInterval (h.view r2).getFinalInterval
  let s := h.allocBox (combinedSub (h.view orig).interval (h.view orig).getFinalInterval newI newFinal)
  let h := s.1.addTransform c.2 s.2
  let b := h.allocBox newI
  let h := b.1.setObj c.2 { b.1.obj c.2 with interval := b.2 }
  let h := h.setObj c.2 { h.obj c.2 with reRun := true }
  (h, c.2)

/-- One test of the nested while loops of lines 1326-1365. -/
def combineStepH (orig : ℕ) (h : Heap n K) (s : CombineState ℕ) : Option (Heap n K × CombineState ℕ) :=
  match s.l[s.idx1]? with
  | none => none
  | some a =>
    match s.l[s.idx2]? with
    | none => some (h, ⟨s.l, s.idx1 + 1, s.idx1 + 2⟩)
    | some b =>
      if (h.view a).overlapsWith (h.view b) then
        let c := combineIntervalsH h orig a b
        some (c.1, ⟨(s.l.eraseIdx s.idx2).eraseIdx s.idx1 ++ [c.2], s.idx1, s.idx1 + 1⟩)
      else some (h, ⟨s.l, s.idx1, s.idx2 + 1⟩)

/-- At most `fuel` tests. -/
def combineRunH (orig : ℕ) : ℕ → Heap n K → CombineState ℕ → Heap n K × Except Exc (List ℕ)
  | 0, h, _ => (h, .error .outOfFuel)
  | fuel + 1, h, s =>
    match combineStepH orig h s with
    | none => (h, .ok s.l)
    | some r => combineRunH orig fuel r.1 r.2

/-- Lines 1319-1365. -/
def combineExteriorH (h : Heap n K) (orig : ℕ) (l : List ℕ) : Heap n K × Except Exc (List ℕ) :=
  let h := l.foldl (fun h o => h.setObj o { h.obj o with reRun := false }) h
  combineRunH orig ((l.length + 2) ^ 3) h ⟨l, 0, 1⟩

/-! ### The recursion -/

/-- A pair of lists of interval objects. -/
abbrev BoxRefs := List ℕ × List ℕ

/-- Lines 1259-1262, 1276-1279, 1295-1298. -/
def returnOneH (h : Heap n K) (orig o : ℕ) : BoxRefs :=
  if isExteriorInterval (h.view orig) (h.view o) then ([], [o]) else ([o], [])

/-- One element of the loop of lines 1368-1384. -/
def rerunOneH (rec : Heap n K → ℕ → ℕ → ℕ → Heap n K × Except Exc BoxRefs) (exact : Bool) (originalMs errors orig : ℕ)
    (h : Heap n K) (o : ℕ) : Heap n K × Except Exc BoxRefs :=
  if (h.obj o).reRun then
    if ∀ i, (h.view o).interval.lo i = (h.view orig).interval.lo i ∧
        (h.view o).interval.hi i = (h.view orig).interval.hi i then (h, .ok ([], [o]))
    else
      match (h.trs (h.obj o).transforms).getLast? with
      | none => (h, .error .indexError)
      | some ab =>
        let p := transformChebToIntervalH h originalMs ab.1 ab.2 errors exact
        rec p.1 p.2.1 o p.2.2
  else (h, .ok (returnOneH h orig o))

/-- `solvePolyRecursive(Ms, trackedInterval, errors, solverOptions)`, lines 1177-1385. -/
def solveH (env : Env n K) : ℕ → Opts → Heap n K → ℕ → ℕ → ℕ → Heap n K × Except Exc BoxRefs
  | 0, _, h, _, _, _ => (h, .error .outOfFuel)
  | fuel + 1, opts, h, m, o, e =>
    if (h.view o).isPoint then (h, .ok ([], [o]))
    else
      let opts := { opts with level := opts.level + 1 }
      if opts.constant_check && constantCheck (h.tensors m) (h.vec e) then (h, .ok ([], []))
      else if quadraticDiscard env opts (h.tensors m) (h.vec e) then (h, .ok ([], []))
      else
        -- lines 1227-1232
        let m1 := h.allocMlist (h.mlist m)
        let om := m1.1.allocMlist (m1.1.mlist m1.2)
        let t := om.1.copyTI o
        let e1 := t.1.allocVec (t.1.vec e)
        let h := trimMsH e1.1 m1.2 e1.2 (1 / 10 ^ 3) 0
        let orig := h.copyTI t.2
        match zoomLoopH env.svd opts.exact opts.maxZoomCount fuel orig.1 m1.2 e1.2 t.2 (orig.1.view t.2).dimSize 0 with
        | (h, .error x) => (h, .error x)
        | (h, .ok z) =>
          if (h.obj z.ti).empty then (h, .ok ([], []))
          else if z.shouldStop then
            if (h.obj z.ti).finalStep || !opts.useFinalStep then (h, .ok (returnOneH h orig.2 z.ti))
            else solveH env fuel opts (h.startFinalStep z.ti) z.Ms z.ti z.errors
          else if (h.obj z.ti).finalStep then
            let h := h.setObj z.ti { h.obj z.ti with canThrowOutFinalStep := true }
            match getSubdivisionIntervalsH env.argsort env.setIter h z.Ms z.errors z.ti opts.exact opts.level with
            | (h, .error x) => (h, .error x)
            | (h, .ok cs) =>
              match mapMH (fun h (c : ChildRef) => solveH env fuel opts h c.Ms c.ti c.errors) cs h with
              | (h, .error x) => (h, .error x)
              | (h, .ok rs) =>
                let resultsAll := rs.flatMap fun r => r.1 ++ r.2
                if resultsAll.length = 0 then
                  let h := h.setObj z.ti { h.obj z.ti with possibleExtraRoot := true }
                  (h, .ok (returnOneH h orig.2 z.ti))
                else
                  -- lines 1282-1294: the points are computed from the results, then appended in place
                  let h := h.setPts (h.obj z.ti).possibleDuplicateRoots
                    (h.pts (h.obj z.ti).possibleDuplicateRoots ++ duplicateRoots (dedupe (resultsAll.map h.view)))
                  (h, .ok (returnOneH h orig.2 z.ti))
          else
            match getSubdivisionIntervalsH env.argsort env.setIter h z.Ms z.errors z.ti opts.exact opts.level with
            | (h, .error x) => (h, .error x)
            | (h, .ok cs) =>
              match mapMH (fun h (c : ChildRef) => solveH env fuel opts h c.Ms c.ti c.errors) cs h with
              | (h, .error x) => (h, .error x)
              | (h, .ok rs) =>
                match combineExteriorH h orig.2 (rs.flatMap (·.2)) with
                | (h, .error x) => (h, .error x)
                | (h, .ok ext) =>
                  match mapMH (rerunOneH (fun h m o e => solveH env fuel opts h m o e) opts.exact om.2 z.errors
                      orig.2) ext h with
                  | (h, .error x) => (h, .error x)
                  | (h, .ok rs') => (h, .ok (rs.flatMap (·.1) ++ rs'.flatMap (·.1), rs'.flatMap (·.2)))

/-- `solveChebyshevSubdivision(Ms, errors, ...)`, lines 1387-1464: the caller's list `m` and errors `e`. -/
def solveChebyshevSubdivisionH (env : Env n K) (fuel : ℕ) (h : Heap n K) (m e : ℕ) (exact : Bool := false)
    (constant_check : Bool := true) (low_dim_quadratic_check : Bool := true) (all_dim_quadratic_check : Bool := false) :
    Heap n K × Except Exc (List (Fin n → K) × List ℕ) :=
  let a := h.allocBox (Box.unit n K)
  let o := a.1.newTI a.2
  let opts : Opts := ⟨exact, constant_check, low_dim_quadratic_check, all_dim_quadratic_check, 25, 0, true⟩
  match solveH env fuel opts o.1 m o.2 e with
  | (h, .error x) => (h, .error x)
  | (h, .ok b) => (h, .ok ((b.1 ++ b.2).flatMap fun t => reportedRoots (h.view t), b.1 ++ b.2))

end Heap

end YRoots
