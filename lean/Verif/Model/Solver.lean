import Verif.Model.Combine

/-!
# Model of the recursive solver

`/repo/yroots/ChebyshevSubdivisionSolver.py` lines 12-43, 1173-1464.  Recursion and the zoom loop carry fuel;
running out of it is the value `Exc.outOfFuel`, so that "the run returns" is "the result is `.ok`".
Printing, timing and warnings are left out.
-/

namespace YRoots

variable {n : ℕ} {K : Type*}

/-- External functions: `np.linalg.svd`, `np.argsort`, iteration over a set of dimensions, and (as a parameter, so
that the solver can be studied separately) `quadratic_check`. -/
structure Env (n : ℕ) (K : Type*) where
  svd : SVD n K
  argsort : List ℕ → List ℕ
  setIter : Finset (Fin n) → List (Fin n)
  quadraticCheck : Tensor n K → K → Bool

/-- `SolverOptions`, lines 12-43, and `useFinalStep` set at line 1430. -/
structure Opts where
  exact : Bool
  constant_check : Bool
  low_dim_quadratic_check : Bool
  all_dim_quadratic_check : Bool
  maxZoomCount : ℕ
  level : ℕ
  useFinalStep : Bool

variable [Field K] [LinearOrder K] [FloorSemiring K]

/-- `isExteriorInterval`, lines 1173-1175: `np.any` over all entries. -/
def isExteriorInterval (orig t : TrackedInterval n K) : Bool :=
  decide (∃ i, t.getIntervalForCombining.lo i = orig.getIntervalForCombining.lo i ∨
    t.getIntervalForCombining.hi i = orig.getIntervalForCombining.hi i)

/-- The zoom loop of lines 1243-1252.  Stops with `ti.empty` (then lines 1246-1247 discard the box), or when nothing
changed or the count is exceeded. -/
def zoomLoop (svd : SVD n K) (exact : Bool) (maxZoomCount : ℕ) :
    ℕ → (Fin n → Tensor n K) → (Fin n → K) → TrackedInterval n K → (Fin n → K) → ℕ → Except Exc (ZoomResult n K)
  | 0, _, _, _, _, _ => .error .outOfFuel
  | fuel + 1, Ms, errors, ti, lastSizes, zoomCount =>
    match zoomInOnIntervalIter svd Ms errors ti exact with
    | .error e => .error e
    | .ok r =>
      if r.ti.empty then .ok r
      else
        let newSizes := r.ti.dimSize
        let zoomCount' := if ∀ i, newSizes i ≥ lastSizes i / 2 then zoomCount + 1 else zoomCount
        if r.changed ∧ zoomCount' ≤ maxZoomCount then
          zoomLoop svd exact maxZoomCount fuel r.Ms r.errors r.ti newSizes zoomCount'
        else .ok r

/-- A pair `(boundingBoxesInterior, boundingBoxesExterior)`. -/
abbrev Boxes (n : ℕ) (K : Type*) := List (TrackedInterval n K) × List (TrackedInterval n K)

/-- Lines 1259-1262, 1276-1279, 1295-1298. -/
def returnOne (orig t : TrackedInterval n K) : Boxes n K :=
  if isExteriorInterval orig t then ([], [t]) else ([t], [])

/-- Lines 1282-1289: keep the first result for each lower corner. -/
def dedupe (results : List (TrackedInterval n K)) : List (TrackedInterval n K) :=
  results.foldl (fun acc t => if ∃ s ∈ acc, s.interval.lo = t.interval.lo then acc else acc ++ [t]) []

/-- Lines 1290-1294. -/
def duplicateRoots (results : List (TrackedInterval n K)) : List (Fin n → K) :=
  results.flatMap fun t => if t.possibleDuplicateRoots.length > 0 then t.possibleDuplicateRoots
    else [t.getFinalPoint]

/-- One element of the loop of lines 1368-1384. -/
def rerunOne (rec : (Fin n → Tensor n K) → TrackedInterval n K → (Fin n → K) → Except Exc (Boxes n K))
    (exact : Bool) (originalMs : Fin n → Tensor n K) (errors : Fin n → K) (orig t : TrackedInterval n K) :
    Except Exc (Boxes n K) :=
  if t.reRun then
    if ∀ i, t.interval.lo i = orig.interval.lo i ∧ t.interval.hi i = orig.interval.hi i then .ok ([], [t])
    else
      match t.getLastTransform with
      | none => .error .indexError
      | some ab =>
        let p := transformChebToInterval originalMs ab.1 ab.2 errors exact
        rec p.1 t p.2
  else .ok (returnOne orig t)

/-- The quadratic check of lines 1221-1224. -/
def quadraticDiscard (env : Env n K) (opts : Opts) (Ms : Fin n → Tensor n K) (errors : Fin n → K) : Bool :=
  ((opts.low_dim_quadratic_check && decide (n ≤ 3)) || opts.all_dim_quadratic_check) &&
    decide (∃ i, env.quadraticCheck (Ms i) (errors i) = true)

/-- `solvePolyRecursive(Ms, trackedInterval, errors, solverOptions)`, lines 1177-1385. -/
def solvePolyRecursive (env : Env n K) : ℕ → Opts → (Fin n → Tensor n K) → TrackedInterval n K → (Fin n → K) →
    Except Exc (Boxes n K)
  | 0, _, _, _, _ => .error .outOfFuel
  | fuel + 1, opts, Ms, ti, errors =>
    if ti.isPoint then .ok ([], [ti])
    else
      let opts := { opts with level := opts.level + 1 }
      if opts.constant_check && constantCheck Ms errors then .ok ([], [])
      else if quadraticDiscard env opts Ms errors then .ok ([], [])
      else
        let originalMs := Ms
        let ti := ti.copy
        let tr := trimMs Ms errors (1 / 10 ^ 3) 0
        let orig := ti.copy
        match zoomLoop env.svd opts.exact opts.maxZoomCount fuel tr.1 tr.2 ti ti.dimSize 0 with
        | .error e => .error e
        | .ok z =>
          if z.ti.empty then .ok ([], [])
          else if z.shouldStop then
            if z.ti.finalStep || !opts.useFinalStep then .ok (returnOne orig z.ti)
            else solvePolyRecursive env fuel opts z.Ms z.ti.startFinalStep z.errors
          else if z.ti.finalStep then
            let t := { z.ti with canThrowOutFinalStep := true }
            match getSubdivisionIntervals env.argsort env.setIter z.Ms z.errors t opts.exact opts.level with
            | .error e => .error e
            | .ok cs =>
              match cs.mapM fun c => solvePolyRecursive env fuel opts c.Ms c.ti c.errors with
              | .error e => .error e
              | .ok rs =>
                let resultsAll := rs.flatMap fun r => r.1 ++ r.2
                if resultsAll.length = 0 then .ok (returnOne orig { t with possibleExtraRoot := true })
                else
                  .ok (returnOne orig { t with
                    possibleDuplicateRoots := t.possibleDuplicateRoots ++ duplicateRoots (dedupe resultsAll) })
          else
            match getSubdivisionIntervals env.argsort env.setIter z.Ms z.errors z.ti opts.exact opts.level with
            | .error e => .error e
            | .ok cs =>
              match cs.mapM fun c => solvePolyRecursive env fuel opts c.Ms c.ti c.errors with
              | .error e => .error e
              | .ok rs =>
                match combineExterior orig (rs.flatMap (·.2)) with
                | .error e => .error e
                | .ok ext =>
                  match ext.mapM (rerunOne (fun Ms t e => solvePolyRecursive env fuel opts Ms t e) opts.exact
                      originalMs z.errors orig) with
                  | .error e => .error e
                  | .ok rs' => .ok (rs.flatMap (·.1) ++ rs'.flatMap (·.1), rs'.flatMap (·.2))

/-- Roots reported for one bounding interval, lines 1440-1450. -/
def reportedRoots (t : TrackedInterval n K) : List (Fin n → K) :=
  if t.possibleDuplicateRoots.length > 0 then t.possibleDuplicateRoots else [t.getFinalPoint]

/-- `solveChebyshevSubdivision(Ms, errors, ...)`, lines 1387-1464: roots and bounding intervals.  The typing `n`
polynomials in `n` variables with `n` errors replaces the two `ValueError`s of lines 1417-1420. -/
def solveChebyshevSubdivision (env : Env n K) (fuel : ℕ) (Ms : Fin n → Tensor n K) (errors : Fin n → K)
    (exact : Bool := false) (constant_check : Bool := true) (low_dim_quadratic_check : Bool := true)
    (all_dim_quadratic_check : Bool := false) :
    Except Exc (List (Fin n → K) × List (TrackedInterval n K)) :=
  let opts : Opts := ⟨exact, constant_check, low_dim_quadratic_check, all_dim_quadratic_check, 25, 0, true⟩
  match solvePolyRecursive env fuel opts Ms (TrackedInterval.new (Box.unit n K)) errors with
  | .error e => .error e
  | .ok b => .ok ((b.1 ++ b.2).flatMap reportedRoots, b.1 ++ b.2)

end YRoots
