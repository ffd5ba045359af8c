import Verif.Model.FloatZoom
import Verif.Model.Zoom

/-!
# One zoom and the zoom loop in floating-point arithmetic

`BoundingIntervalLinearSystem`, `zoomInOnIntervalIter` and the zoom loop of `solvePolyRecursive`, `ChebyshevSubdivisionSolver.py` lines 628-753,
896-956 and 1243-1252, with `exact=False`, every operation rounded.  Overflow, underflow and `nan` are left out.
-/

namespace YRoots

variable {n : ℕ} {K : Type*} [Field K] [LinearOrder K] [FloorSemiring K]

/-- Lines 702-729, rounded: one pass, starting from bounds `a0`, `b0`.  `np.product` multiplies the lengths one after the other. -/
def boundPassF (ar : FloatArith K) (svd : SvdF n K) (L : LinSys n K) (err : Fin n → K) (a0 : Fin n → WithBot K) (b0 : Fin n → WithTop K) :
    PassResult n K :=
  let r := rawBoundsF ar svd L err a0 b0
  let a := fun i => clampLo (r.1 i)
  let b := fun i => clampHi (r.2 i)
  { a := a, b := b, throwOut := throwOutOf r
    newRatio := ar.fl ((List.finRange n).foldl (fun p i => ar.fl (p * ar.fl (b i - a i))) 1 / 2 ^ n) }

/-- `BoundingIntervalLinearSystem(Ms, errors, finalStep)`, lines 628-753, rounded (see `boundingIntervalLinearSystem` for the aliases of the second
pass); the powers of `0.4` are rounded once. -/
def boundingIntervalLinearSystemF (ar : FloatArith K) (svd : SvdF n K) (Ms : Fin n → Tensor n K) (errors : Fin n → K) (finalStep : Bool) :
    BoundResult n K :=
  let L := linSysF ar Ms errors finalStep
  let wc := svd.wellConditioned L.A
  let init := linearCheck1F ar.fl L.totalErrs L.A L.consts
  let forceShouldStop := finalStep && !wc
  let r0 := boundPassF ar svd L L.err init.1 init.2
  let changed0 := r0.throwOut || decide (r0.newRatio < ar.fl (99 / 100))
  if changed0 then ⟨⟨r0.a, r0.b⟩, true, forceShouldStop, r0.throwOut⟩
  else
    let r1 := if wc then boundPassF ar svd L L.errors init.1 init.2
      else boundPassF ar svd L L.errors (fun i => (r0.a i : WithBot K)) (fun i => (r0.b i : WithTop K))
    let changed1 := r1.throwOut || decide (r1.newRatio < ar.fl (ar.fl (4 / 10) ^ n))
    let orig : Box n K := if wc then ⟨r0.a, r0.b⟩ else ⟨r1.a, r1.b⟩
    if changed1 then ⟨orig, false, forceShouldStop, false⟩
    else ⟨orig, false, wc || forceShouldStop, false⟩

/-- `transformChebToInterval(Ms, alphas, betas, errors, False)`, lines 861-894, rounded. -/
def transformChebToIntervalF (ar : FloatArith K) (Ms : Fin n → Tensor n K) (α β : Fin n → K) (errors : Fin n → K) :
    (Fin n → Tensor n K) × (Fin n → K) :=
  (fun i => (transformChebF ar (Ms i) α β (errors i)).1, fun i => (transformChebF ar (Ms i) α β (errors i)).2)

/-- `zoomInOnIntervalIter(Ms, errors, trackedInterval, False)`, lines 896-956, rounded. -/
def zoomInOnIntervalIterF (ar : FloatArith K) (svd : SvdF n K) (Ms : Fin n → Tensor n K) (errors : Fin n → K) (ti : TrackedInterval n K) :
    Except Exc (ZoomResult n K) :=
  let r := boundingIntervalLinearSystemF ar svd Ms errors ti.finalStep
  let interval := skipPointDims ti.interval r.interval
  -- "We can't throw out on the final step", lines 937-940
  let noThrow := r.throwOut && !ti.canThrowOut
  let throwOut := r.throwOut && !noThrow
  let changed := r.changed || noThrow
  let shouldStop := r.shouldStop || noThrow
  if throwOut then .ok ⟨Ms, errors, { ti with empty := true }, true, true⟩
  else if !changed then .ok ⟨Ms, errors, ti, changed, shouldStop⟩
  else
    let ti' := ti.addTransformF ar.fl interval
    match ti'.getLastTransform with
    | none => .error .indexError
    | some ab =>
      let p := transformChebToIntervalF ar Ms ab.1 ab.2 errors
      if ti'.finalStep && ti'.isPoint then .ok ⟨p.1, p.2, ti', false, true⟩
      else .ok ⟨p.1, p.2, ti', changed, shouldStop⟩

/-- The zoom loop of lines 1243-1252, rounded (see `zoomLoop`); `dimSize` is a rounded difference. -/
def zoomLoopF (ar : FloatArith K) (svd : SvdF n K) (maxZoomCount : ℕ) :
    ℕ → (Fin n → Tensor n K) → (Fin n → K) → TrackedInterval n K → (Fin n → K) → ℕ → Except Exc (ZoomResult n K)
  | 0, _, _, _, _, _ => .error .outOfFuel
  | fuel + 1, Ms, errors, ti, lastSizes, zoomCount =>
    match zoomInOnIntervalIterF ar svd Ms errors ti with
    | .error e => .error e
    | .ok r =>
      if r.ti.empty then .ok r
      else
        let newSizes := fun i => ar.fl (r.ti.dimSize i)
        let zoomCount' := if ∀ i, newSizes i ≥ ar.fl (lastSizes i / 2) then zoomCount + 1 else zoomCount
        if r.changed ∧ zoomCount' ≤ maxZoomCount then
          zoomLoopF ar svd maxZoomCount fuel r.Ms r.errors r.ti newSizes zoomCount'
        else .ok r

end YRoots
