import Verif.Model.Bounding
import Verif.Model.Float

/-!
# Model of the bounding step in floating-point arithmetic

`/repo/yroots/ChebyshevSubdivisionSolver.py`: `linearCheck1` (lines 608-626), `BoundingIntervalLinearSystem` up to the decision to throw the
interval out (lines 651-721), and the beginning of `solvePolyRecursive` up to the first zoom (lines 1200-1247, 928-944).  Every operation is
followed by the rounding `fl`; overflow, underflow and `nan` are left out.  Divisions and multiplications by a power of two are rounded too.
-/

namespace YRoots

variable {n : ℕ} {K : Type*} [Field K] [LinearOrder K]

/-- The arithmetic: `fl` rounds one operation, `sum` is `np.sum` of a list of numbers (whose order of additions depends on the length). -/
structure FloatArith (K : Type*) where
  fl : K → K
  sum : List K → K

/-- `np.sum` of fewer than eight numbers: one after the other. -/
def leftSum (fl : K → K) : List K → K
  | [] => 0
  | x :: l => l.foldl (fun s y => fl (s + y)) x

/-- The pair of bounds contributed by one matrix entry, lines 618-623. -/
def linBoundsF (fl : K → K) (totalErr A c : K) : K × K :=
  let v1 := fl (fl (totalErr / |A|) - 1)
  let v2 := fl (fl (2 * c) / A)
  if v2 ≥ 0 then (-v1, fl (v1 - v2)) else (fl (-v2 - v1), v1)

/-- `linearCheck1(totalErrs, A, consts)`, lines 608-626. -/
def linearCheck1F (fl : K → K) (totalErrs : Fin n → K) (A : Matrix (Fin n) (Fin n) K) (consts : Fin n → K) :
    (Fin n → WithBot K) × (Fin n → WithTop K) :=
  (fun col => (List.finRange n).foldl (fun a row =>
      if A row col ≠ 0 then max a ((linBoundsF fl (totalErrs row) (A row col) (consts row)).1 : K) else a) ⊥,
   fun col => (List.finRange n).foldl (fun b row =>
      if A row col ≠ 0 then min b ((linBoundsF fl (totalErrs row) (A row col) (consts row)).2 : K) else b) ⊤)

/-- `np.abs(M)`, flattened in C order. -/
def Tensor.absList (M : Tensor n K) : List K := (List.range (∏ i, M.shape i)).map fun p => |M.ravel p|

/-- Lines 651-687: linear terms, constants, error masses, row scaling, column preconditioning.  The columns are treated one after the other,
and `totalErrs += np.abs(A[:,i]) * (s - 1)` is rounded three times. -/
def linSysF [FloorSemiring K] (ar : FloatArith K) (Ms : Fin n → Tensor n K) (errors : Fin n → K) (finalStep : Bool) : LinSys n K :=
  let fl := ar.fl
  let errors : Fin n → K := if finalStep then fun _ => 0 else errors
  let A : Matrix (Fin n) (Fin n) K := Matrix.of fun i j => (getLinearTerms (Ms i)).getD j 0
  let consts := fun i => (Ms i).ravel 0
  let totalErrs := fun i => fl (ar.sum (Ms i).absList + errors i)
  let linearSums := fun i => ar.sum (List.ofFn fun j => |A i j|)
  let err := fun i => fl (fl (totalErrs i - |consts i|) - linearSums i)
  let s := fun i => rowScale (A i)
  let A : Matrix (Fin n) (Fin n) K := Matrix.of fun i j => fl (A i j / s i)
  let consts := fun i => fl (consts i / s i)
  let totalErrs := fun i => fl (totalErrs i / s i)
  let err := fun i => fl (err i / s i)
  let errors := fun i => fl (errors i / s i)
  let c := fun j => colScale (fun i => A i j)
  { A := Matrix.of fun i j => fl (A i j * c j)
    consts := consts
    totalErrs := fun i => (List.finRange n).foldl (fun t j => fl (t + fl (|A i j| * fl (c j - 1)))) (totalErrs i)
    err := err
    errors := errors
    colScaler := c }

/-- What the linear algebra gives, lines 692-698 and 708: the quotient `S[-1]/S[0]`, the test of line 694, `-Ainv@consts` and
`np.sum(np.abs(Ainv*err),axis=1)`, in whatever precision. -/
structure SvdF (n : ℕ) (K : Type*) where
  condNum : Matrix (Fin n) (Fin n) K → K
  wellConditioned : Matrix (Fin n) (Fin n) K → Bool
  center : Matrix (Fin n) (Fin n) K → (Fin n → K) → Fin n → K
  width : Matrix (Fin n) (Fin n) K → (Fin n → K) → Fin n → K

/-- Lines 696 and 702-717 of one pass of the loop, from the bounds `a0`, `b0`: the bounds before they are cut to `[-1, 1]`. -/
def rawBoundsF (ar : FloatArith K) (svd : SvdF n K) (L : LinSys n K) (err : Fin n → K) (a0 : Fin n → WithBot K) (b0 : Fin n → WithTop K) :
    (Fin n → WithBot K) × (Fin n → WithTop K) :=
  let fl := ar.fl
  let w : K := fl (max (svd.condNum L.A) 2 * macheps)
  let a : Fin n → WithBot K := fun i =>
    if svd.wellConditioned L.A then max ((fl (svd.center L.A L.consts i - svd.width L.A err i) : K) : WithBot K) (a0 i) else a0 i
  let b : Fin n → WithTop K := fun i =>
    if svd.wellConditioned L.A then min ((fl (svd.center L.A L.consts i + svd.width L.A err i) : K) : WithTop K) (b0 i) else b0 i
  (fun i => (a i).map (fun v => fl (fl (v * L.colScaler i) - w)), fun i => (b i).map (fun v => fl (fl (v * L.colScaler i) + w)))

/-- `np.any(a > b) or np.any(a > 1) or np.any(b < -1)`, line 721. -/
def throwOutOf (r : (Fin n → WithBot K) × (Fin n → WithTop K)) : Bool :=
  let gt : WithBot K → WithTop K → Bool := fun x y => match x, y with
    | (x : K), (y : K) => decide (x > y)
    | _, _ => false
  decide (∃ i, gt (r.1 i) (r.2 i) = true) || decide (∃ i, ((1 : K) : WithBot K) < r.1 i) || decide (∃ i, r.2 i < ((-1 : K) : WithTop K))

/-- `throwOut` of the first pass of the loop, lines 696 and 700-721; it is what `BoundingIntervalLinearSystem` returns if it is true
(lines 730-731, 737-739). -/
def throwOutF (ar : FloatArith K) (svd : SvdF n K) (L : LinSys n K) : Bool :=
  let init := linearCheck1F ar.fl L.totalErrs L.A L.consts
  throwOutOf (rawBoundsF ar svd L L.err init.1 init.2)

/-- The constant check, lines 1213-1217. -/
def constantCheckF (ar : FloatArith K) (Ms : Fin n → Tensor n K) (errors : Fin n → K) : Bool :=
  decide (∃ i, |(Ms i).ravel 0| > ar.fl (ar.fl (ar.sum (Ms i).absList - |(Ms i).ravel 0|) + errors i))

/-- The beginning of `solvePolyRecursive`, lines 1200-1247, on an interval that is not a point and not in the final step: whether it returns
`[], []` before anything is transformed or subdivided.  `quad` is the outcome of the quadratic checks and `trim` is `trimMs`
(line 1232), which returns the new arrays and errors. -/
def startDiscards [FloorSemiring K] (ar : FloatArith K) (svd : SvdF n K) (quad : (Fin n → Tensor n K) → (Fin n → K) → Bool)
    (trim : (Fin n → Tensor n K) → (Fin n → K) → (Fin n → Tensor n K) × (Fin n → K)) (Ms : Fin n → Tensor n K) (errors : Fin n → K) : Bool :=
  constantCheckF ar Ms errors || quad Ms errors ||
    (let tr := trim Ms errors
     throwOutF ar svd (linSysF ar tr.1 tr.2 false))

end YRoots
