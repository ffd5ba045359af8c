import Verif.Model.Interval
import Mathlib.Data.Int.Log
import Mathlib.LinearAlgebra.Matrix.Defs
import Mathlib.Data.Matrix.Mul
import Mathlib.Data.Matrix.Basic
import Mathlib.Order.WithBot

/-!
# Model of the linear bounding step

`/repo/yroots/ChebyshevSubdivisionSolver.py` lines 578-753.
-/

namespace YRoots

variable {n : ℕ} {K : Type*}

/-- `M.ravel()[p]` (C order): the entry whose multi-index has last component `p % shape[-1]`, and so on.
The index of axis `i` is `p / (shape[i+1]*...*shape[n-1]) % shape[i]`. -/
def Tensor.ravel (M : Tensor n K) (p : ℕ) : K :=
  M.coef fun i => p / (∏ j ∈ Finset.univ.filter (fun j => i < j), M.shape j) % M.shape i

/-- The loop of `getLinearTerms` over `M.shape[::-1]`: the terms collected so far and `spot`.
ChebyshevSubdivisionSolver.py lines 600-604. -/
def linearTermsLoop [Zero K] (M : Tensor n K) : List (Fin n) → ℕ → List K
  | [], _ => []
  | i :: l, spot => (if M.shape i = 1 then 0 else M.ravel spot) :: linearTermsLoop M l (spot * M.shape i)

/-- `getLinearTerms(M)`, ChebyshevSubdivisionSolver.py lines 578-605. -/
def getLinearTerms [Zero K] (M : Tensor n K) : List K :=
  (linearTermsLoop M (List.finRange n).reverse 1).reverse

variable [Field K] [LinearOrder K]

/-- The pair of bounds contributed by one matrix entry, ChebyshevSubdivisionSolver.py lines 618-623. -/
def linBounds (totalErr A c : K) : K × K :=
  let v1 := totalErr / |A| - 1
  let v2 := 2 * c / A
  if v2 ≥ 0 then (-v1, v1 - v2) else (-v2 - v1, v1)

/-- `linearCheck1(totalErrs, A, consts)`, ChebyshevSubdivisionSolver.py lines 608-626.
`-inf`/`inf` are `⊥`/`⊤`.  The two loops only ever touch entry `col`, row after row. -/
def linearCheck1 (totalErrs : Fin n → K) (A : Matrix (Fin n) (Fin n) K) (consts : Fin n → K) :
    (Fin n → WithBot K) × (Fin n → WithTop K) :=
  (fun col => (List.finRange n).foldl (fun a row =>
      if A row col ≠ 0 then max a ((linBounds (totalErrs row) (A row col) (consts row)).1 : K) else a) ⊥,
   fun col => (List.finRange n).foldl (fun b row =>
      if A row col ≠ 0 then min b ((linBounds (totalErrs row) (A row col) (consts row)).2 : K) else b) ⊤)

/-- `np.linalg.svd`: an external function. -/
structure SVD (n : ℕ) (K : Type*) where
  U : Matrix (Fin n) (Fin n) K → Matrix (Fin n) (Fin n) K
  S : Matrix (Fin n) (Fin n) K → Fin n → K
  Vh : Matrix (Fin n) (Fin n) K → Matrix (Fin n) (Fin n) K

namespace SVD

variable (svd : SVD n K) (A : Matrix (Fin n) (Fin n) K)

/-- `condNum = S[-1]/S[0]`, line 693 (for `n = 0` the code fails earlier). -/
def condNum : K :=
  if h : 0 < n then svd.S A ⟨n - 1, by omega⟩ / svd.S A ⟨0, h⟩ else 0

/-- `wellConditioned`, line 694. -/
def wellConditioned : Bool :=
  if h : 0 < n then decide (svd.S A ⟨0, h⟩ > 0 ∧ svd.condNum A > 1 / 10 ^ 10) else false

/-- `Ainv = (1/S * Vh.T) @ U.T`, line 697. -/
def ainv : Matrix (Fin n) (Fin n) K :=
  (Matrix.of fun i j => 1 / svd.S A j * (svd.Vh A).transpose i j) * (svd.U A).transpose

end SVD

/-- Contract of `np.linalg.svd` in exact arithmetic, needed only where the code trusts it: singular values
descend and are nonnegative, and if the code declares the matrix well conditioned, `U`, `Vh` are orthogonal
and `A = U diag(S) Vh`. -/
structure SVD.Valid (svd : SVD n K) : Prop where
  nonneg : ∀ A i, 0 ≤ svd.S A i
  anti : ∀ A i j, i ≤ j → svd.S A j ≤ svd.S A i
  orthU : ∀ A, svd.wellConditioned A = true → (svd.U A).transpose * svd.U A = 1
  orthV : ∀ A, svd.wellConditioned A = true → (svd.Vh A).transpose * svd.Vh A = 1
  factor : ∀ A, svd.wellConditioned A = true → A = svd.U A * Matrix.diagonal (svd.S A) * svd.Vh A

/-- `max_i v_i` over all coordinates (0 for `n = 0`), for `np.max(np.abs(...))`. -/
def maxAbs (v : Fin n → K) : K := (List.finRange n).foldl (fun m i => max m |v i|) 0

/-- `2.**int(np.floor(np.log2(x)))`. -/
def pow2Floor [FloorSemiring K] (x : K) : K := (2 : K) ^ (Int.log 2 x)

/-- Row scale of lines 670-672 (`1` if the row vanishes: the code then leaves the row alone). -/
def rowScale [FloorSemiring K] (v : Fin n → K) : K :=
  if maxAbs v > 0 then pow2Floor (maxAbs v) else 1

/-- Column scale of lines 680-685. -/
def colScale [FloorSemiring K] (v : Fin n → K) : K :=
  if maxAbs v > 0 then (2 : K) ^ (-Int.log 2 (maxAbs v)) else 1

/-- The scaled linear system that both passes of the loop work on. -/
structure LinSys (n : ℕ) (K : Type*) where
  A : Matrix (Fin n) (Fin n) K
  consts : Fin n → K
  totalErrs : Fin n → K
  err : Fin n → K
  errors : Fin n → K
  colScaler : Fin n → K

/-- Lines 651-687: linear terms, constants, error masses, row scaling, column preconditioning.
(The column loop updates `totalErrs` with `A[:,i]` before scaling column `i`, and different columns do not
interact.) -/
def linSys [FloorSemiring K] (Ms : Fin n → Tensor n K) (errors : Fin n → K) (finalStep : Bool) :
    LinSys n K :=
  let errors : Fin n → K := if finalStep then fun _ => 0 else errors
  let A : Matrix (Fin n) (Fin n) K := Matrix.of fun i j => (getLinearTerms (Ms i)).getD j 0
  let consts := fun i => (Ms i).ravel 0
  let totalErrs := fun i => (Ms i).absSum + errors i
  let linearSums := fun i => ∑ j, |A i j|
  let err := fun i => totalErrs i - |consts i| - linearSums i
  let s := fun i => rowScale (A i)
  let A : Matrix (Fin n) (Fin n) K := Matrix.of fun i j => A i j / s i
  let consts := fun i => consts i / s i
  let totalErrs := fun i => totalErrs i / s i
  let err := fun i => err i / s i
  let errors := fun i => errors i / s i
  let c := fun j => colScale (fun i => A i j)
  { A := Matrix.of fun i j => A i j * c j
    consts := consts
    totalErrs := fun i => totalErrs i + ∑ j, |A i j| * (c j - 1)
    err := err
    errors := errors
    colScaler := c }

/-- Outcome of one pass of the loop of lines 701-753 up to line 735. -/
structure PassResult (n : ℕ) (K : Type*) where
  a : Fin n → K
  b : Fin n → K
  throwOut : Bool
  newRatio : K

/-- Clamp into `[-1,1]` (lines 722-725), lower bound `-inf` allowed. -/
def clampLo [FloorSemiring K] : WithBot K → K
  | ⊥ => -1
  | (x : K) => if x < -1 then -1 else if x > 1 then 1 else x

/-- Clamp into `[-1,1]` (lines 722-725), upper bound `inf` allowed. -/
def clampHi [FloorSemiring K] : WithTop K → K
  | ⊤ => 1
  | (x : K) => if x < -1 then -1 else if x > 1 then 1 else x

/-- Lines 702-729: one pass, starting from bounds `a0`, `b0`. -/
def boundPass [FloorSemiring K] (svd : SVD n K) (L : LinSys n K) (err : Fin n → K)
    (a0 : Fin n → WithBot K) (b0 : Fin n → WithTop K) : PassResult n K :=
  let w : K := max (svd.condNum L.A) 2 * macheps
  let ainv := svd.ainv L.A
  let center : Fin n → K := fun i => -∑ k, ainv i k * L.consts k
  let width : Fin n → K := fun i => ∑ k, |ainv i k * err k|
  let wc := svd.wellConditioned L.A
  let a : Fin n → WithBot K := fun i => if wc then max ((center i - width i : K) : WithBot K) (a0 i) else a0 i
  let b : Fin n → WithTop K := fun i => if wc then min ((center i + width i : K) : WithTop K) (b0 i) else b0 i
  let a : Fin n → WithBot K := fun i => (a i).map (fun v => v * L.colScaler i - w)
  let b : Fin n → WithTop K := fun i => (b i).map (fun v => v * L.colScaler i + w)
  let gt : WithBot K → WithTop K → Bool := fun x y => match x, y with
    | (x : K), (y : K) => decide (x > y)
    | _, _ => false
  let throwOut := decide (∃ i, gt (a i) (b i) = true) || decide (∃ i, ((1 : K) : WithBot K) < a i)
    || decide (∃ i, b i < ((-1 : K) : WithTop K))
  let a' := fun i => clampLo (a i)
  let b' := fun i => clampHi (b i)
  { a := a', b := b', throwOut := throwOut, newRatio := (∏ i, (b' i - a' i)) / 2 ^ n }

/-- Result of `BoundingIntervalLinearSystem`. -/
structure BoundResult (n : ℕ) (K : Type*) where
  interval : Box n K
  changed : Bool
  shouldStop : Bool
  throwOut : Bool

/-- `BoundingIntervalLinearSystem(Ms, errors, finalStep)`, ChebyshevSubdivisionSolver.py lines 628-753.
If the matrix is not well conditioned, `a = a_init` is an alias (lines 702-703): the second pass starts from the
result of the first one, and the arrays `a_orig`, `b_orig` returned at the end are those of the second pass. -/
def boundingIntervalLinearSystem [FloorSemiring K] (svd : SVD n K) (Ms : Fin n → Tensor n K)
    (errors : Fin n → K) (finalStep : Bool) : BoundResult n K :=
  let L := linSys Ms errors finalStep
  let wc := svd.wellConditioned L.A
  let init := linearCheck1 L.totalErrs L.A L.consts
  let forceShouldStop := finalStep && !wc
  let r0 := boundPass svd L L.err init.1 init.2
  let changed0 := r0.throwOut || decide (r0.newRatio < 99 / 100)
  if changed0 then ⟨⟨r0.a, r0.b⟩, true, forceShouldStop, r0.throwOut⟩
  else
    let r1 := if wc then boundPass svd L L.errors init.1 init.2
      else boundPass svd L L.errors (fun i => (r0.a i : WithBot K)) (fun i => (r0.b i : WithTop K))
    let changed1 := r1.throwOut || decide (r1.newRatio < (4 / 10) ^ n)
    let orig : Box n K := if wc then ⟨r0.a, r0.b⟩ else ⟨r1.a, r1.b⟩
    if changed1 then ⟨orig, false, forceShouldStop, false⟩
    else ⟨orig, false, wc || forceShouldStop, false⟩

end YRoots
