import Verif.Model.Tensor
import Mathlib.Algebra.Order.Field.Basic
import Mathlib.Algebra.Module.Pi
import Mathlib.Logic.Function.Basic

/-!
# Model of the Chebyshev re-expansion code

`/repo/yroots/ChebyshevSubdivisionSolver.py` lines 45-374 and 756-862.

Simplifications common to the whole file: arithmetic is exact; a numpy buffer of fixed length is a
function `ℕ → K` that is zero where it was never written; the rows of the (possibly transposed)
coefficient array are elements of a `K`-module `V` (for an n-D array: its slices).
-/

namespace YRoots

section OneD

variable {K : Type*} [Field K] [LinearOrder K]
variable {V : Type*} [AddCommGroup V] [Module K V]

/-- State of the column loop of `TransformChebInPlace1D`
(ChebyshevSubdivisionSolver.py lines 67-83): three column buffers, the output rows, `maxRow`. -/
structure TState (K V : Type*) where
  arr1 : ℕ → K
  arr2 : ℕ → K
  arr3 : ℕ → K
  out : ℕ → V
  maxRow : ℕ

/-- `arr3[i] = v; transformedCoeffs[i] += thisCoeff * v`
(the pair of statements repeated in lines 87-103, 110-111). -/
def putRow (c : V) (i : ℕ) (v : K) (p : (ℕ → K) × (ℕ → V)) : (ℕ → K) × (ℕ → V) :=
  (Function.update p.1 i v, Function.update p.2 i (p.2 i + v • c))

/-- Initialisation, ChebyshevSubdivisionSolver.py lines 67-83. -/
def tInit (coeffs : ℕ → V) (α β : K) : TState K V where
  arr1 := Function.update (fun _ => 0) 0 1
  arr2 := Function.update (Function.update (fun _ => 0) 0 β) 1 α
  arr3 := fun _ => 0
  out := Function.update (Function.update (fun _ => 0) 0 (coeffs 0 + β • coeffs 1)) 1 (α • coeffs 1)
  maxRow := 2

/-- Rows `0 .. maxRow-1` of the next column, ChebyshevSubdivisionSolver.py lines 86-103. -/
def tRows (c : V) (α β : K) (s : TState K V) : (ℕ → K) × (ℕ → V) :=
  -- The first entry (lines 87-88)
  let p := putRow c 0 (-s.arr1 0 + α * s.arr2 1 + 2 * β * s.arr2 0) (s.arr3, s.out)
  -- The second entry (lines 91-93)
  let p := if s.maxRow > 2 then
      putRow c 1 (-s.arr1 1 + α * (2 * s.arr2 0 + s.arr2 2) + 2 * β * s.arr2 1) p
    else p
  -- All middle entries, `for i in range(2, maxRow - 1)` (lines 96-98)
  let p := (List.range' 2 (s.maxRow - 1 - 2)).foldl
    (fun p i => putRow c i (-s.arr1 i + α * (s.arr2 (i - 1) + s.arr2 (i + 1)) + 2 * β * s.arr2 i) p) p
  -- The second to last entry (lines 101-103)
  let i := s.maxRow - 1
  putRow c i (-s.arr1 i + (if i = 1 then 2 else 1) * α * s.arr2 (i - 1) + 2 * β * s.arr2 i) p

/-- One pass of the column loop of `TransformChebInPlace1D`,
ChebyshevSubdivisionSolver.py lines 84-118, with drop threshold `thr` (`1e-16` in the code). -/
def tStep (thr : K) (coeffs : ℕ → V) (α β : K) (s : TState K V) (col : ℕ) : TState K V :=
  let c := coeffs col
  let p := tRows c α β s
  -- The last entry (lines 106-112)
  let finalVal := α * s.arr2 (s.maxRow - 1)
  let q := if |finalVal| > thr then putRow c s.maxRow finalVal p else p
  let maxRow := if |finalVal| > thr then s.maxRow + 1 else s.maxRow
  -- rotate the buffers (lines 115-118)
  { arr1 := s.arr2, arr2 := q.1, arr3 := s.arr1, out := q.2, maxRow := maxRow }

/-- `TransformChebInPlace1D(coeffs, alpha, beta)`, ChebyshevSubdivisionSolver.py lines 45-120.
`N = len(coeffs)`; the result is `(rows, number of rows)`, i.e. `transformedCoeffs[:maxRow]`.
The code raises an `IndexError` for `N < 2`; callers never pass `N = 1` (line 363). -/
def transform1D (thr : K) (coeffs : ℕ → V) (N : ℕ) (α β : K) : (ℕ → V) × ℕ :=
  let s := (List.range' 2 (N - 2)).foldl (tStep thr coeffs α β) (tInit coeffs α β)
  (s.out, s.maxRow)

/-! ### Error-free transformations, in exact arithmetic -/

/-- `TwoSum`, ChebyshevSubdivisionSolver.py lines 755-761 (exact arithmetic). -/
def twoSum (a b : K) : K × K :=
  let x := a + b
  let z := x - a
  let y := (a - (x - z)) + (b - z)
  (x, y)

/-- `Split`, ChebyshevSubdivisionSolver.py lines 769-775 (exact arithmetic). -/
def split (a : K) : K × K :=
  let c := (2 ^ 27 + 1) * a
  let x := c - (c - a)
  let y := a - x
  (x, y)

/-- `TwoProd`, ChebyshevSubdivisionSolver.py lines 783-790 (exact arithmetic). -/
def twoProd (a b : K) : K × K :=
  let x := a * b
  let a12 := split a
  let b12 := split b
  let y := a12.2 * b12.2 - (((x - a12.1 * b12.1) - a12.2 * b12.1) - a12.1 * b12.2)
  (x, y)

/-- `TwoProdWithSplit`, ChebyshevSubdivisionSolver.py lines 799-805 (exact arithmetic). -/
def twoProdWithSplit (a b a1 a2 : K) : K × K :=
  let x := a * b
  let b12 := split b
  let y := a2 * b12.2 - (((x - a1 * b12.1) - a2 * b12.1) - a1 * b12.2)
  (x, y)

/-! ### The `exact=True` variant -/

/-- State of the loop of `TransformChebInPlace1DErrorFree`
(ChebyshevSubdivisionSolver.py lines 145-165): value and error buffers. -/
structure EState (K V : Type*) where
  arr1 : ℕ → K
  arr2 : ℕ → K
  arr3 : ℕ → K
  arr1E : ℕ → K
  arr2E : ℕ → K
  arr3E : ℕ → K
  out : ℕ → V
  maxRow : ℕ

/-- `arr3[i] = v; arr3E[i] = e; transformedCoeffs[i] += thisCoeff * (arr3[i] + arr3E[i])`
(repeated in lines 177-225 and 286-324). -/
def putRowE (c : V) (i : ℕ) (v e : K) (p : (ℕ → K) × (ℕ → K) × (ℕ → V)) :
    (ℕ → K) × (ℕ → K) × (ℕ → V) :=
  (Function.update p.1 i v, Function.update p.2.1 i e,
    Function.update p.2.2 i (p.2.2 i + (v + e) • c))

/-- Initialisation of the error-free variant, lines 145-165 (also 260-277 with
`beta = betaSign*0.5`, `alpha = 0.5`). -/
def eInit (coeffs : ℕ → V) (α β : K) : EState K V where
  arr1 := Function.update (fun _ => 0) 0 1
  arr2 := Function.update (Function.update (fun _ => 0) 0 β) 1 α
  arr3 := fun _ => 0
  arr1E := fun _ => 0
  arr2E := fun _ => 0
  arr3E := fun _ => 0
  out := Function.update (Function.update (fun _ => 0) 0 (coeffs 0 + β • coeffs 1)) 1 (α • coeffs 1)
  maxRow := 2

/-- One pass of the loop of `TransformChebInPlace1DErrorFree`,
ChebyshevSubdivisionSolver.py lines 166-237, with drop threshold `thr` (`1e-32` in the code). -/
def eStep (thr : K) (coeffs : ℕ → V) (α β : K) (s : EState K V) (col : ℕ) : EState K V :=
  let c := coeffs col
  let α1 := (split α).1
  let α2 := (split α).2
  let β1 := (split β).1
  let β2 := (split β).2
  -- The 0 spot (lines 173-181)
  let V1 := twoProdWithSplit β (2 * s.arr2 0) β1 β2
  let V2 := twoProdWithSplit α (s.arr2 1) α1 α2
  let V3 := twoSum V1.1 V2.1
  let V4 := twoSum V3.1 (-s.arr1 0)
  let p := putRowE c 0 V4.1
    (-s.arr1E 0 + α * s.arr2E 1 + 2 * β * s.arr2E 0 + V1.2 + V2.2 + V3.2 + V4.2)
    (s.arr3, s.arr3E, s.out)
  -- The 1 spot (lines 185-194)
  let p := if s.maxRow > 2 then
      let V1 := twoSum (2 * s.arr2 0) (s.arr2 2)
      let V2 := twoProdWithSplit β (2 * s.arr2 1) β1 β2
      let V3 := twoProdWithSplit α V1.1 α1 α2
      let V4 := twoSum V2.1 V3.1
      let V5 := twoSum V4.1 (-s.arr1 1)
      putRowE c 1 V5.1
        (-s.arr1E 1 + α * (2 * s.arr2E 0 + s.arr2E 2 + V1.2) + 2 * β * s.arr2E 1
          + V2.2 + V3.2 + V4.2 + V5.2) p
    else p
  -- The middle spots (lines 197-206)
  let p := (List.range' 2 (s.maxRow - 1 - 2)).foldl
    (fun p i =>
      let V1 := twoSum (s.arr2 (i - 1)) (s.arr2 (i + 1))
      let V2 := twoProdWithSplit β (2 * s.arr2 i) β1 β2
      let V3 := twoProdWithSplit α V1.1 α1 α2
      let V4 := twoSum V2.1 V3.1
      let V5 := twoSum V4.1 (-s.arr1 i)
      putRowE c i V5.1
        (-s.arr1E i + α * (s.arr2E (i - 1) + s.arr2E (i + 1) + V1.2) + 2 * β * s.arr2E i
          + V2.2 + V3.2 + V4.2 + V5.2) p) p
  -- The second to last spot (lines 209-218)
  let i := s.maxRow - 1
  let C1 : K := if i = 1 then 2 else 1
  let V1 := twoProdWithSplit β (2 * s.arr2 i) β1 β2
  let V2 := twoProdWithSplit α (C1 * s.arr2 (i - 1)) α1 α2
  let V3 := twoSum V1.1 V2.1
  let V4 := twoSum V3.1 (-s.arr1 i)
  let p := putRowE c i V4.1
    (-s.arr1E i + C1 * α * s.arr2E (i - 1) + 2 * β * s.arr2E i + V1.2 + V2.2 + V3.2 + V4.2) p
  -- The last spot (lines 222-227): always written, but `maxRow` only grows if it is not tiny
  let F := twoProdWithSplit α (s.arr2 i) α1 α2
  let fE := F.2 + α * s.arr2E i
  let p := putRowE c s.maxRow F.1 fE p
  let maxRow := if |F.1 + fE| > thr then s.maxRow + 1 else s.maxRow
  -- rotate the buffers (lines 230-237)
  { arr1 := s.arr2, arr2 := p.1, arr3 := s.arr1
    arr1E := s.arr2E, arr2E := p.2.1, arr3E := s.arr1E, out := p.2.2, maxRow := maxRow }

/-- One pass of the loop of `TransformChebInPlace1DErrorFreeSplit`,
ChebyshevSubdivisionSolver.py lines 278-336; `bs = betaSign`. -/
def eStepSplit (thr : K) (coeffs : ℕ → V) (bs : K) (s : EState K V) (col : ℕ) : EState K V :=
  let c := coeffs col
  -- The 0 spot (lines 284-288)
  let V1 := twoSum (s.arr2 1 / 2) (bs * s.arr2 0)
  let V2 := twoSum V1.1 (-s.arr1 0)
  let p := putRowE c 0 V2.1
    (-s.arr1E 0 + s.arr2E 1 / 2 + bs * s.arr2E 0 + V1.2 + V2.2) (s.arr3, s.arr3E, s.out)
  -- The 1 spot (lines 291-298)
  let p := if s.maxRow > 2 then
      let V1 := twoSum (s.arr2 0) (s.arr2 2 / 2)
      let V2 := twoSum V1.1 (bs * s.arr2 1)
      let V3 := twoSum V2.1 (-s.arr1 1)
      putRowE c 1 V3.1
        (-s.arr1E 1 + s.arr2E 0 + s.arr2E 2 / 2 + bs * s.arr2E 1 + V1.2 + V2.2 + V3.2) p
    else p
  -- The middle spots (lines 301-308)
  let p := (List.range' 2 (s.maxRow - 1 - 2)).foldl
    (fun p i =>
      let V1 := twoSum (s.arr2 (i - 1)) (s.arr2 (i + 1))
      let V2 := twoSum (V1.1 / 2) (bs * s.arr2 i)
      let V3 := twoSum V2.1 (-s.arr1 i)
      putRowE c i V3.1
        (-s.arr1E i + (s.arr2E (i - 1) + s.arr2E (i + 1) + V1.2) / 2 + bs * s.arr2E i
          + V2.2 + V3.2) p) p
  -- The second to last spot (lines 311-318)
  let i := s.maxRow - 1
  let C1 : K := if i = 1 then 1 else 1 / 2
  let V1 := twoSum (C1 * s.arr2 (i - 1)) (bs * s.arr2 i)
  let V2 := twoSum V1.1 (-s.arr1 i)
  let p := putRowE c i V2.1
    (-s.arr1E i + C1 * s.arr2E (i - 1) + bs * s.arr2E i + V1.2 + V2.2) p
  -- The last spot (lines 322-326)
  let p := putRowE c s.maxRow (s.arr2 i / 2) (s.arr2E i / 2) p
  let maxRow := if |s.arr2 i / 2 + s.arr2E i / 2| > thr then s.maxRow + 1 else s.maxRow
  { arr1 := s.arr2, arr2 := p.1, arr3 := s.arr1
    arr1E := s.arr2E, arr2E := p.2.1, arr3E := s.arr1E, out := p.2.2, maxRow := maxRow }

/-- `TransformChebInPlace1DErrorFreeSplit(coeffs, betaSign)`,
ChebyshevSubdivisionSolver.py lines 240-337. -/
def transform1DErrorFreeSplit (thr : K) (coeffs : ℕ → V) (N : ℕ) (bs : K) : (ℕ → V) × ℕ :=
  let s := (List.range' 2 (N - 2)).foldl (eStepSplit thr coeffs bs) (eInit coeffs (1 / 2) (bs * (1 / 2)))
  (s.out, s.maxRow)

/-- `np.sign`. -/
def npSign (x : K) : K := if x < 0 then -1 else if x = 0 then 0 else 1

/-- `TransformChebInPlace1DErrorFree(coeffs, alpha, beta)`,
ChebyshevSubdivisionSolver.py lines 122-238. -/
def transform1DErrorFree (thr : K) (coeffs : ℕ → V) (N : ℕ) (α β : K) : (ℕ → V) × ℕ :=
  if α = 1 / 2 ∧ |β| = 1 / 2 then transform1DErrorFreeSplit thr coeffs N (npSign β)
  else
    let s := (List.range' 2 (N - 2)).foldl (eStep thr coeffs α β) (eInit coeffs α β)
    (s.out, s.maxRow)

/-- `TransformFunc` of line 365, with the literal thresholds of lines 109, 226, 325. -/
def transformFunc (exact : Bool) (coeffs : ℕ → V) (N : ℕ) (α β : K) : (ℕ → V) × ℕ :=
  if exact then transform1DErrorFree (1 / 10 ^ 32) coeffs N α β
  else transform1D (1 / 10 ^ 16) coeffs N α β

end OneD

/-! ### n-D transformation -/

section ND

variable {n : ℕ} {K : Type*}

/-- `numpy.transpose(axes)`: axis `i` of the result is axis `axes[i]` of the argument. -/
def Tensor.transpose (M : Tensor n K) (axes : Equiv.Perm (Fin n)) : Tensor n K where
  shape i := M.shape (axes i)
  coef k := M.coef fun j => k (axes.symm j)

/-- The axis order `[dim] + [0..dim-1] + [dim+1..]` of ChebyshevSubdivisionSolver.py line 370;
its inverse is `backOrder` of lines 372-373. -/
def moveAxisOrder (d : Fin n) : Equiv.Perm (Fin n) where
  toFun i := if i.1 = 0 then d else if i.1 ≤ d.1 then ⟨i.1 - 1, by omega⟩ else i
  invFun i := if i = d then ⟨0, d.pos⟩ else if h : i.1 < d.1 then ⟨i.1 + 1, by omega⟩ else i
  left_inv i := by
    ext
    by_cases h0 : i.1 = 0
    · simp [h0]
    · by_cases h1 : i.1 ≤ d.1
      · have : ¬ (i.1 - 1 = d.1) := by omega
        have h2 : i.1 - 1 < d.1 := by omega
        simp [h0, h1, Fin.ext_iff, this, h2]; omega
      · have : ¬ (i.1 = d.1) := by omega
        have h2 : ¬ i.1 < d.1 := by omega
        simp [h0, h1, Fin.ext_iff, this, h2]
  right_inv i := by
    ext
    by_cases h0 : i = d
    · simp [h0]
    · have h0' : i.1 ≠ d.1 := fun h => h0 (Fin.ext h)
      by_cases h1 : i.1 < d.1
      · have h2 : i.1 + 1 ≤ d.1 := by omega
        simp [h0, h1, h2]
      · have h3 : i.1 ≠ 0 := by omega
        have h4 : ¬ i.1 ≤ d.1 := by omega
        simp [h0, h1, h3, h4]

/-- The rows of an array along axis `z` (for `z = 0`: `coeffs[j]`); the `z`-th component of the
remaining index is ignored. -/
def Tensor.rows (M : Tensor n K) (z : Fin n) (j : ℕ) : (Fin n → ℕ) → K :=
  fun k => M.coef (Function.update k z j)

/-- Array whose rows along axis `z` are `r.1 0, ..., r.1 (r.2-1)` (a row is read with `z`-th index 0). -/
def Tensor.ofRows (M : Tensor n K) (z : Fin n) (r : (ℕ → (Fin n → ℕ) → K) × ℕ) : Tensor n K where
  shape := Function.update M.shape z r.2
  coef k := r.1 (k z) (Function.update k z 0)

variable [Field K] [LinearOrder K]

/-- `TransformFunc(coeffs, alpha, beta)` on the first axis of an array. -/
def transformAxis (exact : Bool) (M : Tensor n K) (z : Fin n) (α β : K) : Tensor n K :=
  M.ofRows z (transformFunc exact (M.rows z) (M.shape z) α β)

/-- `TransformChebInPlaceND(coeffs, dim, alpha, beta, exact)`,
ChebyshevSubdivisionSolver.py lines 339-374 (also `chebTransform1D`, lines 958-979). -/
def transformND (M : Tensor n K) (d : Fin n) (α β : K) (exact : Bool) : Tensor n K :=
  if (α = 1 ∧ β = 0) ∨ M.shape d = 1 then M
  else if d.1 = 0 then transformAxis exact M d α β
  else
    let z : Fin n := ⟨0, d.pos⟩
    (transformAxis exact (M.transpose (moveAxisOrder d)) z α β).transpose (moveAxisOrder d).symm

/-- `2**-52`. -/
def macheps : K := 1 / 2 ^ 52

/-- `getTransformationError(M, dim)`, ChebyshevSubdivisionSolver.py lines 812-833. -/
def getTransformationError (M : Tensor n K) (d : Fin n) : K :=
  (M.shape d : K) * macheps * M.absSum

/-- `transformCheb(M, alphas, betas, error, exact)`, ChebyshevSubdivisionSolver.py lines 835-862. -/
def transformCheb (M : Tensor n K) (α β : Fin n → K) (error : K) (exact : Bool) : Tensor n K × K :=
  (List.finRange n).foldl
    (fun p d => (transformND p.1 d (α d) (β d) exact, p.2 + getTransformationError p.1 d)) (M, error)

end ND

end YRoots
