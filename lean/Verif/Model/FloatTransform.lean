import Verif.Model.Transform

/-!
# Chebyshev re-expansion in floating-point arithmetic

`TransformChebInPlace1D` and `TransformChebInPlaceND` with `exact=False`, `ChebyshevSubdivisionSolver.py` lines 45-120 and 339-374.  Every
multiplication and addition is rounded by `fl`, in the order in which Python evaluates the expressions; a change of sign is not rounded.
numba does not contract products and sums unless asked to (`fastmath` is off).  Overflow and underflow are left out.  The rows of the array are
functions on an index set, the operations on them act on every entry.
-/

namespace YRoots

section OneD

variable {K : Type*} [Field K] [LinearOrder K] {ι : Type*}

/-- `arr3[i] = v; transformedCoeffs[i] += thisCoeff * v` (lines 87-103, 110-111), rounded. -/
def putRowF (fl : K → K) (c : ι → K) (i : ℕ) (v : K) (p : (ℕ → K) × (ℕ → ι → K)) : (ℕ → K) × (ℕ → ι → K) :=
  (Function.update p.1 i v, Function.update p.2 i fun k => fl (p.2 i k + fl (c k * v)))

/-- Initialisation, lines 67-83, rounded; `transformedCoeffs[1]` is zero before the addition. -/
def tInitF (fl : K → K) (coeffs : ℕ → ι → K) (α β : K) : TState K (ι → K) where
  arr1 := Function.update (fun _ => 0) 0 1
  arr2 := Function.update (Function.update (fun _ => 0) 0 β) 1 α
  arr3 := fun _ => 0
  out := Function.update (Function.update (fun _ _ => 0) 0 fun k => fl (coeffs 0 k + fl (β * coeffs 1 k))) 1
    fun k => fl (0 + fl (α * coeffs 1 k))
  maxRow := 2

/-- Rows `0 .. maxRow-1` of the next column, lines 86-103, rounded. -/
def tRowsF (fl : K → K) (c : ι → K) (α β : K) (s : TState K (ι → K)) : (ℕ → K) × (ℕ → ι → K) :=
  -- The first entry (lines 87-88)
  let p := putRowF fl c 0 (fl (fl (-s.arr1 0 + fl (α * s.arr2 1)) + fl (fl (2 * β) * s.arr2 0))) (s.arr3, s.out)
  -- The second entry (lines 91-93)
  let p := if s.maxRow > 2 then
      putRowF fl c 1 (fl (fl (-s.arr1 1 + fl (α * fl (fl (2 * s.arr2 0) + s.arr2 2))) + fl (fl (2 * β) * s.arr2 1))) p
    else p
  -- All middle entries, `for i in range(2, maxRow - 1)` (lines 96-98)
  let p := (List.range' 2 (s.maxRow - 1 - 2)).foldl
    (fun p i => putRowF fl c i (fl (fl (-s.arr1 i + fl (α * fl (s.arr2 (i - 1) + s.arr2 (i + 1)))) + fl (fl (2 * β) * s.arr2 i))) p) p
  -- The second to last entry (lines 101-103)
  let i := s.maxRow - 1
  putRowF fl c i (fl (fl (-s.arr1 i + fl (fl ((if i = 1 then 2 else 1) * α) * s.arr2 (i - 1))) + fl (fl (2 * β) * s.arr2 i))) p

/-- One pass of the column loop of `TransformChebInPlace1D`, lines 84-118, rounded. -/
def tStepF (fl : K → K) (thr : K) (coeffs : ℕ → ι → K) (α β : K) (s : TState K (ι → K)) (col : ℕ) : TState K (ι → K) :=
  let c := coeffs col
  let p := tRowsF fl c α β s
  -- The last entry (lines 106-112)
  let finalVal := fl (α * s.arr2 (s.maxRow - 1))
  let q := if |finalVal| > thr then putRowF fl c s.maxRow finalVal p else p
  let maxRow := if |finalVal| > thr then s.maxRow + 1 else s.maxRow
  -- rotate the buffers (lines 115-118)
  { arr1 := s.arr2, arr2 := q.1, arr3 := s.arr1, out := q.2, maxRow := maxRow }

/-- `TransformChebInPlace1D(coeffs, alpha, beta)`, lines 45-120, rounded; the threshold `1e-16` is the nearest double. -/
def transform1DF (fl : K → K) (coeffs : ℕ → ι → K) (N : ℕ) (α β : K) : (ℕ → ι → K) × ℕ :=
  let s := (List.range' 2 (N - 2)).foldl (tStepF fl (fl (1 / 10 ^ 16)) coeffs α β) (tInitF fl coeffs α β)
  (s.out, s.maxRow)

end OneD

section ND

variable {n : ℕ} {K : Type*} [Field K] [LinearOrder K]

/-- `TransformFunc(coeffs, alpha, beta)` on the first axis of an array, rounded. -/
def transformAxisF (fl : K → K) (M : Tensor n K) (z : Fin n) (α β : K) : Tensor n K :=
  M.ofRows z (transform1DF fl (M.rows z) (M.shape z) α β)

/-- `TransformChebInPlaceND(coeffs, dim, alpha, beta, False)`, lines 339-374, rounded. -/
def transformNDF (fl : K → K) (M : Tensor n K) (d : Fin n) (α β : K) : Tensor n K :=
  if (α = 1 ∧ β = 0) ∨ M.shape d = 1 then M
  else if d.1 = 0 then transformAxisF fl M d α β
  else
    let z : Fin n := ⟨0, d.pos⟩
    (transformAxisF fl (M.transpose (moveAxisOrder d)) z α β).transpose (moveAxisOrder d).symm

end ND

end YRoots
