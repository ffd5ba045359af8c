import Verif.Model.Transform
import Verif.Model.Float

/-!
# Chebyshev re-expansion with `exact=True` in floating-point arithmetic

`TransformChebInPlace1DErrorFree`, `TransformChebInPlace1DErrorFreeSplit` and `TransformChebInPlaceND` with `exact=True`,
`ChebyshevSubdivisionSolver.py` lines 122-374.  Every operation is followed by the rounding `fl`, in the order in which Python evaluates the
expressions; a change of sign is not rounded.  Overflow and underflow are left out.  The rows of the array are functions on an index set, the
operations on them act on every entry.  A spot of a column is computed as a pair: the value and the error term.
-/

namespace YRoots

section OneD

variable {K : Type*} [Field K] [LinearOrder K] {ι : Type*}

/-- `arr3[i] = v; arr3E[i] = e; transformedCoeffs[i] += thisCoeff * (arr3[i] + arr3E[i])` (repeated in lines 177-225 and 286-324), rounded. -/
def putRowEF (fl : K → K) (c : ι → K) (i : ℕ) (v : K × K) (p : (ℕ → K) × (ℕ → K) × (ℕ → ι → K)) : (ℕ → K) × (ℕ → K) × (ℕ → ι → K) :=
  (Function.update p.1 i v.1, Function.update p.2.1 i v.2,
    Function.update p.2.2 i fun k => fl (p.2.2 i k + fl (c k * fl (v.1 + v.2))))

/-- One pass of the column loop, the part common to lines 166-237 and 278-336: the spots are written in the order 0, 1 (if `maxRow > 2`), middle
spots `for i in range(2, maxRow - 1)`, second to last, last; the last spot is always written, `maxRow` grows only if it is not tiny; then the
buffers are rotated. -/
def eStepWith (fl : K → K) (thr : K) (c : ι → K) (r0 r1 : K × K) (mid : ℕ → K × K) (last fin : K × K) (s : EState K (ι → K)) :
    EState K (ι → K) :=
  let p := putRowEF fl c 0 r0 (s.arr3, s.arr3E, s.out)
  let p := if s.maxRow > 2 then putRowEF fl c 1 r1 p else p
  let p := (List.range' 2 (s.maxRow - 1 - 2)).foldl (fun p i => putRowEF fl c i (mid i) p) p
  let p := putRowEF fl c (s.maxRow - 1) last p
  let p := putRowEF fl c s.maxRow fin p
  let maxRow := if |fl (fin.1 + fin.2)| > thr then s.maxRow + 1 else s.maxRow
  { arr1 := s.arr2, arr2 := p.1, arr3 := s.arr1
    arr1E := s.arr2E, arr2E := p.2.1, arr3E := s.arr1E, out := p.2.2, maxRow := maxRow }

/-! ### The general variant -/

/-- The 0 spot, lines 173-180. -/
def spot0 (fl : K → K) (α β : K) (a1 a2 e1 e2 : ℕ → K) : K × K :=
  let V1 := twoProdWithSplitF fl β (fl (2 * a2 0)) (splitF fl β).1 (splitF fl β).2
  let V2 := twoProdWithSplitF fl α (a2 1) (splitF fl α).1 (splitF fl α).2
  let V3 := twoSumF fl V1.1 V2.1
  let V4 := twoSumF fl V3.1 (-a1 0)
  (V4.1, fl (fl (fl (fl (fl (fl (-e1 0 + fl (α * e2 1)) + fl (fl (2 * β) * e2 0)) + V1.2) + V2.2) + V3.2) + V4.2))

/-- The 1 spot, lines 187-193. -/
def spot1 (fl : K → K) (α β : K) (a1 a2 e1 e2 : ℕ → K) : K × K :=
  let V1 := twoSumF fl (fl (2 * a2 0)) (a2 2)
  let V2 := twoProdWithSplitF fl β (fl (2 * a2 1)) (splitF fl β).1 (splitF fl β).2
  let V3 := twoProdWithSplitF fl α V1.1 (splitF fl α).1 (splitF fl α).2
  let V4 := twoSumF fl V2.1 V3.1
  let V5 := twoSumF fl V4.1 (-a1 1)
  (V5.1, fl (fl (fl (fl (fl (fl (-e1 1 + fl (α * fl (fl (fl (2 * e2 0) + e2 2) + V1.2))) + fl (fl (2 * β) * e2 1)) + V2.2) + V3.2) + V4.2)
    + V5.2))

/-- A middle spot, lines 199-205. -/
def spotMid (fl : K → K) (α β : K) (a1 a2 e1 e2 : ℕ → K) (i : ℕ) : K × K :=
  let V1 := twoSumF fl (a2 (i - 1)) (a2 (i + 1))
  let V2 := twoProdWithSplitF fl β (fl (2 * a2 i)) (splitF fl β).1 (splitF fl β).2
  let V3 := twoProdWithSplitF fl α V1.1 (splitF fl α).1 (splitF fl α).2
  let V4 := twoSumF fl V2.1 V3.1
  let V5 := twoSumF fl V4.1 (-a1 i)
  (V5.1, fl (fl (fl (fl (fl (fl (-e1 i + fl (α * fl (fl (e2 (i - 1) + e2 (i + 1)) + V1.2))) + fl (fl (2 * β) * e2 i)) + V2.2) + V3.2) + V4.2)
    + V5.2))

/-- The second to last spot, lines 209-217; `i = maxRow - 1`. -/
def spotLast (fl : K → K) (α β : K) (a1 a2 e1 e2 : ℕ → K) (i : ℕ) : K × K :=
  let C1 : K := if i = 1 then 2 else 1
  let V1 := twoProdWithSplitF fl β (fl (2 * a2 i)) (splitF fl β).1 (splitF fl β).2
  let V2 := twoProdWithSplitF fl α (fl (C1 * a2 (i - 1))) (splitF fl α).1 (splitF fl α).2
  let V3 := twoSumF fl V1.1 V2.1
  let V4 := twoSumF fl V3.1 (-a1 i)
  (V4.1, fl (fl (fl (fl (fl (fl (-e1 i + fl (fl (C1 * α) * e2 (i - 1))) + fl (fl (2 * β) * e2 i)) + V1.2) + V2.2) + V3.2) + V4.2))

/-- The last spot, lines 222-224; `i = maxRow - 1`. -/
def spotFin (fl : K → K) (α : K) (a2 e2 : ℕ → K) (i : ℕ) : K × K :=
  let F := twoProdWithSplitF fl α (a2 i) (splitF fl α).1 (splitF fl α).2
  (F.1, fl (F.2 + fl (α * e2 i)))

/-- Initialisation, lines 145-165, rounded. -/
def eInitF (fl : K → K) (coeffs : ℕ → ι → K) (α β : K) : EState K (ι → K) where
  arr1 := Function.update (fun _ => 0) 0 1
  arr2 := Function.update (Function.update (fun _ => 0) 0 β) 1 α
  arr3 := fun _ => 0
  arr1E := fun _ => 0
  arr2E := fun _ => 0
  arr3E := fun _ => 0
  out := Function.update (Function.update (fun _ _ => 0) 0 fun k => fl (coeffs 0 k + fl (β * coeffs 1 k))) 1
    fun k => fl (0 + fl (α * coeffs 1 k))
  maxRow := 2

/-- One pass of the column loop of `TransformChebInPlace1DErrorFree`, lines 166-237, rounded. -/
def eStepF (fl : K → K) (thr : K) (coeffs : ℕ → ι → K) (α β : K) (s : EState K (ι → K)) (col : ℕ) : EState K (ι → K) :=
  eStepWith fl thr (coeffs col) (spot0 fl α β s.arr1 s.arr2 s.arr1E s.arr2E) (spot1 fl α β s.arr1 s.arr2 s.arr1E s.arr2E)
    (spotMid fl α β s.arr1 s.arr2 s.arr1E s.arr2E) (spotLast fl α β s.arr1 s.arr2 s.arr1E s.arr2E (s.maxRow - 1))
    (spotFin fl α s.arr2 s.arr2E (s.maxRow - 1)) s

/-! ### The variant for halves, `alpha = 0.5` and `beta = betaSign * 0.5` -/

/-- The 0 spot, lines 284-287. -/
def spotS0 (fl : K → K) (bs : K) (a1 a2 e1 e2 : ℕ → K) : K × K :=
  let V1 := twoSumF fl (fl (a2 1 / 2)) (fl (bs * a2 0))
  let V2 := twoSumF fl V1.1 (-a1 0)
  (V2.1, fl (fl (fl (fl (-e1 0 + fl (e2 1 / 2)) + fl (bs * e2 0)) + V1.2) + V2.2))

/-- The 1 spot, lines 293-297. -/
def spotS1 (fl : K → K) (bs : K) (a1 a2 e1 e2 : ℕ → K) : K × K :=
  let V1 := twoSumF fl (a2 0) (fl (a2 2 / 2))
  let V2 := twoSumF fl V1.1 (fl (bs * a2 1))
  let V3 := twoSumF fl V2.1 (-a1 1)
  (V3.1, fl (fl (fl (fl (fl (fl (-e1 1 + e2 0) + fl (e2 2 / 2)) + fl (bs * e2 1)) + V1.2) + V2.2) + V3.2))

/-- A middle spot, lines 303-307. -/
def spotSMid (fl : K → K) (bs : K) (a1 a2 e1 e2 : ℕ → K) (i : ℕ) : K × K :=
  let V1 := twoSumF fl (a2 (i - 1)) (a2 (i + 1))
  let V2 := twoSumF fl (fl (V1.1 / 2)) (fl (bs * a2 i))
  let V3 := twoSumF fl V2.1 (-a1 i)
  (V3.1, fl (fl (fl (fl (-e1 i + fl (fl (fl (e2 (i - 1) + e2 (i + 1)) + V1.2) / 2)) + fl (bs * e2 i)) + V2.2) + V3.2))

/-- The second to last spot, lines 311-317; `i = maxRow - 1`. -/
def spotSLast (fl : K → K) (bs : K) (a1 a2 e1 e2 : ℕ → K) (i : ℕ) : K × K :=
  let C1 : K := if i = 1 then 1 else 1 / 2
  let V1 := twoSumF fl (fl (C1 * a2 (i - 1))) (fl (bs * a2 i))
  let V2 := twoSumF fl V1.1 (-a1 i)
  (V2.1, fl (fl (fl (fl (-e1 i + fl (C1 * e2 (i - 1))) + fl (bs * e2 i)) + V1.2) + V2.2))

/-- The last spot, lines 322-323; `i = maxRow - 1`. -/
def spotSFin (fl : K → K) (a2 e2 : ℕ → K) (i : ℕ) : K × K := (fl (a2 i / 2), fl (e2 i / 2))

/-- Initialisation, lines 260-277, rounded. -/
def eInitSplitF (fl : K → K) (coeffs : ℕ → ι → K) (bs : K) : EState K (ι → K) where
  arr1 := Function.update (fun _ => 0) 0 1
  arr2 := Function.update (Function.update (fun _ => 0) 0 (fl (bs * (1 / 2)))) 1 (1 / 2)
  arr3 := fun _ => 0
  arr1E := fun _ => 0
  arr2E := fun _ => 0
  arr3E := fun _ => 0
  out := Function.update (Function.update (fun _ _ => 0) 0 fun k => fl (coeffs 0 k + fl (fl (bs * coeffs 1 k) / 2))) 1
    fun k => fl (0 + fl (coeffs 1 k / 2))
  maxRow := 2

/-- One pass of the column loop of `TransformChebInPlace1DErrorFreeSplit`, lines 278-336, rounded. -/
def eStepSplitF (fl : K → K) (thr : K) (coeffs : ℕ → ι → K) (bs : K) (s : EState K (ι → K)) (col : ℕ) : EState K (ι → K) :=
  eStepWith fl thr (coeffs col) (spotS0 fl bs s.arr1 s.arr2 s.arr1E s.arr2E) (spotS1 fl bs s.arr1 s.arr2 s.arr1E s.arr2E)
    (spotSMid fl bs s.arr1 s.arr2 s.arr1E s.arr2E) (spotSLast fl bs s.arr1 s.arr2 s.arr1E s.arr2E (s.maxRow - 1))
    (spotSFin fl s.arr2 s.arr2E (s.maxRow - 1)) s

/-- `TransformChebInPlace1DErrorFree(coeffs, alpha, beta)`, lines 122-238, with the call of `TransformChebInPlace1DErrorFreeSplit`, lines 240-337,
rounded; the threshold `1e-32` is the nearest double. -/
def transform1DErrorFreeF (fl : K → K) (coeffs : ℕ → ι → K) (N : ℕ) (α β : K) : (ℕ → ι → K) × ℕ :=
  let s := if α = 1 / 2 ∧ |β| = 1 / 2 then
      (List.range' 2 (N - 2)).foldl (eStepSplitF fl (fl (1 / 10 ^ 32)) coeffs (npSign β)) (eInitSplitF fl coeffs (npSign β))
    else (List.range' 2 (N - 2)).foldl (eStepF fl (fl (1 / 10 ^ 32)) coeffs α β) (eInitF fl coeffs α β)
  (s.out, s.maxRow)

end OneD

section ND

variable {n : ℕ} {K : Type*} [Field K] [LinearOrder K]

/-- `TransformFunc(coeffs, alpha, beta)` on the first axis of an array, rounded. -/
def transformAxisEF (fl : K → K) (M : Tensor n K) (z : Fin n) (α β : K) : Tensor n K :=
  M.ofRows z (transform1DErrorFreeF fl (M.rows z) (M.shape z) α β)

/-- `TransformChebInPlaceND(coeffs, dim, alpha, beta, True)`, lines 339-374, rounded. -/
def transformNDEF (fl : K → K) (M : Tensor n K) (d : Fin n) (α β : K) : Tensor n K :=
  if (α = 1 ∧ β = 0) ∨ M.shape d = 1 then M
  else if d.1 = 0 then transformAxisEF fl M d α β
  else
    let z : Fin n := ⟨0, d.pos⟩
    (transformAxisEF fl (M.transpose (moveAxisOrder d)) z α β).transpose (moveAxisOrder d).symm

end ND

end YRoots
