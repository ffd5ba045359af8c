import Verif.Model.MMaker

/-!
# Approximation in the earlier subdivision solver (`subdivision.py`, lines 211-518)

The array that `values_arr` returns is shared by all calls; it has `size` entries along each of the `n` axes.  The content of an
array from `np.empty` is arbitrary: it is a parameter (`garbage`) of each call.
-/

namespace YRoots.Legacy

variable {n : ℕ}

/-- The array in `values_arr.memo[(dim,)]`. -/
structure ValuesArr (n : ℕ) where
  size : ℕ
  arr : (Fin n → ℕ) → ℝ

/-- Length of `slice(0, deg+1)` or `slice(deg+1, 2*deg)` (if flipped) of an axis of the shared array, lines 281-286. -/
def chebLen (size deg : ℕ) (flip : Bool) : ℕ := if flip then min size (2 * deg) - (deg + 1) else min size (deg + 1)

/-- Length of `slice(0, 2*deg)` or `slice(deg-1, 0, -1)` (if flipped) of an axis of the block of values, which has `deg + 1` entries. -/
def blockLen (deg : ℕ) (flip : Bool) : ℕ := if flip then deg - 1 else min (2 * deg) (deg + 1)

/-- The assignment can be broadcast: along each axis the lengths agree or the source has length 1. -/
def canBroadcast (size deg : ℕ) (block : Fin n → Bool) : Prop :=
  ∀ i, chebLen size deg (block i) = blockLen deg (block i) ∨ blockLen deg (block i) = 1

instance (size deg : ℕ) (block : Fin n → Bool) : Decidable (canBroadcast size deg block) :=
  inferInstanceAs (Decidable (∀ i, chebLen size deg (block i) = blockLen deg (block i) ∨ blockLen deg (block i) = 1))

/-- `values_cheb[cheb_idx] = values_block[block_idx]`. -/
def assignBlock (deg : ℕ) (v : (Fin n → ℕ) → ℝ) (a : ValuesArr n) (block : Fin n → Bool) : ValuesArr n :=
  ⟨a.size, fun j =>
    if ∀ i, j i < a.size ∧ if block i then deg + 1 ≤ j i ∧ j i < 2 * deg else j i < deg + 1 then
      v fun i => if block i then deg - 1 - (j i - (deg + 1)) else j i
    else a.arr j⟩

/-- One round of the loop of `chebyshev_block_copy`, lines 310-319: if the assignment fails, the array is replaced by a new one. -/
def copyStep (garbage : (Fin n → ℕ) → ℝ) (deg : ℕ) (v : (Fin n → ℕ) → ℝ) (a : ValuesArr n) (block : Fin n → Bool) : ValuesArr n :=
  if canBroadcast a.size deg block then assignBlock deg v a block else assignBlock deg v ⟨2 * deg, garbage⟩ block

/-- `chebyshev_block_copy(values_block)`, lines 290-320, with `block_copy_slicers`, lines 254-288, for a block of `deg + 1` values along each
axis.  The result `values_cheb[slicer]` is the part of the shared array with indices below `2*deg`. -/
def sharedCopy (garbage : (Fin n → ℕ) → ℝ) (deg : ℕ) (v : (Fin n → ℕ) → ℝ) (a : ValuesArr n) : ValuesArr n :=
  (boolProduct n).foldl (copyStep garbage deg v) a

/-- `interval_approximate_nd(f, a, b, deg)`, lines 391-441, with `interval_approx_slicers`, lines 443-472: coefficients and norm. -/
noncomputable def sharedApprox (garbage : (Fin n → ℕ) → ℝ) (F : MakerFn n) (deg : ℕ) (st : ValuesArr n) :
    (Tensor n ℝ × ℝ) × ValuesArr n :=
  let block := fun j => F.f (gridPt (fun _ => deg) F.a F.b j)
  let st := sharedCopy garbage deg block st
  let infNorm := (Fintype.piFinset fun _ : Fin n => Finset.range (deg + 1)).toList.foldl (fun m j => max m |block j|) 0
  let coeffs := fun k => (fftn (fun _ => min st.size (2 * deg)) (fun j => st.arr j / (deg : ℝ) ^ n) k).re
  ((⟨fun _ => deg + 1, halveEdges (fun _ => deg) coeffs⟩, infNorm), st)

/-- `full_cheb_approximate(f, a, b, deg, abs_approx_tol, rel_approx_tol)`, lines 474-518, with `good_deg` as `deg`: the coefficients or `None`,
the norm, and the error. -/
noncomputable def fullCheb (g1 g2 : (Fin n → ℕ) → ℝ) (F : MakerFn n) (deg : ℕ) (absTol relTol : ℝ) (st : ValuesArr n) :
    (Option (Tensor n ℝ) × ℝ × ℝ) × ValuesArr n :=
  let r := sharedApprox g1 F deg st
  let r2 := sharedApprox g2 F (2 * deg) r.2
  let error := getErr r.1.1 r2.1.1
  ((if test (error > absTol + relTol * r2.1.2) then none else some r.1.1, r2.1.2, error), r2.2)

/-- `initialize_values_arr(dim, deg+3)`, lines 155-156 and 210-230, in a fresh interpreter (the first array made for this dimension is kept by
the memoisation). -/
def freshArr (garbage : (Fin n → ℕ) → ℝ) (deg : ℕ) : ValuesArr n := ⟨2 * (deg + 3), garbage⟩

end YRoots.Legacy
