import Verif.Proofs.TrimCoeffs
import Verif.Proofs.EvalC
import Verif.Proofs.Memo
import Mathlib.Tactic.NormNum

/-!
# Properties C54-C57: triangular trimming, enumeration of monomials, memoisation

Specification: `Monomial dim m` says that `m` is an exponent tuple of length `dim`; the degree is the sum of the entries.
`TrimSound` is what the caller of `trim_coeffs` relies on: the new series differs from the old one on the cube by at most the
increase of the error.
-/

set_option linter.unusedSectionVars false
set_option linter.unusedVariables false

namespace YRoots.Legacy

open Finset

variable {n : ℕ} {K : Type*} [Field K] [LinearOrder K] [IsStrictOrderedRing K]

/-- Spec: the error that goes with the new series covers the difference to the old one. -/
def TrimSound (M M' : Tensor n K) (err err' : K) : Prop := ∀ x, InCube x → |M.eval x - M'.eval x| ≤ err' - err

/-- Spec: all coefficients have total degree less than `d`. -/
def DegreeBelow (M : Tensor n K) (d : ℕ) : Prop := ∀ k ∈ M.idx, M.coef k ≠ 0 → ∑ i, k i < d

/-- **C54** (partial).  If for every series the coefficient at the corner of the array (the largest exponent in every
variable at once) is zero, or the array is so flat that the initial list of monomials is empty, then `trim_coeffs` returns,
for every series, an array and an error such that the difference to the old series is covered by the increase of the
error.  If `good_approx` is returned, every error is at most its tolerance and no coefficient has a total degree above the
length of the first axis; a series for which this cannot be reached is returned unchanged, with an error above the tolerance,
and `good_approx` is false.

Missing: the hypothesis on the corner, see `C54_trim_false`. -/
theorem C54_trim_partial (hn : 1 ≤ n) (absTol relTol : K) (l : List (Tensor n K × K × K))
    (hl : ∀ p ∈ l, p.1.Nonempty ∧
      (p.1.coef (fun i => p.1.shape i - 1) = 0 ∨ ∑ i, (p.1.shape i - 1) ≤ p.1.shape ⟨0, hn⟩)) :
    List.Forall₂ (fun (p : Tensor n K × K × K) (q : Tensor n K × K) =>
        TrimSound p.1 q.1 p.2.2 q.2 ∧
        ((q.2 ≤ absTol + relTol * p.2.1 ∧ DegreeBelow q.1 (q.1.shape ⟨0, hn⟩) ∧ ∀ i, 0 < q.1.shape i ∧ q.1.shape i ≤ p.1.shape i) ∨
          (q.1 = p.1 ∧ absTol + relTol * p.2.1 < q.2 ∧ (trimCoeffs absTol relTol l).2 = false)))
      l (trimCoeffs absTol relTol l).1 ∧
    ((trimCoeffs absTol relTol l).2 = true ↔
      List.Forall₂ (fun (p : Tensor n K × K × K) (q : Tensor n K × K) => q.2 ≤ absTol + relTol * p.2.1)
        l (trimCoeffs absTol relTol l).1) := by
  have key : ∀ p ∈ l, _ := fun p hp => trimOne_spec hn (absTol + relTol * p.2.1) p.1 p.2.2 (hl p hp).1 (hl p hp).2
  unfold trimCoeffs
  simp only [List.map_map, List.forall₂_map_right_iff, Function.comp_def, List.all_map]
  constructor
  · rw [List.forall₂_same]
    intro p hp
    obtain ⟨h1, h2⟩ := key p hp
    cases hg : (trimOne (absTol + relTol * p.2.1) p.1 p.2.2).2.2 with
    | true =>
      have := h1 hg
      exact ⟨this.bound, .inl ⟨this.tol, this.low, this.shape⟩⟩
    | false =>
      obtain ⟨a, b, c⟩ := h2 hg
      refine ⟨fun x hx => ?_, .inr ⟨a, c, ?_⟩⟩
      · rw [a]; simpa using b
      · rw [List.all_eq_false]
        exact ⟨p, hp, by simp [hg]⟩
  · rw [List.all_eq_true, List.forall₂_same]
    refine forall₂_congr fun p hp => ?_
    obtain ⟨h1, h2⟩ := key p hp
    cases hg : (trimOne (absTol + relTol * p.2.1) p.1 p.2.2).2.2 with
    | true => simpa using (h1 hg).tol
    | false => simpa using (h2 hg).2.2

/-- The series `T₂(x) T₂(y)`. -/
def cornerSeries : Tensor 2 ℚ := ⟨fun _ => 3, fun k => if k 0 = 2 ∧ k 1 = 2 then 1 else 0⟩

/-- **C54** is false of the code without the hypothesis: the initial range stops one degree short, so that the coefficient
at the corner is neither counted nor set to zero, and the final slice cuts it off.  `T₂(x) T₂(y)` becomes the zero series
with error 0 and `good_approx` is true. -/
theorem C54_trim_false : ¬ ∀ (n : ℕ) (hn : 1 ≤ n) (T : ℚ) (M : Tensor n ℚ) (err : ℚ), M.Nonempty →
    TrimSound M (trimOne T M err).1 err (trimOne T M err).2.1 := by
  intro h
  have h1 := h 2 (by omega) 0 cornerSeries 0 (fun i => by simp [cornerSeries]) (fun _ => 1) (fun i => by simp)
  rw [Tensor.eval_eq_evalC, Tensor.eval_eq_evalC] at h1
  revert h1
  decide +kernel

/-- Non-vacuity: trimming a series with coefficients of degree 0 to 3 within tolerance 1/10 gives a 2×2 array. -/
def smallSeries : Tensor 2 ℚ := ⟨fun _ => 3, fun k =>
  if k 0 = 0 ∧ k 1 = 0 then 1 else if k 0 = 2 ∧ k 1 = 0 then 1 / 100 else if k 0 = 2 ∧ k 1 = 1 then 1 / 200 else 0⟩

example : (smallSeries.Nonempty ∧ (smallSeries.coef (fun i => smallSeries.shape i - 1) = 0 ∨
      ∑ i, (smallSeries.shape i - 1) ≤ smallSeries.shape ⟨0, by omega⟩)) ∧
    (trimOne (1 / 10) smallSeries 0).2 = (3 / 200, true) ∧ (trimOne (1 / 10) smallSeries 0).1.shape 0 = 2 ∧
    (trimOne (1 / 1000) smallSeries 0).2.2 = false := by
  refine ⟨⟨fun i => by simp [smallSeries], .inl ?_⟩, ?_, ?_, ?_⟩ <;> decide +kernel

/-- **C55**.  `mon_combos_limited_wrap(deg, dim, shape)` lists every exponent tuple of degree `deg` that fits in the shape,
and only those, exactly once. -/
theorem C55_limited (deg dim : ℕ) (shape : List ℕ) (hd : 1 ≤ dim) (hs : ∀ k < dim, 0 < shape.getD k 0) :
    (∀ m, m ∈ monCombosLimitedWrap deg dim shape ↔
      m.length = dim ∧ (∀ k < dim, m.getD k 0 < shape.getD k 0) ∧ m.sum = deg) ∧
    (monCombosLimitedWrap deg dim shape).Nodup :=
  ⟨mem_wrap hd hs deg, nodup_wrap hd hs deg⟩

/-- The shape must not have an axis of length zero: for degree zero the zero tuple is listed although it does not fit. -/
theorem C55_limited_empty_axis : [0, 0] ∈ monCombosLimitedWrap 0 2 [0, 1] := by decide

/-- Non-vacuity. -/
example : monCombosLimitedWrap 3 2 [3, 3] = [[1, 2], [2, 1]] ∧ monCombosLimitedWrap 2 3 [2, 2, 3] =
    [[0, 0, 2], [0, 1, 1], [1, 0, 1], [1, 1, 0]] := by decide

theorem replicate_zero (dim k : ℕ) : (List.replicate dim 0).getD k 0 = 0 := by
  by_cases hk : k < dim
  · rw [List.getD_eq_getElem _ _ (by simpa using hk)]; simp
  · exact getD_beyond _ _ (by simp; omega)

/-- **C56**.  `mon_combosHighest([0]*dim, deg)` lists the exponent tuples of degree `deg`, `mon_combos([0]*dim, deg)`
those of degree at most `deg`, each exactly once, and the lengths of the lists are `num_mons(deg, dim)` and
`num_mons_full(deg, dim)`. -/
theorem C56_monomials (deg dim : ℕ) (hd : 1 ≤ dim) :
    ((∀ m, m ∈ (monCombosHighest (dim - 1) (List.replicate dim 0) deg 0).1 ↔ m.length = dim ∧ m.sum = deg) ∧
      (monCombosHighest (dim - 1) (List.replicate dim 0) deg 0).1.Nodup ∧
      (monCombosHighest (dim - 1) (List.replicate dim 0) deg 0).1.length = numMons deg dim) ∧
    ((∀ m, m ∈ (monCombos (dim - 1) (List.replicate dim 0) deg 0).1 ↔ m.length = dim ∧ m.sum ≤ deg) ∧
      (monCombos (dim - 1) (List.replicate dim 0) deg 0).1.Nodup ∧
      (monCombos (dim - 1) (List.replicate dim 0) deg 0).1.length = numMonsFull deg dim) := by
  have hrep : ∀ k < dim, (List.replicate dim (deg + 1)).getD k 0 = deg + 1 := fun k hk => by
    rw [List.getD_eq_getElem _ _ (by simpa using hk)]; simp
  refine ⟨⟨fun m => ?_, ?_, ?_⟩, fun m => ?_, ?_, ?_⟩
  · rw [highest_eq (List.replicate dim (deg + 1)) _ _ _ _ fun k _ hk => by rw [hrep k (by omega)]; omega]
    refine (mem_wrap hd (fun k hk => by rw [hrep k hk]; omega) deg m).trans ?_
    constructor
    · rintro ⟨h1, -, h3⟩; exact ⟨h1, h3⟩
    · rintro ⟨h1, h3⟩
      refine ⟨h1, fun k hk => ?_, h3⟩
      rw [hrep k hk, List.getD_eq_getElem _ _ (by omega)]
      have := List.single_le_sum (fun _ _ => Nat.zero_le _) _ (List.getElem_mem (l := m) (n := k) (by omega))
      omega
  · rw [highest_eq (List.replicate dim (deg + 1)) _ _ _ _ fun k _ hk => by rw [hrep k (by omega)]; omega]
    exact nodup_wrap hd (fun k hk => by rw [hrep k hk]; omega) deg
  · rw [highest_length, numMons, show deg + dim - 1 = deg + (dim - 1) by omega]
    exact (Nat.choose_symm_add).symm
  · refine ((combos_spec (dim - 1) (List.replicate dim 0) deg 0 (by simp; omega)
      (fun _ k _ => replicate_zero dim k)).1 m).trans ?_
    unfold Tail TailLe
    simp
  · exact (combos_spec (dim - 1) (List.replicate dim 0) deg 0 (by simp; omega) (fun _ k _ => replicate_zero dim k)).2.1
  · rw [combos_length, numMonsFull, show dim - 1 + 1 = dim by omega]

/-- Non-vacuity. -/
example : (monCombos 1 [0, 0] 2 0).1 = [[0, 0], [0, 1], [0, 2], [1, 0], [1, 1], [2, 0]] ∧
    (monCombosHighest 2 [0, 0, 0] 2 0).1.length = 6 ∧ numMons 2 3 = 6 ∧ numMonsFull 2 2 = 6 := by decide

/-- **C57**.  For every sequence of calls of a memoised function, starting with an empty cache, the values returned are those
of the function, and the function is evaluated only for arguments that are passed and at most once per key.  The key is
the argument tuple for `memoize` and `Memoize`; for `memoize_permutaions` it is the first three arguments and the function has
to depend on them only. -/
theorem C57_memoize {α κ β : Type*} [DecidableEq κ] (f : α → β) (key : α → κ) (hf : ∀ a b, key a = key b → f a = f b)
    (calls : List α) :
    (memoRun f key [] calls).1 = calls.map f ∧ ((memoRun f key [] calls).2.map key).Nodup ∧
    ∀ a ∈ (memoRun f key [] calls).2, a ∈ calls := by
  obtain ⟨h1, h2, h3⟩ := memoRun_spec f key hf calls [] (by simp)
  exact ⟨h1, h2, fun a ha => (h3 a ha).1⟩

example : (memoRun (fun k : ℕ => k % 10) (fun k => k % 10) [] [13, 2, 23, 12]).1 = [3, 2, 3, 2] ∧
    ((memoRun (fun k : ℕ => k % 10) (fun k => k % 10) [] [13, 2, 23, 12]).2.map (· % 10)).Nodup := by
  obtain ⟨h1, h2, -⟩ := C57_memoize (fun k : ℕ => k % 10) (fun k => k % 10) (fun _ _ h => h) [13, 2, 23, 12]
  exact ⟨h1, h2⟩

/-- For `memoize_permutaions` the requirement on the function fails: `all_permutations(deg, dim, matrixDegree, permutations,
current_degree)` depends on the fourth and fifth arguments, which are not part of the key.  Two calls that differ only there
return the same value. -/
theorem C57_permutations_false : ¬ ∀ (f : ℕ × ℕ → ℕ) (calls : List (ℕ × ℕ)),
    (memoRun f (fun a => a.1) [] calls).1 = calls.map f := by
  intro h
  exact absurd (h (fun a => a.1 + a.2) [(1, 1), (1, 2)]) (by decide)

/-- Non-vacuity: five calls, three evaluations. -/
example : memoRun (fun a : ℕ => a * a) id [] [3, 4, 3, 5, 4] = ([9, 16, 9, 25, 16], [3, 4, 5]) := by decide

end YRoots.Legacy
