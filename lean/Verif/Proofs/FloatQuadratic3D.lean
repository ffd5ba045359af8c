import Verif.Proofs.FloatQuadratic

/-!
# Rounding errors of the quadratic check in three variables
-/

namespace YRoots

open Finset

variable {K : Type*} [Field K] [LinearOrder K]

theorem evalFunc3D_vec (c : Fin 10 → K) (x y z : K) :
    evalFunc3D c ![x, y, z] = c 0 - c 7 - c 8 - c 9 + (c 1 + 2 * c 7 * x + c 4 * y + c 5 * z) * x + (c 2 + 2 * c 8 * y + c 6 * z) * y
      + (c 3 + 2 * c 9 * z) * z := rfl

variable [IsStrictOrderedRing K] [FloorRing K] {fl : K → K} (hfl : RoundsToNearest 53 fl)

theorem sum_ten (f : Fin 10 → K) : ∑ i, f i = f 0 + f 1 + f 2 + f 3 + f 4 + f 5 + f 6 + f 7 + f 8 + f 9 := by
  rw [Fin.sum_univ_castSucc, Fin.sum_univ_castSucc, Fin.sum_univ_eight]
  rfl

include hfl

/-! ### The evaluation -/

theorem evalFunc3DF_close (c : Fin 10 → K) {x y z : K} (hx : |x| ≤ 1) (hy : |y| ≤ 1) (hz : |z| ≤ 1) :
    |evalFunc3DF fl c ![x, y, z] - evalFunc3D c ![x, y, z]| ≤ 64 * uu K * ∑ i, |c i| := by
  have r := fun i => Appr.refl (c i)
  have two : Appr 0 2 (2 : K) 2 := Appr.of_le (by norm_num)
  have ax := Appr.of_le hx
  have ay := Appr.of_le hy
  have az := Appr.of_le hz
  have n : ∀ i, 0 ≤ |c i| := fun i => abs_nonneg _
  have a1 := (r 0).sub hfl le_rfl (by norm_num) (r 7)
  have a2 := a1.sub hfl (by norm_num) (by norm_num) ((r 8).mono le_rfl (by norm_num : (0 : K) ≤ 0 + 2) le_rfl)
  have a3 := a2.sub hfl (by norm_num) (by norm_num) ((r 9).mono le_rfl (by norm_num : (0 : K) ≤ 0 + 2 + 2) le_rfl)
  have b1 := (two.mul hfl le_rfl (by norm_num) le_rfl (by norm_num) (r 7)).mul hfl (by norm_num) (by norm_num) le_rfl (by norm_num) ax
  have b2 := ((r 1).mono le_rfl (by norm_num) le_rfl).add hfl (by norm_num) (by norm_num) b1
  have b3 := (r 4).mul hfl le_rfl (by norm_num) le_rfl (by norm_num) ay
  have b4 := b2.add hfl (by norm_num) (by norm_num) (b3.mono (by norm_num) (by norm_num) le_rfl)
  have b5 := (r 5).mul hfl le_rfl (by norm_num) le_rfl (by norm_num) az
  have b6 := b4.add hfl (by norm_num) (by norm_num) (b5.mono (by norm_num) (by norm_num) le_rfl)
  have b7 := b6.mul hfl (by norm_num) (by norm_num) le_rfl (by norm_num) ax
  have d1 := (a3.mono (by norm_num) (by norm_num) le_rfl).add hfl (by norm_num) (by norm_num) b7
  have e1 := (two.mul hfl le_rfl (by norm_num) le_rfl (by norm_num) (r 8)).mul hfl (by norm_num) (by norm_num) le_rfl (by norm_num) ay
  have e2 := ((r 2).mono le_rfl (by norm_num) le_rfl).add hfl (by norm_num) (by norm_num) e1
  have e3 := (r 6).mul hfl le_rfl (by norm_num) le_rfl (by norm_num) az
  have e4 := e2.add hfl (by norm_num) (by norm_num) (e3.mono (by norm_num) (by norm_num) le_rfl)
  have e5 := e4.mul hfl (by norm_num) (by norm_num) le_rfl (by norm_num) ay
  have d2 := d1.add hfl (by norm_num) (by norm_num) (e5.mono (by norm_num) (by norm_num) le_rfl)
  have f1 := (two.mul hfl le_rfl (by norm_num) le_rfl (by norm_num) (r 9)).mul hfl (by norm_num) (by norm_num) le_rfl (by norm_num) az
  have f2 := ((r 3).mono le_rfl (by norm_num) le_rfl).add hfl (by norm_num) (by norm_num) f1
  have f3 := f2.mul hfl (by norm_num) (by norm_num) le_rfl (by norm_num) az
  have d3 := d2.add hfl (by norm_num) (by norm_num) (f3.mono (by norm_num) (by norm_num) le_rfl)
  have d4 := d3.2
  have hu := uu_nonneg (K := K)
  refine le_trans (le_of_eq ?_) (d4.trans ?_)
  · rfl
  · rw [sum_ten]
    have := mul_nonneg hu (n 0)
    have := mul_nonneg hu (n 1)
    have := mul_nonneg hu (n 2)
    have := mul_nonneg hu (n 3)
    have := mul_nonneg hu (n 4)
    have := mul_nonneg hu (n 5)
    have := mul_nonneg hu (n 6)
    have := mul_nonneg hu (n 7)
    have := mul_nonneg hu (n 8)
    have := mul_nonneg hu (n 9)
    nlinarith

/-! ### The sum of the other coefficients -/

/-- The builtin sum of ten absolute values. -/
theorem pysum3_close (c : Fin 10 → K) : |(List.ofFn fun i => |c i|).foldl (fun s a => fl (s + a)) 0 - (∑ i, |c i|)| ≤ 20 * uu K * ∑ i, |c i| := by
  have r : ∀ i, Appr 0 |c i| |c i| |c i| := fun i => Appr.of_le (by rw [abs_abs])
  have z : Appr 0 0 (0 : K) 0 := Appr.of_le (by simp)
  have a0 := z.add hfl le_rfl (by norm_num) (r 0)
  have a1 := a0.add hfl (by norm_num) (by norm_num) ((r 1).mono le_rfl (by norm_num) le_rfl)
  have a2 := a1.add hfl (by norm_num) (by norm_num) ((r 2).mono le_rfl (by norm_num) le_rfl)
  have a3 := a2.add hfl (by norm_num) (by norm_num) ((r 3).mono le_rfl (by norm_num) le_rfl)
  have a4 := a3.add hfl (by norm_num) (by norm_num) ((r 4).mono le_rfl (by norm_num) le_rfl)
  have a5 := a4.add hfl (by norm_num) (by norm_num) ((r 5).mono le_rfl (by norm_num) le_rfl)
  have a6 := a5.add hfl (by norm_num) (by norm_num) ((r 6).mono le_rfl (by norm_num) le_rfl)
  have a7 := a6.add hfl (by norm_num) (by norm_num) ((r 7).mono le_rfl (by norm_num) le_rfl)
  have a8 := a7.add hfl (by norm_num) (by norm_num) ((r 8).mono le_rfl (by norm_num) le_rfl)
  have a9 := a8.add hfl (by norm_num) (by norm_num) ((r 9).mono le_rfl (by norm_num) le_rfl)
  have h := a9.2
  rw [sum_ten]
  refine le_trans (le_of_eq ?_) (h.trans (le_of_eq ?_))
  · rw [zero_add (|c 0|)]
    simp only [List.ofFn_succ, List.ofFn_zero, List.foldl_cons, List.foldl_nil, zero_add]
    rfl
  · ring

omit hfl in
/-- The rounded `other_sum`. -/
theorem otherSum3DF_close {ar : FloatArith K} (hfl : RoundsToNearest 53 ar.fl) (hs : ar.Sums) (M : Tensor 3 K) (hM : M.Nonempty)
    (hN : ∏ i, M.shape i ≤ 2 ^ 20) {tol : K} (ht : 0 ≤ tol) :
    |otherSum3DF ar M tol - (restAbs M + tol)| ≤ 1 / 2 ^ 31 * (M.absSum + tol) ∧ ∑ i, |coeffs3D M i| ≤ M.absSum := by
  have h1 := sum_close hfl hs M hM hN
  have h2 := pysum3_close hfl (coeffs3D M)
  have h3 := otherSum3D_eq M hM
  have hr : 0 ≤ restAbs M := sum_nonneg fun _ _ => abs_nonneg _
  have hS : 0 ≤ ∑ i, |coeffs3D M i| := sum_nonneg fun _ _ => abs_nonneg _
  unfold otherSum3DF
  generalize List.foldl _ _ _ = p at *
  generalize ar.sum M.absList = q at *
  generalize ∑ i, |coeffs3D M i| = S at *
  generalize M.absSum = A at *
  generalize restAbs M = R at *
  refine ⟨?_, by linarith⟩
  have h4 := flu hfl (q - p)
  have h5 := flu hfl (ar.fl (q - p) + tol)
  have hA : 0 ≤ A := by linarith
  unfold uu at *
  generalize ar.fl (q - p) = z at *
  generalize ar.fl (z + tol) = w at *
  have e1 : |q - p - R| ≤ 1 / 2 ^ 32 * A + 20 * (1 / 2 ^ 53) * A := by
    have e : q - p - R = (q - A) - (p - S) := by linarith
    rw [e]
    refine (abs_sub _ _).trans (add_le_add h1 (h2.trans ?_))
    exact mul_le_mul_of_nonneg_left (by linarith) (by norm_num)
  have e2 : |q - p| ≤ 2 * A := by
    have := abs_add_le (q - p - R) R
    rw [sub_add_cancel, abs_of_nonneg hr] at this
    have : (1 / 2 ^ 32 * A + 20 * (1 / 2 ^ 53) * A : K) ≤ 1 * A := by
      rw [← add_mul]
      exact mul_le_mul_of_nonneg_right (by norm_num) hA
    linarith
  have e3 : |z - R| ≤ 1 / 2 ^ 32 * A + 22 * (1 / 2 ^ 53) * A := by
    have := abs_add_le (z - (q - p)) (q - p - R)
    rw [sub_add_sub_cancel] at this
    have : 1 / 2 ^ 53 * |q - p| ≤ 1 / 2 ^ 53 * (2 * A) := mul_le_mul_of_nonneg_left e2 (by norm_num)
    linarith
  have e4 : |z + tol| ≤ 2 * A + tol := by
    have g1 := abs_add_le (z - R) (R + tol)
    rw [abs_of_nonneg (add_nonneg hr ht), show z - R + (R + tol) = z + tol by ring] at g1
    have : (1 / 2 ^ 32 * A + 22 * (1 / 2 ^ 53) * A : K) ≤ 1 * A := by
      rw [← add_mul]
      exact mul_le_mul_of_nonneg_right (by norm_num) hA
    linarith
  have e5 := abs_add_le (w - (z + tol)) (z - R)
  rw [show w - (z + tol) + (z - R) = w - (R + tol) by ring] at e5
  have e6 : 1 / 2 ^ 53 * |z + tol| ≤ 1 / 2 ^ 53 * (2 * A + tol) := mul_le_mul_of_nonneg_left e4 (by norm_num)
  have e7 : (1 / 2 ^ 32 + 24 * (1 / 2 ^ 53)) * A ≤ 1 / 2 ^ 31 * A := mul_le_mul_of_nonneg_right (by norm_num) hA
  have e8 : 1 / 2 ^ 53 * tol ≤ 1 / 2 ^ 31 * tol := mul_le_mul_of_nonneg_right (by norm_num) ht
  linarith

end YRoots
