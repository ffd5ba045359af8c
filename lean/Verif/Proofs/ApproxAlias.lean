import Verif.Proofs.ApproxLoop
import Verif.Proofs.ApproxError

/-!
# Helper lemmas: aliasing, and the error of the returned series
-/

set_option linter.unusedSectionVars false
set_option linter.unusedVariables false
set_option linter.unusedSimpArgs false

namespace YRoots

open Finset Real

variable {n : ℕ}

/-- The index at most `N` with which `k` coincides on the grid of degree `N`. -/
def fold (N k : ℕ) : ℕ := if k % (2 * N) ≤ N then k % (2 * N) else 2 * N - k % (2 * N)

theorem fold_le (N k : ℕ) (hN : 1 ≤ N) : fold N k ≤ N := by
  have := Nat.mod_lt k (show 0 < 2 * N by omega)
  unfold fold
  split <;> omega

theorem fold_eq (N k : ℕ) (hN : 1 ≤ N) (hk : k ≤ N) : fold N k = k := by
  unfold fold
  rw [Nat.mod_eq_of_lt (by omega), if_pos hk]

theorem chebT_fold (N k j : ℕ) (hN : 1 ≤ N) : chebT k (chebPt N j) = chebT (fold N k) (chebPt N j) := by
  rw [chebT_chebPt, chebT_chebPt]
  have hN0 : (N : ℝ) ≠ 0 := by positivity
  have hk : (k : ℝ) = 2 * N * (k / (2 * N) : ℕ) + (k % (2 * N) : ℕ) := by
    have := Nat.div_add_mod k (2 * N)
    exact_mod_cast this.symm
  have h1 : (k : ℝ) * (j * π / N) = (k % (2 * N) : ℕ) * (j * π / N) + ((k / (2 * N) * j : ℕ) : ℝ) * (2 * π) := by
    push_cast
    nth_rewrite 1 [hk]
    field_simp
    ring
  rw [h1, cos_add_nat_mul_two_pi]
  unfold fold
  split
  · rfl
  · have hlt := Nat.mod_lt k (show 0 < 2 * N by omega)
    rw [Nat.cast_sub hlt.le, ← cos_neg]
    rw [← cos_add_nat_mul_two_pi _ j]
    congr 1
    push_cast
    field_simp
    ring

theorem abs_prod_chebT_le (k : Fin n → ℕ) (x : Fin n → ℝ) (hx : InCube x) : |∏ i, chebT (k i) (x i)| ≤ 1 := by
  rw [abs_prod]
  exact prod_le_one (fun _ _ => abs_nonneg _) fun i _ => abs_chebT_le_one _ (hx i)

/-- Error of the computed series for a function with a finite Chebyshev expansion: at most twice the sum of the
absolute values of the coefficients outside the kept box. -/
theorem alias_error (f : (Fin n → ℝ) → ℝ) (degs : Fin n → ℕ) (a b : Fin n → ℝ) (S : Finset (Fin n → ℕ))
    (c : (Fin n → ℕ) → ℝ) (hf : ∀ x, InCube x → f (transformPt x a b) = ∑ k ∈ S, c k * ∏ i, chebT (k i) (x i))
    (x : Fin n → ℝ) (hx : InCube x) :
    |f (transformPt x a b) - (intervalApproximate f degs a b).coeffs.eval x| ≤
      2 * ∑ k ∈ S.filter (fun k => ∃ i, degs i < k i), |c k| := by
  set N := bumpDegs degs with hN
  have hN1 : ∀ i, 1 ≤ N i := one_le_bumpDegs degs
  have hNd : ∀ i, degs i ≤ N i := le_bumpDegs degs
  set F : (Fin n → ℕ) → (Fin n → ℕ) := fun k i => fold (N i) (k i) with hF
  have hFm : ∀ k, F k ∈ gridIdx N := fun k => mem_gridIdx.2 fun i => fold_le _ _ (hN1 i)
  set ch : (Fin n → ℕ) → ℝ := fun m => ∑ k ∈ S.filter (fun k => F k = m), c k with hch
  have hcube : ∀ j : Fin n → ℕ, InCube fun i => chebPt (N i) (j i) := fun j i => abs_cos_le_one _
  have hcoef : ∀ m ∈ gridIdx N, (intervalApproximate f degs a b).coeffs.coef m = ch m := by
    intro m hm
    rw [intervalApproximate_coef]
    apply fullCoef_recover N hN1 ch _ _ m hm
    intro j hj
    have : f (gridPt N a b j) = ∑ k ∈ S, c k * ∏ i, chebT (k i) (chebPt (N i) (j i)) := hf _ (hcube j)
    rw [this, ← sum_fiberwise_of_maps_to (t := gridIdx N) (g := F) (fun k _ => hFm k)]
    apply sum_congr rfl
    intro m _
    rw [hch, sum_mul]
    apply sum_congr rfl
    intro k hk
    congr 1
    apply prod_congr rfl
    intro i _
    rw [chebT_fold _ _ _ (hN1 i)]
    have := (mem_filter.1 hk).2
    rw [← this]
  have hsub : gridIdx degs ⊆ gridIdx N := fun m hm => mem_gridIdx.2 fun i => (mem_gridIdx.1 hm i).trans (hNd i)
  have heval : (intervalApproximate f degs a b).coeffs.eval x =
      ∑ k ∈ S, c k * (if F k ∈ gridIdx degs then ∏ i, chebT (F k i) (x i) else 0) := by
    unfold Tensor.eval
    rw [intervalApproximate_idx, sum_congr rfl fun m hm => by rw [hcoef m (hsub hm)]]
    rw [← sum_fiberwise_of_maps_to (s := S) (t := gridIdx N) (g := F) (fun k _ => hFm k)]
    rw [← sum_subset hsub]
    · apply sum_congr rfl
      intro m hm
      rw [hch, sum_mul]
      apply sum_congr rfl
      intro k hk
      have := (mem_filter.1 hk).2
      rw [this, if_pos hm]
    · intro m _ hm
      apply sum_eq_zero
      intro k hk
      rw [(mem_filter.1 hk).2, if_neg hm, mul_zero]
  rw [hf x hx, heval, ← sum_sub_distrib, sum_filter, mul_sum]
  refine (abs_sum_le_sum_abs _ _).trans (sum_le_sum fun k _ => ?_)
  rw [← mul_sub, abs_mul]
  by_cases h : ∃ i, degs i < k i
  · rw [if_pos h]
    have h1 := abs_prod_chebT_le k x hx
    have h2 : |if F k ∈ gridIdx degs then ∏ i, chebT (F k i) (x i) else 0| ≤ 1 := by
      by_cases h' : F k ∈ gridIdx degs
      · rw [if_pos h']; exact abs_prod_chebT_le _ x hx
      · rw [if_neg h']; simp
    have := abs_sub (∏ i, chebT (k i) (x i)) (if F k ∈ gridIdx degs then ∏ i, chebT (F k i) (x i) else 0)
    nlinarith [abs_nonneg (c k)]
  · rw [if_neg h]
    push Not at h
    have hFk : F k = k := funext fun i => fold_eq _ _ (hN1 i) ((h i).trans (hNd i))
    rw [hFk, if_pos (mem_gridIdx.2 h), sub_self, abs_zero, mul_zero, mul_zero]

theorem getApproxError_mono {K : Type*} [Field K] [LinearOrder K] [IsStrictOrderedRing K] (degs degs' : Fin n → ℕ)
    (h : ∀ i, degs i ≤ degs' i) (eps : Fin n → K) (rhos : Fin n → WithTop K) (hr : ∀ i, 1 < rhos i) :
    getApproxError degs eps rhos ≤ getApproxError degs' eps rhos := by
  rw [getApproxError_eq, getApproxError_eq]
  apply sum_le_sum
  intro idxs _
  rw [errorTerm_eq, errorTerm_eq]
  apply mul_le_mul_of_nonneg_right _ (le_usedEps _ _).1
  apply prod_le_prod
  · intro i _
    split
    · exact (geom_tail _ (hr i) 0 0).2.2
    · positivity
  · intro i _
    split
    · exact le_rfl
    · have : (degs i : K) ≤ degs' i := by exact_mod_cast h i
      linarith

end YRoots
