import Verif.Proofs.FloatTransformSeq
import Verif.Proofs.TransformND

/-!
# The sum of the absolute values of the coefficients of a polynomial that is bounded on the cube
-/

namespace YRoots

open Finset

variable {n : ℕ}

/-- The polynomial with the `d`-th variable fixed. -/
noncomputable def fixAxis (M : Tensor n ℝ) (d : Fin n) (t : ℝ) : Tensor n ℝ :=
  M.ofRows d (fun _ k => ∑ j ∈ range (M.shape d), M.rows d j k * chebT j t, 1)

theorem fixAxis_eval (M : Tensor n ℝ) (d : Fin n) (t : ℝ) (x : Fin n → ℝ) : (fixAxis M d t).eval x = M.eval (Function.update x d t) := by
  rw [fixAxis, ofRows_eval, eval_axis M d, Function.update_self, rowL_update]
  unfold outEval
  rw [sum_range_one, chebT_zero, one_smul]
  have e : (fun k => ∑ j ∈ range (M.shape d), M.rows d j k * chebT j t) = ∑ j ∈ range (M.shape d), chebT j t • M.rows d j := by
    funext k
    simp [Finset.sum_apply, mul_comm]
  rw [e, map_sum]
  simp

theorem sum_sq_axis (M : Tensor n ℝ) (d : Fin n) (f : ℝ → ℝ) :
    ∑ k ∈ M.idx, f (M.coef k) = ∑ k ∈ restIdx M.shape d, ∑ j ∈ range (M.shape d), f (M.rows d j k) := by
  unfold Tensor.idx
  rw [sum_piFinset_axis _ d, sum_comm]
  rfl

theorem sum_fixAxis (M : Tensor n ℝ) (d : Fin n) (t : ℝ) (f : ℝ → ℝ) :
    ∑ k ∈ (fixAxis M d t).idx, f ((fixAxis M d t).coef k) = ∑ k ∈ restIdx M.shape d, f (∑ j ∈ range (M.shape d), M.rows d j k * chebT j t) := by
  rw [sum_sq_axis _ d]
  have e : restIdx (fixAxis M d t).shape d = restIdx M.shape d := restIdx_update M.shape d 1
  rw [e]
  refine sum_congr rfl fun k hk => ?_
  have e2 : (fixAxis M d t).shape d = 1 := by simp [fixAxis, Tensor.ofRows]
  rw [e2, sum_range_one]
  congr 1
  simp only [Tensor.rows, fixAxis, Tensor.ofRows, Function.update_self, Function.update_idem]

/-- The squares of the coefficients of a polynomial that is at most `B` on the cube; `l` contains all axes with more than one entry. -/
theorem sum_sq_le_list (l : List (Fin n)) : ∀ (M : Tensor n ℝ) (B : ℝ), M.Nonempty → (∀ j, j ∉ l → M.shape j = 1) →
    (∀ x, InCube x → |M.eval x| ≤ B) → ∑ k ∈ M.idx, M.coef k ^ 2 ≤ 2 ^ l.length * B ^ 2 := by
  induction l with
  | nil =>
    intro M B hM h1 hB
    have hi : M.idx = {fun _ => 0} := by
      ext k
      unfold Tensor.idx
      simp only [Fintype.mem_piFinset, mem_singleton, mem_range, h1 _ (List.not_mem_nil)]
      constructor
      · intro h
        funext i
        have := h i
        omega
      · rintro rfl i
        exact Nat.one_pos
    have h2 := hB (fun _ => 0) (fun _ => by simp)
    have h3 : M.eval (fun _ => 0) = M.coef fun _ => 0 := by
      unfold Tensor.eval
      rw [hi, sum_singleton]
      simp [chebT_zero]
    rw [hi, sum_singleton, List.length_nil, pow_zero, one_mul, ← sq_abs, ← h3]
    exact pow_le_pow_left₀ (abs_nonneg _) h2 2
  | cons d l ih =>
    intro M B hM h1 hB
    have hR := hM d
    have hR0 : (0 : ℝ) < M.shape d := by exact_mod_cast hR
    have hk : ∀ t : ℝ, |t| ≤ 1 → ∑ k ∈ restIdx M.shape d, (∑ j ∈ range (M.shape d), M.rows d j k * chebT j t) ^ 2 ≤ 2 ^ l.length * B ^ 2 := by
      intro t ht
      rw [← sum_fixAxis M d t (fun y => y ^ 2)]
      refine ih (fixAxis M d t) B (fun j => ?_) (fun j hj => ?_) (fun x hx => ?_)
      · by_cases hjd : j = d
        · subst hjd; simp [fixAxis, Tensor.ofRows]
        · simp only [fixAxis, Tensor.ofRows, Function.update_of_ne hjd]; exact hM j
      · by_cases hjd : j = d
        · subst hjd; simp [fixAxis, Tensor.ofRows]
        · simp only [fixAxis, Tensor.ofRows, Function.update_of_ne hjd]
          exact h1 j (by simp [hjd, hj])
      · rw [fixAxis_eval]
        refine hB _ fun j => ?_
        by_cases hjd : j = d
        · subst hjd; rwa [Function.update_self]
        · rw [Function.update_of_ne hjd]; exact hx j
    have key : (∑ k ∈ M.idx, M.coef k ^ 2) * M.shape d ≤ (2 ^ (l.length + 1) * B ^ 2) * M.shape d := by
      rw [sum_sq_axis M d (fun y => y ^ 2), sum_mul]
      calc _ ≤ ∑ k ∈ restIdx M.shape d, 2 * ∑ g ∈ range (M.shape d + 1),
            wt (M.shape d) g * (colEval (M.shape d) (fun j => M.rows d j k) (chebPt (M.shape d) g)) ^ 2 :=
            sum_le_sum fun k _ => sum_sq_coef_le (M.shape d) hR fun j => M.rows d j k
        _ = 2 * ∑ g ∈ range (M.shape d + 1), wt (M.shape d) g * ∑ k ∈ restIdx M.shape d,
            (∑ j ∈ range (M.shape d), M.rows d j k * chebT j (chebPt (M.shape d) g)) ^ 2 := by
            rw [← mul_sum, sum_comm]
            congr 1
            refine sum_congr rfl fun g _ => ?_
            rw [mul_sum]
            rfl
        _ ≤ 2 * ∑ g ∈ range (M.shape d + 1), wt (M.shape d) g * (2 ^ l.length * B ^ 2) := by
            apply mul_le_mul_of_nonneg_left _ zero_le_two
            exact sum_le_sum fun g _ => mul_le_mul_of_nonneg_left (hk _ (Real.abs_cos_le_one _)) (wt_pos _ _).le
        _ = _ := by rw [← sum_mul, sum_wt _ hR]; ring
    rw [List.length_cons]
    exact le_of_mul_le_mul_right key hR0

/-- The sum of the absolute values of the coefficients is at most `√(2 ^ n m)` times the maximum on the cube, `m` the number of coefficients. -/
theorem absSum_le_of_bound (M : Tensor n ℝ) (hM : M.Nonempty) {B C : ℝ} (hB : ∀ x, InCube x → |M.eval x| ≤ B)
    (hC0 : 0 ≤ C) (hC : 2 ^ n * ((∏ i, M.shape i : ℕ) : ℝ) ≤ C ^ 2) : M.absSum ≤ C * B := by
  have hB0 : 0 ≤ B := (abs_nonneg _).trans (hB (fun _ => 0) (fun _ => by simp))
  have h1 := sum_sq_le_list (List.finRange n) M B hM (fun j hj => absurd (List.mem_finRange j) hj) hB
  rw [List.length_finRange] at h1
  have h2 : M.absSum ^ 2 ≤ (∏ i, M.shape i : ℕ) * ∑ k ∈ M.idx, M.coef k ^ 2 := by
    have := sq_sum_le_card_mul_sum_sq (s := M.idx) (f := fun k => |M.coef k|)
    simp only [sq_abs] at this
    have hc : (M.idx.card : ℝ) = (∏ i, M.shape i : ℕ) := by
      unfold Tensor.idx
      rw [Fintype.card_piFinset]
      simp
    rw [hc] at this
    exact this
  have h3 : M.absSum ^ 2 ≤ (C * B) ^ 2 := by
    refine h2.trans ?_
    rw [mul_pow]
    have h4 := mul_le_mul_of_nonneg_left h1 (Nat.cast_nonneg (∏ i, M.shape i) : (0 : ℝ) ≤ (∏ i, M.shape i : ℕ))
    have h5 := mul_le_mul_of_nonneg_right hC (sq_nonneg B)
    linarith
  exact (pow_le_pow_iff_left₀ (sum_nonneg fun _ _ => abs_nonneg _) (by positivity) two_ne_zero).1 h3

end YRoots
