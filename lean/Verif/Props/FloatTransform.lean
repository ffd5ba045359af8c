import Verif.Proofs.FloatTransform

/-!
# Property C100: rounding errors of the re-expansion

Specification: the value of the array returned is compared with the exact value `M.eval` at the transformed point; `fl` is any rounding to nearest
with 53 digits.
-/

namespace YRoots

open Finset

/-- The claim of C100 for one array and one axis: whatever subinterval of `[-1, 1]` with representable midpoint and half length is the target,
`getTransformationError` bounds the error of the rounded computation on the whole cube. -/
def RoundedErrorClaim {n : ℕ} {K : Type*} [Field K] [LinearOrder K] (fl : K → K) (M : Tensor n K) (d : Fin n) : Prop :=
  ∀ α β : K, IsFloat 53 α → IsFloat 53 β → (∀ t : K, |t| ≤ 1 → |α * t + β| ≤ 1) → ∀ x : Fin n → K, InCube x →
    |M.eval (Function.update x d (α * x d + β)) - (transformNDF fl M d α β).eval x| ≤ getTransformationError M d

theorem abs_add_abs_le_one {α β : ℝ} (h : ∀ t : ℝ, |t| ≤ 1 → |α * t + β| ≤ 1) : |α| + |β| ≤ 1 := by
  have h1 := abs_le.1 (h 1 (by simp))
  have h2 := abs_le.1 (h (-1) (by simp))
  rcases abs_cases α with ⟨e, _⟩ | ⟨e, _⟩ <;> rcases abs_cases β with ⟨e', _⟩ | ⟨e', _⟩ <;> rw [e, e'] <;> linarith [h1.1, h1.2, h2.1, h2.2]

section Bound

variable {n : ℕ} {fl : ℝ → ℝ} (hfl : RoundsToNearest 53 fl)

include hfl

theorem fl_rel' (x : ℝ) : |fl x - x| ≤ 1 / 2 ^ 53 * |x| := by
  have := fl_rel hfl (by norm_num) x
  rwa [div_eq_mul_one_div, mul_comm] at this

theorem thr_le : fl (1 / 10 ^ 16) ≤ 1 / 2 ^ 53 := by
  have h1 : fl (1 / 2 ^ 53) = 1 / 2 ^ 53 := by
    apply fl_eq hfl
    have := isFloat_zp (K := ℝ) (p := 53) (by norm_num) (-53)
    rwa [zpow_neg, ← one_div] at this
  rw [← h1]
  exact fl_mono hfl (by norm_num)

omit hfl in
theorem pow_u_le (k : ℕ) (hk : k ≤ 2 ^ 50) : (1 + 1 / 2 ^ 53 : ℝ) ^ k ≤ 1 + 2 * k * (1 / 2 ^ 53) := by
  induction k with
  | zero => simp
  | succ k ih =>
    have h1 := ih (by omega)
    have h2 : (k : ℝ) ≤ 2 ^ 50 := by exact_mod_cast (by omega : k ≤ 2 ^ 50)
    rw [pow_succ]
    push_cast
    have h3 : (1 + 1 / 2 ^ 53 : ℝ) ^ k * (1 + 1 / 2 ^ 53) ≤ (1 + 2 * k * (1 / 2 ^ 53)) * (1 + 1 / 2 ^ 53) :=
      mul_le_mul_of_nonneg_right h1 (by norm_num)
    refine h3.trans ?_
    have : (k : ℝ) * (1 / 2 ^ 53) ≤ 1 / 8 := by
      calc (k : ℝ) * (1 / 2 ^ 53) ≤ 2 ^ 50 * (1 / 2 ^ 53) := mul_le_mul_of_nonneg_right h2 (by norm_num)
        _ = 1 / 8 := by norm_num
    nlinarith

/-- **C100, part.** For axes with at most two entries (affine in that variable) the claim holds. -/
theorem C100_two_partial (M : Tensor n ℝ) (d : Fin n) (h0 : 0 < M.shape d) (hN : M.shape d ≤ 2) : RoundedErrorClaim fl M d := by
  intro α β _ _ hαβ x hx
  have hs := abs_add_abs_le_one hαβ
  have hS : 0 ≤ M.absSum := Finset.sum_nonneg fun _ _ => abs_nonneg _
  have hC : (0 : ℝ) ≤ if M.shape d = 2 then (1 + 1 / 2 ^ 53) ^ 2 - 1 else 0 := by
    split <;> norm_num
  refine (transformNDF_bound M d h0 α β hx hC ?_).trans ?_
  · intro h2 coeffs k
    have hsh : M.shape d = 2 := by omega
    rw [if_pos hsh, hsh]
    have := fibre_error (fl := fl) (u := 1 / 2 ^ 53) (by norm_num) (fl_rel' hfl) (fl_nonneg hfl (by norm_num : (0 : ℝ) ≤ 1 / 10 ^ 16)) coeffs α β 0 2
      le_rfl (α * x d + β) (x d) (hx d) k (A := 1) (E := 0) (by
        intro c hc
        rcases (by omega : c = 0 ∨ c = 1) with rfl | rfl
        · simp [colF, sum_range_succ]
        · simp only [colF, tRunF, List.range'_zero, List.foldl_nil, tInitF, sum_range_succ, range_zero, sum_empty]
          simpa [add_comm] using hs) (by
        intro c hc
        rcases (by omega : c = 0 ∨ c = 1) with rfl | rfl
        · simp [colF, colEval, sum_range_succ]
        · simp [colF, colEval, sum_range_succ, tRunF, tInitF]
          rw [add_comm, sub_self])
    rw [zero_add, zero_add, mul_one] at this
    exact this
  · unfold getTransformationError macheps
    apply mul_le_mul_of_nonneg_right _ hS
    rcases (by omega : M.shape d = 1 ∨ M.shape d = 2) with h | h <;> norm_num [h]

/-- **C100, part.** A bound for all axes of at most `2 ^ 15` entries: the error of the rounded computation (with the dropping of rows) is at most
`22 N ^ 2` times the value of `getTransformationError`, where `N` is the number of entries. -/
theorem C100_bound_partial (M : Tensor n ℝ) (d : Fin n) (h0 : 0 < M.shape d) (hN : M.shape d ≤ 2 ^ 15) (α β : ℝ)
    (hαβ : ∀ t : ℝ, |t| ≤ 1 → |α * t + β| ≤ 1) (x : Fin n → ℝ) (hx : InCube x) :
    |M.eval (Function.update x d (α * x d + β)) - (transformNDF fl M d α β).eval x|
      ≤ 22 * (M.shape d : ℝ) ^ 2 * getTransformationError M d := by
  have hs := abs_add_abs_le_one hαβ
  have hS : 0 ≤ M.absSum := Finset.sum_nonneg fun _ _ => abs_nonneg _
  have hthr := fl_nonneg hfl (by norm_num : (0 : ℝ) ≤ 1 / 10 ^ 16)
  have hf := fl_rel' hfl
  have hu : (0 : ℝ) ≤ 1 / 2 ^ 53 := by norm_num
  refine (transformNDF_bound M d h0 α β hx (C := 22 * (M.shape d : ℝ) ^ 3 / 2 ^ 52) (by positivity) ?_).trans (le_of_eq ?_)
  · intro h2 coeffs k
    obtain ⟨m, hm⟩ : ∃ m, M.shape d = m + 2 := ⟨M.shape d - 2, by omega⟩
    rw [hm] at hN ⊢
    have hmR : (m : ℝ) + 2 ≤ 2 ^ 15 := by exact_mod_cast hN
    have hm0 : (0 : ℝ) ≤ m := Nat.cast_nonneg m
    obtain ⟨t, ht⟩ : ∃ t : ℝ, t = 73 * (m + 3) * (1 / 2 ^ 53) := ⟨_, rfl⟩
    have ht0 : 0 ≤ t := by rw [ht]; positivity
    have htt : ((1 + 1 / 2 ^ 53 : ℝ) ^ 5 - 1) * (12 * ((m + 3 : ℕ) : ℝ)) + fl (1 / 10 ^ 16) ≤ t := by
      have h1 : (1 + 1 / 2 ^ 53 : ℝ) ^ 5 - 1 ≤ 6 * (1 / 2 ^ 53) := by norm_num
      have h3 := thr_le hfl
      push_cast
      have h4 : ((1 + 1 / 2 ^ 53 : ℝ) ^ 5 - 1) * (12 * ((m : ℝ) + 3)) ≤ 6 * (1 / 2 ^ 53) * (12 * ((m : ℝ) + 3)) :=
        mul_le_mul_of_nonneg_right h1 (by positivity)
      have h5 : (1 / 2 ^ 53 : ℝ) ≤ (m + 3) * (1 / 2 ^ 53) := le_mul_of_one_le_left hu (by linarith)
      rw [ht]
      linarith
    have hcube : t * (m * (m + 1) / 2) ≤ 73 / 2 * (m + 2) ^ 3 * (1 / 2 ^ 53) := by
      rw [ht]
      have : ((m : ℝ) + 3) * (m * (m + 1)) ≤ (m + 2) ^ 3 := by nlinarith
      calc _ = 73 / 2 * (((m : ℝ) + 3) * (m * (m + 1))) * (1 / 2 ^ 53) := by ring
        _ ≤ _ := by
          apply mul_le_mul_of_nonneg_right _ hu
          linarith
    have hone : t * (m * (m + 1) / 2) ≤ 1 := by
      refine hcube.trans ?_
      have : ((m : ℝ) + 2) ^ 3 ≤ (2 ^ 15) ^ 3 := pow_le_pow_left₀ (by linarith) hmR 3
      calc _ ≤ 73 / 2 * ((2 ^ 15) ^ 3) * (1 / 2 ^ 53 : ℝ) := by
            apply mul_le_mul_of_nonneg_right _ hu
            linarith
        _ ≤ 1 := by norm_num
    have hmono : ∀ j : ℕ, j ≤ m → t * (j * (j + 1) / 2) ≤ t * (m * (m + 1) / 2) := by
      intro j hj
      have hj' : (j : ℝ) ≤ m := by exact_mod_cast hj
      have hj0 : (0 : ℝ) ≤ j := Nat.cast_nonneg j
      apply mul_le_mul_of_nonneg_left _ ht0
      nlinarith
    have hcol := fun j (hj : j ≤ m) => col_close (fl := fl) hu hf hthr coeffs hs (m + 3) htt j (by omega) ((hmono j hj).trans hone)
    have hfib := fibre_error (fl := fl) hu hf hthr coeffs α β m (m + 3) (by omega) (α * x d + β) (x d) (hx d) k
      (A := 4 * ((m + 3 : ℕ) : ℝ)) (E := 73 / 2 * (m + 2) ^ 3 * (1 / 2 ^ 53)) (by
        intro c hc
        cases c with
        | zero => rw [← tRunF_arr1]; exact (hcol 0 (by omega)).2.1
        | succ j => exact (hcol j (by omega)).2.2) (by
        intro c hc
        cases c with
        | zero =>
          have : colEval (m + 3) (colF fl (fl (1 / 10 ^ 16)) coeffs α β 0) (x d) = 1 := tInit_colEval1 (V := ℝ) (fun _ => 0) α β _ (by omega) _
          rw [this]
          simp only [chebT_zero, sub_self, abs_zero]
          positivity
        | succ j => exact ((err_zero ((hcol j (by omega)).1 (x d) (hx d))).trans (hmono j (by omega))).trans hcube)
    refine hfib.trans (mul_le_mul_of_nonneg_right ?_ (sum_nonneg fun _ _ => abs_nonneg _))
    have hp := pow_u_le (m + 2) (le_trans hN (by norm_num))
    have h4 : ((1 + 1 / 2 ^ 53 : ℝ) ^ (m + 2) - 1) * (4 * ((m + 3 : ℕ) : ℝ)) ≤ 2 * (m + 2) * (1 / 2 ^ 53) * (4 * (m + 3)) := by
      push_cast at hp ⊢
      exact mul_le_mul_of_nonneg_right (by linarith) (by positivity)
    have h5 : 8 * ((m : ℝ) + 2) * (m + 3) ≤ 6 * (m + 2) ^ 3 := by nlinarith [sq_nonneg (m : ℝ), mul_nonneg hm0 (sq_nonneg (m : ℝ))]
    have h6 : 2 * ((m : ℝ) + 2) * (1 / 2 ^ 53) * (4 * (m + 3)) ≤ 6 * (m + 2) ^ 3 * (1 / 2 ^ 53) := by
      calc _ = 8 * ((m : ℝ) + 2) * (m + 3) * (1 / 2 ^ 53) := by ring
        _ ≤ _ := mul_le_mul_of_nonneg_right h5 hu
    push_cast at h4 ⊢
    have h7 : 0 ≤ ((m : ℝ) + 2) ^ 3 * (1 / 2 ^ 53) := by positivity
    have e : 22 * ((m : ℝ) + 2) ^ 3 / 2 ^ 52 = 44 * ((m + 2) ^ 3 * (1 / 2 ^ 53)) := by ring
    rw [e]
    linarith
  · unfold getTransformationError macheps
    ring

end Bound

/-! ### The witness -/

/-- `T_5`. -/
def exT5 : Tensor 1 ℚ := ⟨fun _ => 6, fun k => if k 0 = 5 then 1 else 0⟩

/-- Half the length of the target interval `[1 - 2 α, 1]`. -/
def exAlpha : ℚ := 25020575 / 2 ^ 27

theorem exT5_run : (transform1DF (roundFloat 53) (exT5.rows 0) 6 exAlpha (1 - exAlpha)).2 = 6 ∧
    6 / 2 ^ 52 < |1 - ∑ i ∈ range 6, (transform1DF (roundFloat 53) (exT5.rows 0) 6 exAlpha (1 - exAlpha)).1 i 0| := by
  decide +kernel

theorem exT5_error : getTransformationError exT5 0 = 6 / 2 ^ 52 ∧ exT5.eval (Function.update (fun _ => 1) 0 (exAlpha * 1 + (1 - exAlpha))) = 1 ∧
    6 / 2 ^ 52 < |1 - (transformNDF (roundFloat 53) exT5 0 exAlpha (1 - exAlpha)).eval (fun _ => 1)| := by
  obtain ⟨hr1, hr2⟩ := exT5_run
  have e1 : exT5.eval (Function.update (fun _ => 1) 0 (exAlpha * 1 + (1 - exAlpha))) = 1 := by
    rw [eval_axis _ 0]
    have : (exAlpha * 1 + (1 - exAlpha) : ℚ) = 1 := by ring
    rw [this]
    simp only [Function.update_self, chebT_at_one, one_mul, rowL_apply]
    have hr : restIdx exT5.shape 0 = {fun _ => 0} := by
      ext k
      simp only [restIdx, Fintype.mem_piFinset, mem_singleton]
      constructor
      · intro hk
        funext i
        have := hk i
        fin_cases i
        simpa using this
      · rintro rfl i
        fin_cases i
        simp
    rw [hr]
    simp only [sum_singleton]
    have : (univ.erase (0 : Fin 1)) = ∅ := by decide
    rw [this]
    simp only [prod_empty, mul_one]
    show ∑ j ∈ range 6, exT5.rows 0 j (fun _ => 0) = 1
    decide +kernel
  have e2 : transformNDF (roundFloat 53) exT5 0 exAlpha (1 - exAlpha) = transformAxisF (roundFloat 53) exT5 0 exAlpha (1 - exAlpha) := by
    unfold transformNDF
    rw [if_neg, if_pos (show ((0 : Fin 1) : ℕ) = 0 from rfl)]
    rintro (⟨h, -⟩ | h)
    · norm_num [exAlpha] at h
    · exact absurd h (by decide)
  have e3 : (transformAxisF (roundFloat 53) exT5 0 exAlpha (1 - exAlpha)).eval (fun _ => 1) =
      ∑ i ∈ range 6, (transform1DF (roundFloat 53) (exT5.rows 0) 6 exAlpha (1 - exAlpha)).1 i 0 := by
    rw [eval_axis _ 0]
    have hsh : (transformAxisF (roundFloat 53) exT5 0 exAlpha (1 - exAlpha)).shape 0 = 6 := by
      simp only [transformAxisF, Tensor.ofRows, Function.update_self]
      exact hr1
    rw [hsh]
    refine sum_congr rfl fun j _ => ?_
    rw [chebT_at_one, one_mul, rowL_apply]
    have hr : restIdx (transformAxisF (roundFloat 53) exT5 0 exAlpha (1 - exAlpha)).shape 0 = {0} := by
      ext k
      simp only [restIdx, Fintype.mem_piFinset, mem_singleton]
      constructor
      · intro hk
        funext i
        have := hk i
        fin_cases i
        simpa using this
      · rintro rfl i
        fin_cases i
        simp
    rw [hr]
    simp only [sum_singleton]
    have : (univ.erase (0 : Fin 1)) = ∅ := by decide
    rw [this]
    simp only [prod_empty, mul_one]
    simp only [Tensor.rows, transformAxisF, Tensor.ofRows, Function.update_self, Function.update_idem]
    have hz : (Function.update 0 0 0 : Fin 1 → ℕ) = 0 := by
      funext i
      fin_cases i
      rfl
    rw [hz]
    rfl
  have e4 : getTransformationError exT5 0 = 6 / 2 ^ 52 := by
    have : exT5.absSum = 1 := by decide +kernel
    unfold getTransformationError macheps
    rw [this]
    norm_num [exT5]
  rw [e2, e3]
  exact ⟨e4, e1, hr2⟩

/-- **C100 is false of the code**, for polynomials of degree 5: for `T_5` on `[1 - 2 α, 1]` with `α = 25020575 / 2 ^ 27`, in binary64 with ties to
even, the error at `x = 1` is above `getTransformationError`.  No row is dropped here. -/
theorem C100_false : RoundsToNearest 53 (roundFloat 53 : ℚ → ℚ) ∧ ¬ RoundedErrorClaim (roundFloat 53) exT5 0 := by
  refine ⟨roundFloat_nearest (by norm_num), fun h => ?_⟩
  obtain ⟨e1, e2, e3⟩ := exT5_error
  have h1 := h exAlpha (1 - exAlpha) ⟨25020575, -27, by norm_num, by norm_num [exAlpha]⟩ ⟨109197153, -27, by norm_num, by norm_num [exAlpha]⟩ (by
    intro t ht
    rw [abs_le] at ht ⊢
    unfold exAlpha
    constructor <;> linarith [ht.1, ht.2]) (fun _ => 1) (fun _ => by simp)
  rw [e1, e2] at h1
  exact absurd h1 (not_le.2 e3)

/-- The hypotheses of the bound are met: the array of the witness, for any rounding to nearest of real numbers. -/
example (fl : ℝ → ℝ) (hfl : RoundsToNearest 53 fl) :
    |(⟨fun _ => 6, fun k => if k 0 = 5 then 1 else 0⟩ : Tensor 1 ℝ).eval (Function.update (fun _ => 1) 0 (1 / 4 * 1 + 3 / 4)) -
      (transformNDF fl ⟨fun _ => 6, fun k => if k 0 = 5 then 1 else 0⟩ (0 : Fin 1) (1 / 4) (3 / 4)).eval (fun _ => 1)| ≤
      22 * ((6 : ℕ) : ℝ) ^ 2 * getTransformationError ⟨fun _ => 6, fun k => if k 0 = 5 then 1 else 0⟩ (0 : Fin 1) :=
  C100_bound_partial hfl ⟨fun _ => 6, fun k => if k 0 = 5 then 1 else 0⟩ 0 (by norm_num) (by norm_num) (1 / 4) (3 / 4)
    (by intro t ht; rw [abs_le] at ht ⊢; constructor <;> linarith [ht.1, ht.2]) (fun _ => 1) (fun _ => by simp)

/-- An affine array: `1 + 3 x`, re-expanded on `[0, 1/2]`. -/
example (fl : ℝ → ℝ) (hfl : RoundsToNearest 53 fl) : RoundedErrorClaim fl (⟨fun _ => 2, fun k => 1 + 2 * k 0⟩ : Tensor 1 ℝ) 0 :=
  C100_two_partial hfl _ 0 (by norm_num) le_rfl

end YRoots
