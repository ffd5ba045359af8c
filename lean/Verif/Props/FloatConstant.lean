import Verif.Proofs.FloatConstant
import Verif.Proofs.FloatTransform

/-!
# Properties C101 and C102: the constant check and the trimming in floating-point arithmetic
-/

namespace YRoots

open Finset

variable {n : ℕ} {K : Type*} [Field K] [LinearOrder K]

/-! ### C101 -/

/-- The claim of C101 for one system: if the constant check discards the cube, functions within `errors` of the polynomials have no common
zero there. -/
def ConstantCheckClaim (ar : FloatArith K) (Ms : Fin n → Tensor n K) (errors : Fin n → K) : Prop :=
  ∀ F : Fin n → (Fin n → K) → K, (∀ i x, InCube x → |F i x - (Ms i).eval x| ≤ errors i) →
    constantCheckF ar Ms errors = true → ¬ ∃ x, InCube x ∧ ∀ i, F i x = 0

/-- **C101, part.** Polynomials with floating-point coefficients, any rounding to nearest, sums in any order: if the check discards the cube,
some polynomial is larger than its error less `((m + 2) absSum + 2 error) / 2 ^ 53` on the whole cube, where `m` is the number of its coefficients.
So functions within that distance have no common zero. -/
theorem C101_slack_partial [IsStrictOrderedRing K] [FloorRing K] {ar : FloatArith K} (hfl : RoundsToNearest 53 ar.fl) (hs : ar.Sums)
    (Ms : Fin n → Tensor n K) (hM : ∀ i, (Ms i).Nonempty) (hFl : ∀ i, ∀ k ∈ (Ms i).idx, IsFloat 53 ((Ms i).coef k)) (errors : Fin n → K)
    (he : ∀ i, 0 ≤ errors i) (h : constantCheckF ar Ms errors = true) :
    ∃ i, (∀ x, InCube x →
        errors i - (((∏ j, (Ms i).shape j : ℕ) + 2) * (Ms i).absSum + 2 * errors i) / 2 ^ 53 < |(Ms i).eval x|) ∧
      ∀ F : (Fin n → K) → K, (∀ x, InCube x → |F x - (Ms i).eval x| ≤
        errors i - (((∏ j, (Ms i).shape j : ℕ) + 2) * (Ms i).absSum + 2 * errors i) / 2 ^ 53) → ∀ x, InCube x → F x ≠ 0 := by
  unfold constantCheckF at h
  rw [decide_eq_true_eq] at h
  obtain ⟨i, hi⟩ := h
  rw [ravel_zero] at hi
  obtain ⟨s1, s2⟩ := sum_absList hfl (by norm_num) hs (Ms i) (hM i) (hFl i)
  have hS : 0 ≤ (Ms i).absSum := sum_nonneg fun _ _ => abs_nonneg _
  have h1 := fl_ge hfl (by norm_num) (sub_nonneg.2 s1)
  have h0 := fl_nonneg hfl (sub_nonneg.2 s1)
  have h2 := fl_ge hfl (by norm_num) (add_nonneg h0 (he i))
  obtain ⟨u, hu⟩ : ∃ u : K, u = 1 / 2 ^ 53 := ⟨_, rfl⟩
  have hu0 : 0 ≤ u := by rw [hu]; positivity
  have hu1 : u ≤ 1 / 2 := by rw [hu]; norm_num
  have hb := one_add_mul_le_pow (a := -u) (by linarith) (∏ j, (Ms i).shape j)
  rw [← sub_eq_add_neg] at hb
  have hdiv : ∀ y : K, y / 2 ^ 53 = y * u := fun y => by rw [hu, div_eq_mul_one_div]
  simp only [hdiv]
  rw [← hu] at h1 h2 s2
  have hmain : ∀ x, InCube x → errors i - (((∏ j, (Ms i).shape j : ℕ) + 2) * (Ms i).absSum + 2 * errors i) * u < |(Ms i).eval x| := by
    intro x hx
    have h3 := eval_const_bound (Ms i) (hM i) hx
    have h4 := abs_sub_abs_le_abs_sub (Ms i).const ((Ms i).eval x)
    rw [abs_sub_comm] at h4
    have hei := he i
    generalize errors i = e at *
    generalize (Ms i).absSum = S at *
    generalize |(Ms i).const| = c at *
    generalize ((∏ j, (Ms i).shape j : ℕ) : ℕ) = N at *
    generalize |(Ms i).eval x| = v at *
    have hsum : (1 - N * u) * S ≤ ar.sum (Ms i).absList :=
      le_trans (mul_le_mul_of_nonneg_right (by linarith) hS) s2
    have hc0 : 0 ≤ ar.sum (Ms i).absList - c := sub_nonneg.2 s1
    have g : (1 - 2 * u) * (ar.sum (Ms i).absList - c + e) < c := by
      refine lt_of_le_of_lt ?_ hi
      refine le_trans ?_ h2
      have g1 : (1 - u) * ((1 - u) * (ar.sum (Ms i).absList - c) + e) ≤ (1 - u) * (ar.fl (ar.sum (Ms i).absList - c) + e) :=
        mul_le_mul_of_nonneg_left (by linarith) (by linarith)
      refine le_trans ?_ g1
      nlinarith [mul_nonneg hu0 hei, mul_nonneg (mul_nonneg hu0 hu0) hc0]
    by_cases hneg : ar.sum (Ms i).absList ≤ S
    · nlinarith [mul_nonneg hu0 hS, mul_nonneg hu0 (sub_nonneg.2 hneg), mul_nonneg hu0 ((abs_nonneg (Ms i).const))]
    · nlinarith [mul_nonneg hu0 hS, mul_nonneg hu0 hei]
  refine ⟨i, hmain, fun F hF x hx hz => ?_⟩
  have h3 := hF x hx
  rw [hz, zero_sub, abs_neg] at h3
  exact absurd (hmain x hx) (not_lt.2 h3)

/-- `-(1024 + 2 ^ -42) + 1024 T_1 + 2 ^ -42 T_2`, with a zero at `1`. -/
def exC : Fin 1 → Tensor 1 ℚ := fun _ =>
  ⟨fun _ => 3, fun k => if k 0 = 0 then -(1024 + 1 / 2 ^ 42) else if k 0 = 1 then 1024 else if k 0 = 2 then 1 / 2 ^ 42 else 0⟩

theorem exC_float (i : Fin 1) (k : Fin 1 → ℕ) : IsFloat 53 ((exC i).coef k) := by
  unfold exC
  simp only
  split_ifs
  · exact ⟨-(2 ^ 52 + 1), -42, by norm_num, by norm_num⟩
  · exact ⟨1, 10, by norm_num, by norm_num⟩
  · exact ⟨1, -42, by norm_num, by norm_num⟩
  · exact isFloat_zero

/-- **C101 is false of the code**: in binary64 with ties to even and the error `2 ^ -52` which `solve` gives to polynomials, the check discards the cube
on which `-(1024 + 2 ^ -42) + 1024 T_1 + 2 ^ -42 T_2` has the zero `1`. -/
theorem C101_false : ∃ ar : FloatArith ℚ, ar.fl = roundFloat 53 ∧ RoundsToNearest 53 ar.fl ∧ ar.Sums ∧
    (∀ i k, IsFloat 53 ((exC i).coef k)) ∧ InCube (fun _ : Fin 1 => (1 : ℚ)) ∧ (∀ i, (exC i).eval (fun _ => 1) = 0) ∧
    constantCheckF ar exC (fun _ => 1 / 2 ^ 52) = true ∧ ¬ ConstantCheckClaim ar exC (fun _ => 1 / 2 ^ 52) := by
  have hc : constantCheckF ⟨roundFloat 53, leftSum (roundFloat 53)⟩ exC (fun _ => 1 / 2 ^ 52) = true := by decide +kernel
  have hr : ∀ i, (exC i).eval (fun _ => 1) = 0 := by
    intro i
    have : ∀ k ∈ (exC i).idx, (exC i).coef k * ∏ j, chebT (k j) (1 : ℚ) = (exC i).coef k := by
      intro k _
      simp [chebT_at_one]
    unfold Tensor.eval
    rw [sum_congr rfl this]
    clear this
    revert i
    decide +kernel
  have h1 : InCube (fun _ : Fin 1 => (1 : ℚ)) := fun _ => by simp
  refine ⟨⟨roundFloat 53, leftSum (roundFloat 53)⟩, rfl, roundFloat_nearest (by norm_num), leftSum_sums _, exC_float, h1, hr, hc, fun h => ?_⟩
  exact h (fun i x => (exC i).eval x) (fun i x _ => by simp) hc ⟨_, h1, hr⟩

/-- The check does fire within the hypotheses of the partial statement: `4 + T_1` with error `1`. -/
example : ∃ _ : Fin 1, ∀ F : (Fin 1 → ℚ) → ℚ, (∀ x, InCube x → |F x - (⟨fun _ => 2, fun k => if k 0 = 0 then 4 else 1⟩ : Tensor 1 ℚ).eval x| ≤ 1 / 2) →
    ∀ x, InCube x → F x ≠ 0 := by
  obtain ⟨i, -, h⟩ := C101_slack_partial (ar := ⟨roundFloat 53, leftSum (roundFloat 53)⟩) (roundFloat_nearest (by norm_num)) (leftSum_sums _)
    (fun _ : Fin 1 => (⟨fun _ => 2, fun k => if k 0 = 0 then 4 else 1⟩ : Tensor 1 ℚ)) (fun _ _ => by norm_num) (fun _ k _ => by
      simp only
      split_ifs
      · exact ⟨1, 2, by norm_num, by norm_num⟩
      · exact ⟨1, 0, by norm_num, by norm_num⟩) (fun _ => 1) (fun _ => by norm_num) (by decide +kernel)
  refine ⟨i, fun F hF => h F fun x hx => (hF x hx).trans ?_⟩
  have : (⟨fun _ => 2, fun k => if k 0 = 0 then 4 else 1⟩ : Tensor 1 ℚ).absSum = 5 := by decide +kernel
  simp only [this]
  norm_num

/-! ### C102 -/

/-- The claim of C102 for one system: the errors after trimming are valid for the trimmed polynomials. -/
def TrimClaim (ar : FloatArith K) (Ms : Fin n → Tensor n K) (errors : Fin n → K) : Prop :=
  ∀ i, ∀ F : (Fin n → K) → K, (∀ x, InCube x → |F x - (Ms i).eval x| ≤ errors i) →
    ∀ x, InCube x → |F x - ((trimMsF ar Ms errors).1 i).eval x| ≤ (trimMsF ar Ms errors).2 i

/-- **C102, part.** Only top-degree slices disappear, no axis is trimmed below three entries; the new error, raised by a relative `2 ^ -53` per
coefficient and per row, is valid for the trimmed polynomial; and it exceeds the old one by at most a thousandth and the rounding errors. -/
theorem C102_trim_partial [IsStrictOrderedRing K] [FloorRing K] {ar : FloatArith K} (hfl : RoundsToNearest 53 ar.fl) (hs : ar.Sums)
    (Ms : Fin n → Tensor n K) (hM : ∀ i, (Ms i).Nonempty) (hFl : ∀ i, ∀ k ∈ (Ms i).idx, IsFloat 53 ((Ms i).coef k)) (errors : Fin n → K)
    (he : ∀ i, 0 ≤ errors i) (i : Fin n) :
    let Ms' := (trimMsF ar Ms errors).1
    let errors' := (trimMsF ar Ms errors).2
    (Ms' i).coef = (Ms i).coef ∧
    (∀ j, (Ms' i).shape j ≤ (Ms i).shape j ∧ ((Ms' i).shape j = (Ms i).shape j ∨ 3 ≤ (Ms' i).shape j)) ∧
    (∀ F : (Fin n → K) → K, (∀ x, InCube x → |F x - (Ms i).eval x| ≤ errors i) → ∀ x, InCube x →
      (1 - 1 / 2 ^ 53) ^ (∑ j, (Ms i).shape j + ∏ j, (Ms i).shape j) * |F x - (Ms' i).eval x| ≤ errors' i) ∧
    errors' i ≤ (1 + 1 / 2 ^ 53) ^ (∑ j, (Ms i).shape j + 3) * ((1 + 1 / 10 ^ 3) * errors i) := by
  intro Ms' errors'
  have hu0 : (0 : K) ≤ 1 / 2 ^ 53 := by positivity
  have hu1 : (0 : K) ≤ 1 - 1 / 2 ^ 53 := by norm_num
  have hle : ∀ y : K, 0 ≤ y → ar.fl y ≤ (1 + 1 / 2 ^ 53) * y := by
    intro y hy
    have := (abs_le.1 (fl_rel hfl (by norm_num) y)).2
    rw [abs_of_nonneg hy] at this
    have e : (1 + 1 / 2 ^ 53) * y = y + y / 2 ^ 53 := by ring
    rw [e]
    linarith
  have hrel0 : 0 ≤ ar.fl (1 / 10 ^ 3) := fl_nonneg hfl (by positivity)
  have hal0 : 0 ≤ ar.fl (0 + ar.fl (errors i * ar.fl (1 / 10 ^ 3))) := by
    apply fl_nonneg hfl
    rw [zero_add]
    exact fl_nonneg hfl (mul_nonneg (he i) hrel0)
  obtain ⟨k, hk⟩ := trimFoldF_trimmed hfl (by norm_num) hs (m := ∏ j, (Ms i).shape j) (List.finRange n)
    ⟨Ms i, ar.fl (0 + ar.fl (errors i * ar.fl (1 / 10 ^ 3))), errors i⟩ (hM i) (hFl i) le_rfl (he i) hal0
  have hkle : k ≤ ∑ j, (Ms i).shape j := by
    have := hk.count
    simp only at this
    omega
  refine ⟨hk.coef, fun j => ⟨hk.shape_le j, hk.three j⟩, fun F hF x hx => ?_, ?_⟩
  · have h1 := hk.bound (errors i) (he i) 0 (by
      simp only
      exact mul_le_of_le_one_left (he i) (pow_le_one₀ hu1 (by linarith))) x hx
    refine le_trans ?_ h1
    have h2 : |F x - (Ms' i).eval x| ≤ errors i + |(Ms i).eval x - (Ms' i).eval x| := by
      have := abs_add_le (F x - (Ms i).eval x) ((Ms i).eval x - (Ms' i).eval x)
      rw [sub_add_sub_cancel] at this
      linarith [hF x hx]
    rw [zero_add]
    exact mul_le_mul (pow_le_pow_of_le_one hu1 (by linarith) (by omega)) h2 (abs_nonneg _) (pow_nonneg hu1 _)
  · have h1 := hk.budget
    have h2 := hk.allowed_nonneg
    have h3 : ar.fl (0 + ar.fl (errors i * ar.fl (1 / 10 ^ 3))) ≤ (1 + 1 / 2 ^ 53) ^ 3 * (errors i * (1 / 10 ^ 3)) := by
      have a1 := hle (1 / 10 ^ 3) (by positivity)
      have a2 := hle _ (mul_nonneg (he i) hrel0)
      have a3 := hle _ (fl_nonneg hfl (mul_nonneg (he i) hrel0))
      rw [zero_add]
      calc _ ≤ _ := a3
        _ ≤ (1 + 1 / 2 ^ 53) * ((1 + 1 / 2 ^ 53) * (errors i * ((1 + 1 / 2 ^ 53) * (1 / 10 ^ 3)))) := by
          apply mul_le_mul_of_nonneg_left _ (by positivity)
          refine a2.trans ?_
          apply mul_le_mul_of_nonneg_left _ (by positivity)
          exact mul_le_mul_of_nonneg_left a1 (he i)
        _ = _ := by ring
    have h4 : errors i ≤ (1 + 1 / 2 ^ 53) ^ 3 * errors i := le_mul_of_one_le_left (he i) (one_le_pow₀ (by linarith))
    have h5 : errors' i ≤ (1 + 1 / 2 ^ 53) ^ k * (errors i + ar.fl (0 + ar.fl (errors i * ar.fl (1 / 10 ^ 3)))) := by
      refine le_trans ?_ h1
      show errors' i ≤ errors' i + _
      linarith
    refine h5.trans ?_
    calc _ ≤ (1 + 1 / 2 ^ 53) ^ k * ((1 + 1 / 2 ^ 53) ^ 3 * ((1 + 1 / 10 ^ 3) * errors i)) := by
          apply mul_le_mul_of_nonneg_left _ (by positivity)
          have e : (1 + 1 / 2 ^ 53) ^ 3 * ((1 + 1 / 10 ^ 3) * errors i) =
            (1 + 1 / 2 ^ 53) ^ 3 * errors i + (1 + 1 / 2 ^ 53) ^ 3 * (errors i * (1 / 10 ^ 3)) := by ring
          rw [e]
          linarith
      _ = (1 + 1 / 2 ^ 53) ^ (k + 3) * ((1 + 1 / 10 ^ 3) * errors i) := by ring
      _ ≤ _ := by
          apply mul_le_mul_of_nonneg_right _ (mul_nonneg (by positivity) (he i))
          exact pow_le_pow_right₀ (by linarith) (by omega)

/-- `1 + 2 ^ -54 T_4`. -/
def exTr : Fin 1 → Tensor 1 ℚ := fun _ => ⟨fun _ => 5, fun k => if k 0 = 0 then 1 else if k 0 = 4 then 1 / 2 ^ 54 else 0⟩

theorem exTr_float (i : Fin 1) (k : Fin 1 → ℕ) : IsFloat 53 ((exTr i).coef k) := by
  unfold exTr
  simp only
  split_ifs
  · exact ⟨1, 0, by norm_num, by norm_num⟩
  · exact ⟨1, -54, by norm_num, by norm_num⟩
  · exact isFloat_zero

/-- **C102 is false of the code**: `1 + 2 ^ -54 T_4` with the error `1` loses its two top entries, and the error stays `1`. -/
theorem C102_false : ∃ ar : FloatArith ℚ, ar.fl = roundFloat 53 ∧ RoundsToNearest 53 ar.fl ∧ ar.Sums ∧ (∀ i k, IsFloat 53 ((exTr i).coef k)) ∧
    ((trimMsF ar exTr fun _ => 1).1 0).shape 0 = 3 ∧ (trimMsF ar exTr fun _ => 1).2 0 = 1 ∧ ¬ TrimClaim ar exTr fun _ => 1 := by
  have h1 : (trimMsF ⟨roundFloat 53, leftSum (roundFloat 53)⟩ exTr fun _ => 1).2 0 = 1 := by decide +kernel
  have h2 : ((trimMsF ⟨roundFloat 53, leftSum (roundFloat 53)⟩ exTr fun _ => 1).1 0).shape 0 = 3 := by decide +kernel
  refine ⟨⟨roundFloat 53, leftSum (roundFloat 53)⟩, rfl, roundFloat_nearest (by norm_num), leftSum_sums _, exTr_float, h2, h1, fun h => ?_⟩
  have h3 := h 0 (fun x => (exTr 0).eval x + 1) (fun x _ => by simp) (fun _ => 1) (fun _ => by simp)
  rw [h1] at h3
  have one : ∀ M : Tensor 1 ℚ, M.eval (fun _ => 1) = ∑ k ∈ M.idx, M.coef k := by
    intro M
    unfold Tensor.eval
    exact sum_congr rfl fun k _ => by simp [chebT_at_one]
  rw [one, one] at h3
  have h4 : ∑ k ∈ (exTr 0).idx, (exTr 0).coef k = 1 + 1 / 2 ^ 54 := by decide +kernel
  have h5 : ∑ k ∈ ((trimMsF ⟨roundFloat 53, leftSum (roundFloat 53)⟩ exTr fun _ => 1).1 0).idx,
      ((trimMsF ⟨roundFloat 53, leftSum (roundFloat 53)⟩ exTr fun _ => 1).1 0).coef k = 1 := by decide +kernel
  rw [h4, h5] at h3
  exact absurd h3 (by norm_num)

/-- The hypotheses of the partial statement are met by the witness. -/
example : (trimMsF ⟨roundFloat 53, leftSum (roundFloat 53)⟩ exTr fun _ => 1).2 0 ≤
    (1 + 1 / 2 ^ 53) ^ (∑ j, (exTr 0).shape j + 3) * ((1 + 1 / 10 ^ 3) * 1) :=
  (C102_trim_partial (ar := ⟨roundFloat 53, leftSum (roundFloat 53)⟩) (roundFloat_nearest (by norm_num)) (leftSum_sums _) exTr
    (fun _ _ => by norm_num [exTr]) (fun i k _ => exTr_float i k) (fun _ => 1) (fun _ => by norm_num) 0).2.2.2

end YRoots
