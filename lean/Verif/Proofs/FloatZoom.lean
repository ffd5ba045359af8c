import Verif.Model.FloatZoom
import Verif.Proofs.FloatTransformSeq

/-!
# Helper lemmas: re-expansion with rounded midpoint and half length
-/

set_option linter.unusedSectionVars false

namespace YRoots

open Finset

section Seq

variable {α β : ℝ} (hαβ : |α| + |β| ≤ 1)

include hαβ

/-- Like `seq_close`, with an error in the first column as well. -/
theorem seq_close1 (R : ℕ) (hR : 2 ≤ R) (b : ℕ → ℕ → ℝ) (hb0 : b 0 = Function.update (fun _ => 0) 0 1) {t : ℝ}
    (hb1 : ∑ i ∈ range R, |b 1 i - (Function.update (Function.update (fun _ => 0) 0 β) 1 α : ℕ → ℝ) i| ≤ t) (m : ℕ)
    (hz : ∀ c ≤ m + 1, ∀ i, R - 1 ≤ i → b c i = 0) (ht : ∀ c < m, ∑ i ∈ range R, |b (c + 2) i - rec3 α β (b c) (b (c + 1)) i| ≤ t)
    {x : ℝ} (hx : |x| ≤ 1) :
    ∀ k, |chebU k (α * x + β) * (chebT (m + 1) (α * x + β) - colEval R (b (m + 1)) x)
      - chebU' k (α * x + β) * (chebT m (α * x + β) - colEval R (b m) x)| ≤ errB t (m + 1) k := by
  induction m with
  | zero =>
    intro k
    have e1 : colEval R (b 0) x = 1 := by rw [hb0]; exact tInit_colEval1 (V := ℝ) (fun _ => 0) α β R (by omega) x
    have e2 : colEval R (Function.update (Function.update (fun _ => 0) 0 β) 1 α : ℕ → ℝ) x = α * x + β :=
      tInit_colEval2 (V := ℝ) (fun _ => 0) α β R (by omega) x
    rw [e1, chebT_zero, sub_self, mul_zero, sub_zero, zero_add, chebT_one, ← e2]
    rw [e2]
    have h1 : |α * x + β - colEval R (b 1) x| ≤ t := by
      rw [← e2]
      unfold colEval
      rw [← sum_sub_distrib]
      refine (abs_sum_le_sum_abs _ _).trans (le_trans (sum_le_sum fun i _ => ?_) hb1)
      rw [← sub_mul, abs_mul, abs_sub_comm]
      exact mul_le_of_le_one_right (abs_nonneg _) (abs_chebT_le_one i hx)
    rw [abs_mul, mul_comm]
    refine (mul_le_mul h1 (abs_chebU_le k (abs_affine_le hαβ hx)) (abs_nonneg _) ((abs_nonneg _).trans h1)).trans (le_of_eq ?_)
    unfold errB
    push_cast
    ring
  | succ m ih =>
    have i1 := ih (fun c hc => hz c (by omega)) (fun c hc => ht c (by omega))
    obtain ⟨R', hR'⟩ : ∃ R', R = R' + 2 := ⟨R - 2, by omega⟩
    refine err_step (d := colEval R (rec3 α β (b m) (b (m + 1))) x - colEval R (b (m + 2)) x) (abs_affine_le hαβ hx) i1 ?_ ?_
    · unfold rec3
      rw [colEval_lin (r := 0), hR', colEval_mulX _ x R' (fun i hi => hz (m + 1) (by omega) i (by omega)), chebT_add_two]
      ring
    · unfold colEval
      rw [← sum_sub_distrib]
      calc _ ≤ ∑ i ∈ range R, |rec3 α β (b m) (b (m + 1)) i * chebT i x - b (m + 2) i * chebT i x| := abs_sum_le_sum_abs _ _
        _ ≤ ∑ i ∈ range R, |b (m + 2) i - rec3 α β (b m) (b (m + 1)) i| := by
            refine sum_le_sum fun i _ => ?_
            rw [← sub_mul, abs_mul, abs_sub_comm]
            exact mul_le_of_le_one_right (abs_nonneg _) (abs_chebT_le_one i hx)
        _ ≤ t := ht m (by omega)

/-- Columns with relative local errors: their sizes and their closeness to the Chebyshev polynomials. -/
theorem cols_close1 (R : ℕ) (hR : 2 ≤ R) (b : ℕ → ℕ → ℝ) (hb0 : b 0 = Function.update (fun _ => 0) 0 1) {t ε thr P : ℝ} (hP : P = √(2 * (R : ℝ)))
    (hε : 0 ≤ ε) (ht0 : 0 ≤ t) (ht : ε * (6 * P) + thr ≤ t)
    (hb1 : ∑ i ∈ range R, |b 1 i - (Function.update (Function.update (fun _ => 0) 0 β) 1 α : ℕ → ℝ) i| ≤ t) (m : ℕ)
    (hz : ∀ c ≤ m + 1, ∀ i, R - 1 ≤ i → b c i = 0)
    (hloc : ∀ c < m, ∑ i ∈ range R, |b (c + 2) i - rec3 α β (b c) (b (c + 1)) i| ≤
      ε * (∑ i ∈ range R, |b c i| + 2 * ∑ i ∈ range R, |b (c + 1) i|) + thr)
    (h1 : t * (((m + 1 : ℕ) : ℝ) * ((m + 1 : ℕ) + 1) / 2) ≤ 1) :
    (∀ c ≤ m + 1, ∑ i ∈ range R, |b c i| ≤ 2 * P) ∧
      ∀ c ≤ m + 1, ∀ x : ℝ, |x| ≤ 1 → |chebT c (α * x + β) - colEval R (b c) x| ≤ t * (((m + 1 : ℕ) : ℝ) * ((m + 1 : ℕ) + 1) / 2) := by
  have hP1 : 1 ≤ P := by
    rw [hP]
    apply Real.one_le_sqrt.2
    have : (2 : ℝ) ≤ R := by exact_mod_cast hR
    linarith
  have hcl : ∀ j ≤ m, (∀ c ≤ j, ∑ i ∈ range R, |b c i| ≤ 2 * P) → ∀ x : ℝ, |x| ≤ 1 →
      |chebT (j + 1) (α * x + β) - colEval R (b (j + 1)) x| ≤ t * (((m + 1 : ℕ) : ℝ) * ((m + 1 : ℕ) + 1) / 2) := by
    intro j hj hs x hx
    have := err_zero (seq_close1 hαβ R hR b hb0 hb1 j (fun c hc => hz c (by omega)) (fun c hc => (hloc c (by omega)).trans (le_trans ?_ ht)) hx)
    · exact this.trans (half_mono ht0 (by omega))
    · have q1 := hs c (by omega)
      have q2 := hs (c + 1) (by omega)
      have : ε * (∑ i ∈ range R, |b c i| + 2 * ∑ i ∈ range R, |b (c + 1) i|) ≤ ε * (6 * P) := mul_le_mul_of_nonneg_left (by linarith) hε
      linarith
  have hS : ∀ c ≤ m + 1, ∑ i ∈ range R, |b c i| ≤ 2 * P := by
    intro c
    induction c using Nat.strong_induction_on with
    | _ c ih =>
      intro hc
      cases c with
      | zero =>
        rw [hb0, sum_eq_single 0]
        · simp only [Function.update_self, abs_one]; linarith
        · intro b _ hb; simp [hb]
        · intro hn; exact absurd (mem_range.2 (by omega)) hn
      | succ j =>
        have := hcl j (by omega) (fun c hcj => ih c (by omega) (by omega))
        have hb : ∀ x : ℝ, |x| ≤ 1 → |colEval R (b (j + 1)) x| ≤ 2 := by
          intro x hx
          have h2 := abs_chebT_le_one (j + 1) (abs_affine_le hαβ hx)
          have h3 := abs_sub (chebT (j + 1) (α * x + β)) (chebT (j + 1) (α * x + β) - colEval R (b (j + 1)) x)
          rw [sub_sub_cancel] at h3
          linarith [this x hx]
        have := sum_coef_le R (b (j + 1)) 2 hb
        rw [← hP] at this
        linarith
  refine ⟨hS, ?_⟩
  intro c hc x hx
  cases c with
  | zero =>
    have e1 : colEval R (b 0) x = 1 := by rw [hb0]; exact tInit_colEval1 (V := ℝ) (fun _ => 0) α β R (by omega) x
    rw [e1, chebT_zero, sub_self, abs_zero]
    positivity
  | succ j => exact hcl j (by omega) (fun c hcj => hS c (by omega)) x hx

end Seq

section Run

variable {ι : Type*} {fl : ℝ → ℝ} {u thr : ℝ} (hu : 0 ≤ u) (hf : ∀ x, |fl x - x| ≤ u * |x|) (hthr : 0 ≤ thr)

theorem abs_mulX_le (a : ℕ → ℝ) (i : ℕ) : |mulX a i| ≤ mulX (fun j => |a j|) i := by
  match i with
  | 0 => exact le_rfl
  | 1 =>
    simp only [mulX]
    refine (abs_add_le _ _).trans (le_of_eq ?_)
    rw [abs_mul, abs_two]
  | i + 2 => exact abs_add_le _ _

include hu in
/-- The recurrence with perturbed numbers. -/
theorem rec3_perturbed {α β αs βs : ℝ} (hα : |α - αs| ≤ u * |αs|) (hβ : |β - βs| ≤ u * |βs|) (b1 b2 : ℕ → ℝ) (i : ℕ) {v : ℝ}
    (hv : |v - (-b1 i + α * mulX b2 i + 2 * β * b2 i)| ≤ ((1 + u) ^ 5 - 1) * maj α β b1 b2 i + thr) :
    |v - rec3 αs βs b1 b2 i| ≤ ((1 + u) ^ 6 - 1) * maj αs βs b1 b2 i + thr := by
  have hX := abs_mulX_le b2 i
  have hX0 := mulX_abs_nonneg b2 i
  obtain ⟨X, hXd⟩ : ∃ X, X = mulX (fun j => |b2 j|) i := ⟨_, rfl⟩
  rw [← hXd] at hX hX0
  have hε : 0 ≤ (1 + u) ^ 5 - 1 := by linarith [one_le_pow_u hu 5]
  have hα2 : |α| ≤ (1 + u) * |αs| := by
    have := abs_add_le (α - αs) αs
    rw [sub_add_cancel] at this
    linarith
  have hβ2 : |β| ≤ (1 + u) * |βs| := by
    have := abs_add_le (β - βs) βs
    rw [sub_add_cancel] at this
    linarith
  have m1 : maj α β b1 b2 i ≤ (1 + u) * maj αs βs b1 b2 i := by
    unfold maj
    rw [← hXd]
    have q1 := mul_le_mul_of_nonneg_right hα2 hX0
    have q2 := mul_le_mul_of_nonneg_right hβ2 (abs_nonneg (b2 i))
    have q3 := mul_nonneg hu (abs_nonneg (b1 i))
    linarith
  have m2 : |(-b1 i + α * mulX b2 i + 2 * β * b2 i) - rec3 αs βs b1 b2 i| ≤ u * maj αs βs b1 b2 i := by
    unfold maj rec3
    rw [← hXd]
    have e : (-b1 i + α * mulX b2 i + 2 * β * b2 i) - (-b1 i + αs * mulX b2 i + 2 * βs * b2 i) = (α - αs) * mulX b2 i + 2 * ((β - βs) * b2 i) := by ring
    rw [e]
    refine (abs_add_le _ _).trans ?_
    rw [abs_mul, abs_mul 2, abs_two, abs_mul]
    have q1 : |α - αs| * |mulX b2 i| ≤ u * |αs| * X := mul_le_mul hα hX (abs_nonneg _) (by positivity)
    have q2 := mul_le_mul_of_nonneg_right hβ (abs_nonneg (b2 i))
    have q3 := mul_nonneg hu (abs_nonneg (b1 i))
    linarith
  have m3 := mul_le_mul_of_nonneg_left m1 hε
  have m4 := abs_add_le (v - (-b1 i + α * mulX b2 i + 2 * β * b2 i)) ((-b1 i + α * mulX b2 i + 2 * β * b2 i) - rec3 αs βs b1 b2 i)
  rw [sub_add_sub_cancel] at m4
  have e : ((1 + u) ^ 6 - 1) * maj αs βs b1 b2 i = ((1 + u) ^ 5 - 1) * ((1 + u) * maj αs βs b1 b2 i) + u * maj αs βs b1 b2 i := by ring
  rw [e]
  linarith

include hu hf hthr

/-- The columns of a rounded run, compared with nearby numbers `αs` and `βs`. -/
theorem run_cols (coeffs : ℕ → ι → ℝ) {α β αs βs : ℝ} (hs : |αs| + |βs| ≤ 1) (hα : |α - αs| ≤ u * |αs|) (hβ : |β - βs| ≤ u * |βs|)
    (m : ℕ) {t P : ℝ} (hP : P = √(2 * ((m + 3 : ℕ) : ℝ))) (ht : ((1 + u) ^ 6 - 1) * (6 * P) + thr ≤ t) (hut : u ≤ t)
    (h1 : t * (((m + 1 : ℕ) : ℝ) * ((m + 1 : ℕ) + 1) / 2) ≤ 1) :
    (∀ c ≤ m + 1, ∑ i ∈ range (m + 3), |colF fl thr coeffs α β c i| ≤ 2 * P) ∧
      ∀ c ≤ m + 1, ∀ x : ℝ, |x| ≤ 1 → |chebT c (αs * x + βs) - colEval (m + 3) (colF fl thr coeffs α β c) x| ≤
        t * (((m + 1 : ℕ) : ℝ) * ((m + 1 : ℕ) + 1) / 2) := by
  have hε : 0 ≤ (1 + u) ^ 6 - 1 := by linarith [one_le_pow_u hu 6]
  have hz : ∀ c ≤ m + 1, ∀ i, m + 3 - 1 ≤ i → colF fl thr coeffs α β c i = 0 := by
    intro c hc i hi
    cases c with
    | zero => simp only [colF]; rw [Function.update_of_ne (by omega)]
    | succ j =>
      have := tRunF_maxRow_le hu hf hthr coeffs α β j
      exact (tRunF_supp hu hf hthr coeffs α β j).z2 i (by omega)
  refine cols_close1 hs (m + 3) (by omega) (colF fl thr coeffs α β) rfl hP hε (hu.trans hut) ht ?_ m hz ?_ h1
  · have e : ∀ i, colF fl thr coeffs α β 1 i = (Function.update (Function.update (fun _ => 0) 0 β) 1 α : ℕ → ℝ) i := fun i => rfl
    rw [sum_range_succ', sum_range_succ', sum_eq_zero]
    · rw [e, e]
      simp only [Function.update_self, Function.update_of_ne (zero_ne_one : (0 : ℕ) ≠ 1), zero_add]
      have := mul_le_mul_of_nonneg_left hs hu
      linarith
    · intro i _
      rw [e, Function.update_of_ne (by omega), Function.update_of_ne (by omega), Function.update_of_ne (by omega), Function.update_of_ne (by omega),
        sub_self, abs_zero]
  · intro c hc
    have hsu := tRunF_supp hu hf hthr coeffs α β c
    have hspec := (tStepF_spec hu hf hthr coeffs α β (tRunF fl thr coeffs α β c) (c + 2) hsu).2.1
    rw [← tRunF_succ, tRunF_arr1] at hspec
    have hle := tRunF_maxRow_le hu hf hthr coeffs α β c
    calc _ ≤ ∑ i ∈ range (m + 3), (((1 + u) ^ 6 - 1) * maj αs βs (colF fl thr coeffs α β c) (colF fl thr coeffs α β (c + 1)) i
            + if i = (tRunF fl thr coeffs α β c).maxRow then thr else 0) := by
          refine sum_le_sum fun i _ => ?_
          refine rec3_perturbed hu hα hβ _ _ i (hspec i)
      _ ≤ _ := by
          rw [sum_add_distrib, ← mul_sum]
          have q := sum_maj' hs (colF fl thr coeffs α β c) (colF fl thr coeffs α β (c + 1)) (R := m + 3) (by omega)
            (fun i hi => hz (c + 1) (by omega) i hi)
          refine add_le_add (mul_le_mul_of_nonneg_left q hε) ?_
          rw [sum_ite_eq']
          split
          · exact le_rfl
          · exact hthr

end Run

section Axis

variable {n : ℕ} {fl : ℝ → ℝ}

/-- `transformAxisF_bound` for any point of comparison. -/
theorem transformAxisF_bound' (M : Tensor n ℝ) (d : Fin n) (α β y : ℝ) {x : Fin n → ℝ} (hx : InCube x) {C : ℝ}
    (h : ∀ k, |∑ c ∈ range (M.shape d), chebT c y * M.rows d c k -
      ∑ i ∈ range (transform1DF fl (M.rows d) (M.shape d) α β).2, chebT i (x d) * (transform1DF fl (M.rows d) (M.shape d) α β).1 i k|
        ≤ C * ∑ c ∈ range (M.shape d), |M.rows d c k|) :
    |M.eval (Function.update x d y) - (transformAxisF fl M d α β).eval x| ≤ C * M.absSum := by
  rw [transformAxisF, ofRows_eval, eval_axis M d]
  simp only [rowL_update, Function.update_self, rowL_apply]
  have e1 : ∑ j ∈ range (M.shape d), chebT j y * ∑ k ∈ restIdx M.shape d, M.rows d j k * ∏ i ∈ univ.erase d, chebT (k i) (x i) =
      ∑ k ∈ restIdx M.shape d, (∑ c ∈ range (M.shape d), chebT c y * M.rows d c k) * ∏ i ∈ univ.erase d, chebT (k i) (x i) := by
    simp only [mul_sum, sum_mul]
    rw [sum_comm]
    refine sum_congr rfl fun k _ => sum_congr rfl fun c _ => by ring
  have e2 : ∀ k, outEval (transform1DF fl (M.rows d) (M.shape d) α β).2 (transform1DF fl (M.rows d) (M.shape d) α β).1 (x d) k =
      ∑ i ∈ range (transform1DF fl (M.rows d) (M.shape d) α β).2, chebT i (x d) * (transform1DF fl (M.rows d) (M.shape d) α β).1 i k := by
    intro k
    unfold outEval
    rw [Finset.sum_apply]
    rfl
  rw [e1, ← sum_sub_distrib]
  have e3 : M.absSum = ∑ k ∈ restIdx M.shape d, ∑ c ∈ range (M.shape d), |M.rows d c k| := by
    unfold Tensor.absSum Tensor.idx
    rw [sum_piFinset_axis _ d, sum_comm]
    rfl
  rw [e3, mul_sum]
  refine (abs_sum_le_sum_abs _ _).trans (sum_le_sum fun k _ => ?_)
  rw [← sub_mul, abs_mul, e2, abs_prod]
  refine (mul_le_of_le_one_right (abs_nonneg _) ?_).trans (h k)
  exact prod_le_one (fun _ _ => abs_nonneg _) fun i _ => abs_chebT_le_one _ (hx i)

theorem transformNDF_bound' (M : Tensor n ℝ) (d : Fin n) (hN : 0 < M.shape d) (α β y : ℝ) {x : Fin n → ℝ} (hx : InCube x)
    (hid : α = 1 ∧ β = 0 → y = x d) {C : ℝ} (hC : 0 ≤ C)
    (h : 2 ≤ M.shape d → ∀ coeffs : ℕ → (Fin n → ℕ) → ℝ, ∀ k, |∑ c ∈ range (M.shape d), chebT c y * coeffs c k -
      ∑ i ∈ range (transform1DF fl coeffs (M.shape d) α β).2, chebT i (x d) * (transform1DF fl coeffs (M.shape d) α β).1 i k|
        ≤ C * ∑ c ∈ range (M.shape d), |coeffs c k|) :
    |M.eval (Function.update x d y) - (transformNDF fl M d α β).eval x| ≤ C * M.absSum := by
  have hS : 0 ≤ M.absSum := Finset.sum_nonneg fun _ _ => abs_nonneg _
  rcases transformNDF_cases (fl := fl) M d α β with ⟨h0, h1 | h1⟩ | ⟨hne, σ, z, hz, h0⟩
  · rw [h0, hid h1, Function.update_eq_self, sub_self, abs_zero]; exact mul_nonneg hC hS
  · have : M.eval (Function.update x d y) = M.eval x := by
      rw [eval_axis M d, eval_axis M d, h1]; simp [rowL_update]
    rw [h0, this, sub_self, abs_zero]; exact mul_nonneg hC hS
  · have h1 : (M.transpose σ).shape z = M.shape d := by simp [Tensor.transpose, hz]
    rw [h0, transpose_eval, Equiv.symm_symm]
    have hb := transformAxisF_bound' (fl := fl) (M.transpose σ) z α β y (x := fun i => x (σ i)) (fun i => hx _) (C := C) (by
      intro k
      rw [h1]
      simp only [hz]
      exact h (by omega) _ k)
    have e : (fun i => Function.update (fun i => x (σ i)) z y (σ.symm i)) = Function.update x d y := by
      funext i
      by_cases hi : i = d
      · subst hi
        rw [Function.update_self, ← hz, Equiv.symm_apply_apply, Function.update_self]
      · have : σ.symm i ≠ z := fun h => hi (by rw [← hz, ← h, Equiv.apply_symm_apply])
        rw [Function.update_of_ne this, Function.update_of_ne hi, Equiv.apply_symm_apply]
    rw [transpose_eval, transpose_absSum, e] at hb
    exact hb

end Axis

end YRoots
