import Verif.Model.Bounding
import Mathlib.Data.List.FinRange
import Mathlib.Algebra.BigOperators.Fin
import Mathlib.Algebra.Order.BigOperators.Ring.Finset
import Mathlib.Algebra.BigOperators.Intervals

/-!
# Helper lemmas: `getLinearTerms`, constant term, and the linear part of a Chebyshev tensor
-/

set_option linter.unusedSectionVars false
set_option linter.unusedSimpArgs false

namespace YRoots

open Finset

variable {n : ℕ} {K : Type*}

/-- `[k-1, ..., 0]` as dimensions. -/
def descDims : (k : ℕ) → k ≤ n → List (Fin n)
  | 0, _ => []
  | k + 1, h => ⟨k, h⟩ :: descDims k (Nat.le_of_succ_le h)

theorem descDims_length (k : ℕ) (h : k ≤ n) : (descDims k h).length = k := by
  induction k with
  | zero => rfl
  | succ k ih => simp [descDims, ih]

theorem descDims_getElem (k : ℕ) (h : k ≤ n) (i : ℕ) (hi : i < (descDims k h).length) :
    ((descDims k h)[i]).1 = k - 1 - i := by
  induction k generalizing i with
  | zero => simp [descDims] at hi
  | succ k ih =>
    cases i with
    | zero => simp [descDims]
    | succ i =>
      simp only [descDims, List.getElem_cons_succ]
      rw [ih]; omega

theorem descDims_eq : descDims n le_rfl = (List.finRange n).reverse := by
  apply List.ext_getElem
  · simp [descDims_length]
  · intro i h1 h2
    ext
    rw [descDims_getElem]
    simp at h2 ⊢

/-- Weight of axis `i` in the flattened index. -/
def weight (sh : Fin n → ℕ) (i : Fin n) : ℕ := ∏ j ∈ univ.filter (fun j => i < j), sh j

/-- Product of the lengths of axes `≥ k`. -/
def tailProd (sh : Fin n → ℕ) (k : ℕ) : ℕ := ∏ j ∈ univ.filter (fun j : Fin n => k ≤ j.1), sh j

theorem tailProd_step (sh : Fin n → ℕ) (k : ℕ) (h : k < n) :
    tailProd sh k = tailProd sh (k + 1) * sh ⟨k, h⟩ := by
  unfold tailProd
  have : univ.filter (fun j : Fin n => k ≤ j.1)
      = insert ⟨k, h⟩ (univ.filter (fun j : Fin n => k + 1 ≤ j.1)) := by
    ext j
    simp only [mem_filter, mem_univ, true_and, mem_insert, Fin.ext_iff]
    omega
  rw [this, prod_insert (by simp), mul_comm]

theorem weight_eq_tailProd (sh : Fin n → ℕ) (i : Fin n) : weight sh i = tailProd sh (i.1 + 1) := by
  unfold weight tailProd
  congr 1

theorem linearTermsLoop_eq [Zero K] (M : Tensor n K) (k : ℕ) (h : k ≤ n) :
    linearTermsLoop M (descDims k h) (tailProd M.shape k)
      = (descDims k h).map fun i => if M.shape i = 1 then 0 else M.ravel (weight M.shape i) := by
  induction k with
  | zero => rfl
  | succ k ih =>
    simp only [descDims, linearTermsLoop, List.map_cons]
    rw [← tailProd_step M.shape k h, ih, weight_eq_tailProd]

theorem getLinearTerms_eq [Zero K] (M : Tensor n K) :
    getLinearTerms M
      = (List.finRange n).map fun i => if M.shape i = 1 then 0 else M.ravel (weight M.shape i) := by
  unfold getLinearTerms
  have h1 : tailProd M.shape n = 1 := by
    unfold tailProd
    apply prod_eq_one
    intro j hj
    simp at hj
    omega
  have h2 := linearTermsLoop_eq M n le_rfl
  rw [h1, descDims_eq] at h2
  rw [h2, List.map_reverse, List.reverse_reverse]

theorem tailProd_pos (sh : Fin n → ℕ) (h : ∀ i, 0 < sh i) (k : ℕ) : 0 < tailProd sh k :=
  prod_pos fun i _ => h i

theorem tailProd_dvd (sh : Fin n → ℕ) {k l : ℕ} (hkl : k ≤ l) : tailProd sh l ∣ tailProd sh k := by
  apply prod_dvd_prod_of_subset
  intro j hj
  simp at hj ⊢; omega

/-- The flattened position read for axis `i` is that of the multi-index `e_i`. -/
theorem ravel_weight [Zero K] (M : Tensor n K) (hM : M.Nonempty) (i : Fin n) (hi : M.shape i ≠ 1) :
    M.ravel (weight M.shape i) = M.coef (Pi.single i 1) := by
  have hi2 : 2 ≤ M.shape i := by have := hM i; omega
  unfold Tensor.ravel
  congr 1
  funext m
  show weight M.shape i / weight M.shape m % M.shape m = _
  rw [weight_eq_tailProd, weight_eq_tailProd]
  have hpos := tailProd_pos M.shape hM
  rcases lt_trichotomy m i with h | h | h
  · -- axis before i: quotient 0
    have h1 : tailProd M.shape (i.1 + 1) < tailProd M.shape (m.1 + 1) := by
      have h2 : tailProd M.shape i.1 ≤ tailProd M.shape (m.1 + 1) :=
        Nat.le_of_dvd (hpos _) (tailProd_dvd _ (by have := Fin.lt_def.1 h; omega))
      have h3 := tailProd_step M.shape i.1 i.2
      have h4 := hpos (i.1 + 1)
      have h5 : tailProd M.shape (i.1 + 1) * 2 ≤ tailProd M.shape (i.1 + 1) * M.shape ⟨i.1, i.2⟩ :=
        Nat.mul_le_mul_left _ hi2
      omega
    rw [Nat.div_eq_of_lt h1, Nat.zero_mod, Pi.single_eq_of_ne h.ne]
  · subst h
    rw [Nat.div_self (hpos _), Pi.single_eq_same, Nat.mod_eq_of_lt (by omega)]
  · have h3 := tailProd_step M.shape m.1 m.2
    obtain ⟨c, hc⟩ := tailProd_dvd M.shape (show i.1 + 1 ≤ m.1 by have := Fin.lt_def.1 h; omega)
    rw [hc, h3, mul_assoc, Nat.mul_div_cancel_left _ (hpos _), Nat.mul_mod_right,
      Pi.single_eq_of_ne h.ne']

/-- The linear coefficients, as a specification: coefficient of `T_1(x_i)`, zero on axes of length 1. -/
def linCoef [Zero K] (M : Tensor n K) (i : Fin n) : K :=
  if M.shape i = 1 then 0 else M.coef (Pi.single i 1)

theorem getLinearTerms_getD [Zero K] (M : Tensor n K) (hM : M.Nonempty) (i : Fin n) :
    (getLinearTerms M).getD i 0 = linCoef M i := by
  rw [getLinearTerms_eq]
  have : i.1 < ((List.finRange n).map fun i =>
      if M.shape i = 1 then 0 else M.ravel (weight M.shape i)).length := by simp
  rw [List.getD_eq_getElem?_getD, List.getElem?_eq_getElem this]
  simp only [Option.getD_some, List.getElem_map, List.getElem_finRange, Fin.cast_mk, Fin.eta]
  unfold linCoef
  split
  · rfl
  · rename_i h; exact ravel_weight M hM i h

theorem ravel_zero (M : Tensor n K) : M.ravel 0 = M.const := by
  unfold Tensor.ravel Tensor.const
  congr 1
  funext i; simp

section Decomp

variable [Field K] [LinearOrder K]

/-- Multi-indices of degree at most one present in the array. -/
def linIdx (M : Tensor n K) : Finset (Fin n → ℕ) :=
  insert 0 ((univ.filter fun i => M.shape i ≠ 1).image fun i => Pi.single i 1)

theorem linIdx_subset (M : Tensor n K) (hM : M.Nonempty) : linIdx M ⊆ M.idx := by
  intro k hk
  simp only [linIdx, mem_insert, mem_image, mem_filter, mem_univ, true_and] at hk
  simp only [Tensor.idx, Fintype.mem_piFinset, mem_range]
  rcases hk with rfl | ⟨i, hi, rfl⟩
  · intro j; exact hM j
  · intro j
    by_cases h : j = i
    · subst h; rw [Pi.single_eq_same]; have := hM j; omega
    · rw [Pi.single_eq_of_ne h]; exact hM j

theorem sum_linIdx {A : Type*} [AddCommGroup A] (M : Tensor n K) (f : (Fin n → ℕ) → A) :
    ∑ k ∈ linIdx M, f k = f 0 + ∑ i, if M.shape i = 1 then 0 else f (Pi.single i 1) := by
  unfold linIdx
  rw [sum_insert, sum_image]
  · congr 1
    rw [sum_filter]
    apply sum_congr rfl
    intro i _
    by_cases h : M.shape i = 1 <;> simp [h]
  · intro i _ j _ h
    by_contra hne
    have := congrFun h i
    simp [Pi.single_eq_of_ne hne] at this
  · simp only [mem_image, mem_filter, mem_univ, true_and, not_exists, not_and]
    intro i _ h
    have := congrFun h i
    simp at this

theorem prod_single (i : Fin n) (x : Fin n → K) :
    ∏ j, chebT ((Pi.single i 1 : Fin n → ℕ) j) (x j) = x i := by
  rw [prod_eq_single i]
  · simp
  · intro j _ hj; rw [Pi.single_eq_of_ne hj]; simp
  · simp

end Decomp

variable [Field K] [LinearOrder K] [IsStrictOrderedRing K]

theorem prod_chebT_abs_le (k : Fin n → ℕ) {x : Fin n → K} (hx : InCube x) :
    |∏ i, chebT (k i) (x i)| ≤ 1 := by
  rw [Finset.abs_prod]
  apply prod_le_one
  · intros; exact abs_nonneg _
  · intro i _; exact abs_chebT_le_one _ (hx i)

/-- Affine part plus remainder. -/
theorem eval_linear_bound (M : Tensor n K) (hM : M.Nonempty) {x : Fin n → K} (hx : InCube x) :
    |M.eval x - (M.const + ∑ i, linCoef M i * x i)|
      ≤ M.absSum - |M.const| - ∑ i, |linCoef M i| := by
  have hsub := linIdx_subset M hM
  have h1 : M.const + ∑ i, linCoef M i * x i
      = ∑ k ∈ linIdx M, M.coef k * ∏ i, chebT (k i) (x i) := by
    rw [sum_linIdx]
    congr 1
    · simp [Tensor.const]; rfl
    · apply sum_congr rfl
      intro i _
      unfold linCoef
      split
      · simp
      · rw [prod_single]
  have h2 : |M.const| + ∑ i, |linCoef M i| = ∑ k ∈ linIdx M, |M.coef k| := by
    rw [sum_linIdx]
    congr 1
    apply sum_congr rfl
    intro i _
    unfold linCoef
    split <;> simp
  rw [h1, sub_sub, h2]
  unfold Tensor.eval Tensor.absSum
  rw [← sum_sdiff hsub, ← sum_sdiff hsub, add_sub_cancel_right, add_sub_cancel_right]
  refine (abs_sum_le_sum_abs _ _).trans (sum_le_sum fun k _ => ?_)
  rw [abs_mul]
  calc _ ≤ |M.coef k| * 1 := mul_le_mul_of_nonneg_left (prod_chebT_abs_le k hx) (abs_nonneg _)
    _ = _ := mul_one _

/-- Constant part plus remainder (constant-term check). -/
theorem eval_const_bound (M : Tensor n K) (hM : M.Nonempty) {x : Fin n → K} (hx : InCube x) :
    |M.eval x - M.const| ≤ M.absSum - |M.const| := by
  have h0 : (0 : Fin n → ℕ) ∈ M.idx := by
    simp only [Tensor.idx, Fintype.mem_piFinset, mem_range]; exact fun i => hM i
  unfold Tensor.eval Tensor.absSum
  rw [← add_sum_erase _ _ h0, ← add_sum_erase _ _ h0]
  have e : M.coef 0 = M.const := rfl
  simp only [e, Pi.zero_apply, chebT_zero, prod_const_one, mul_one, add_sub_cancel_left]
  refine (abs_sum_le_sum_abs _ _).trans (sum_le_sum fun k _ => ?_)
  rw [abs_mul]
  calc _ ≤ |M.coef k| * 1 := mul_le_mul_of_nonneg_left (prod_chebT_abs_le k hx) (abs_nonneg _)
    _ = _ := mul_one _

end YRoots
