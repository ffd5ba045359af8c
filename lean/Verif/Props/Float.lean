import Verif.Proofs.Float
import Verif.Model.Transform
import Mathlib.Data.Rat.Floor

/-!
# Property C43: the error-free transformations

`TwoSum`, `Split`, `TwoProd` and `TwoProdWithSplit` in an arithmetic in which every operation is the exact one followed
by a rounding to a nearest 53-digit binary number, with any rule for ties; overflow and underflow are left out.
-/

set_option linter.unusedSectionVars false

namespace YRoots

variable {K : Type*} [Field K] [LinearOrder K] [IsStrictOrderedRing K] [FloorRing K]

/-- **C43, TwoSum.**  The first result is the rounded sum, the two results are representable and their exact sum is the
exact sum of the arguments. -/
theorem C43_twoSum {fl : K → K} (hfl : RoundsToNearest 53 fl) {a b : K} (ha : IsFloat 53 a) (hb : IsFloat 53 b) :
    (twoSumF fl a b).1 = fl (a + b) ∧ (twoSumF fl a b).1 + (twoSumF fl a b).2 = a + b ∧
      IsFloat 53 (twoSumF fl a b).2 :=
  ⟨rfl, (twoSum_correct hfl (by norm_num) ha hb).2, hfl.isFloat _⟩

/-- **C43, Split.**  The two results add up exactly to the argument, and both have at most 26 digits, so that products
of such parts are exact.  The first result is the argument rounded to 26 digits: no number with 26 digits is nearer. -/
theorem C43_split {fl : K → K} (hfl : RoundsToNearest 53 fl) {a : K} (ha : IsFloat 53 a) :
    (splitF fl a).1 + (splitF fl a).2 = a ∧ IsFloat 26 (splitF fl a).1 ∧ IsFloat 26 (splitF fl a).2 ∧
      ∀ g : K, IsFloat 26 g → |a - (splitF fl a).1| ≤ |a - g| := by
  by_cases h0 : a = 0
  · subst h0
    rw [splitF_zero hfl]
    exact ⟨add_zero 0, isFloat_zero, isFloat_zero, fun g _ => by simp⟩
  obtain ⟨k, h1, h2⟩ := exists_binade 53 a h0
  rw [show k + ((53 : ℕ) : ℤ) - 1 = k + 52 by push_cast; ring] at h1
  have h := split_spec hfl ha h1 h2
  exact ⟨h.sum, h.head_grid.isFloat (by norm_num) (h.head_le.trans (zp_le (by push_cast; omega))),
    h.tail_grid.isFloat (by norm_num) (h.tail_le.trans (zp_le (by push_cast; omega))), h.nearest h1⟩

/-- **C43, Split, the docstring.**  "`a = x` in floating point" does not hold: the first part of `2 ^ 27 + 1` differs
from it although both are representable. -/
theorem C43_split_not_equal : ∃ a : ℚ, IsFloat 53 a ∧ (splitF (roundFloat 53) a).1 ≠ roundFloat 53 a := by
  refine ⟨134217729, ⟨134217729, 0, by norm_num, by norm_num⟩, ?_⟩
  decide +kernel

/-- **C43, TwoProd.**  The first result is the rounded product, the two results are representable and their exact sum
is the exact product of the arguments. -/
theorem C43_twoProd {fl : K → K} (hfl : RoundsToNearest 53 fl) {a b : K} (ha : IsFloat 53 a) (hb : IsFloat 53 b) :
    (twoProdF fl a b).1 = fl (a * b) ∧ (twoProdF fl a b).1 + (twoProdF fl a b).2 = a * b ∧
      IsFloat 53 (twoProdF fl a b).2 := by
  refine ⟨rfl, ?_, hfl.isFloat _⟩
  have hz : fl 0 = 0 := fl_eq hfl isFloat_zero
  unfold twoProdF
  simp only
  by_cases ha0 : a = 0
  · subst ha0
    rw [prodError_zero hfl (by rw [zero_mul, hz]) (Or.inl (by rw [splitF_zero hfl]; exact ⟨rfl, rfl⟩)), zero_mul, hz,
      add_zero]
  by_cases hb0 : b = 0
  · subst hb0
    rw [prodError_zero hfl (by rw [mul_zero, hz]) (Or.inr (by rw [splitF_zero hfl]; exact ⟨rfl, rfl⟩)), mul_zero, hz,
      add_zero]
  obtain ⟨k, h1, h2⟩ := exists_binade 53 a ha0
  obtain ⟨l, h3, h4⟩ := exists_binade 53 b hb0
  rw [show k + ((53 : ℕ) : ℤ) - 1 = k + 52 by push_cast; ring] at h1
  rw [show l + ((53 : ℕ) : ℤ) - 1 = l + 52 by push_cast; ring] at h3
  rw [prodError_spec hfl (split_spec hfl ha h1 h2) (split_spec hfl hb h3 h4) h1 h2 h3 h4]
  ring

/-- **C43, TwoProdWithSplit.**  The same when the first factor is split beforehand. -/
theorem C43_twoProdWithSplit {fl : K → K} (hfl : RoundsToNearest 53 fl) {a b : K} (ha : IsFloat 53 a)
    (hb : IsFloat 53 b) :
    (twoProdWithSplitF fl a b (splitF fl a).1 (splitF fl a).2).1 = fl (a * b) ∧
      (twoProdWithSplitF fl a b (splitF fl a).1 (splitF fl a).2).1 +
        (twoProdWithSplitF fl a b (splitF fl a).1 (splitF fl a).2).2 = a * b ∧
      IsFloat 53 (twoProdWithSplitF fl a b (splitF fl a).1 (splitF fl a).2).2 :=
  C43_twoProd hfl ha hb

/-- **C43, the arithmetic exists.**  Rounding to nearest with ties to even meets the hypothesis of the theorems. -/
theorem C43_ieee : RoundsToNearest 53 (roundFloat 53 : K → K) := roundFloat_nearest (by norm_num)

/-- **C43, one program.**  The exact-arithmetic versions used by the transformation model (C08, C09) are the same programs
as the ones above, run with an arithmetic that does not round. -/
theorem C43_value_model (a b a1 a2 : K) : twoSum a b = twoSumF id a b ∧ split a = splitF id a ∧
    twoProd a b = twoProdF id a b ∧ twoProdWithSplit a b a1 a2 = twoProdWithSplitF id a b a1 a2 := by
  simp only [twoSum, twoSumF, split, splitF, twoProd, twoProdF, twoProdWithSplit, twoProdWithSplitF, prodError, id,
    and_self]

/-- The hypotheses of the theorems hold for `0.1` and `0.2` rounded to 53 digits, whose sum is not representable. -/
example : ∃ a b : ℚ, IsFloat 53 a ∧ IsFloat 53 b ∧ RoundsToNearest 53 (roundFloat 53 : ℚ → ℚ) ∧
    roundFloat 53 (a + b) ≠ a + b ∧ (twoSumF (roundFloat 53) a b).2 ≠ 0 := by
  refine ⟨3602879701896397 / 36028797018963968, 3602879701896397 / 18014398509481984, ⟨3602879701896397, -55, by norm_num, by norm_num⟩,
    ⟨3602879701896397, -54, by norm_num, by norm_num⟩, C43_ieee, ?_, ?_⟩ <;> decide +kernel

/-- A split in which both parts matter, and a product with a non-zero error. -/
example : ∃ a : ℚ, IsFloat 53 a ∧ (splitF (roundFloat 53) a).1 ≠ 0 ∧ (splitF (roundFloat 53) a).2 ≠ 0 ∧
    (twoProdF (roundFloat 53) a a).2 ≠ 0 ∧
    (twoProdWithSplitF (roundFloat 53) a a (splitF (roundFloat 53) a).1 (splitF (roundFloat 53) a).2).2 ≠ 0 := by
  refine ⟨3602879701896397 / 36028797018963968, ⟨3602879701896397, -55, by norm_num, by norm_num⟩, ?_, ?_, ?_, ?_⟩ <;>
    decide +kernel

end YRoots
