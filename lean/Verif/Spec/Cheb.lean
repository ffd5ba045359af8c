import Mathlib.RingTheory.Polynomial.Chebyshev
import Mathlib.Algebra.Order.Field.Basic
import Mathlib.Algebra.Order.Ring.Abs
import Mathlib.Tactic.Linarith
import Mathlib.Tactic.Ring

/-!
# Specification: Chebyshev polynomials

`chebT n x` is the value of the `n`-th Chebyshev polynomial of the first kind at `x`
(Mathlib's `Polynomial.Chebyshev.T`).  Nothing in this file refers to the code under study.
-/

namespace YRoots

open Polynomial

variable {K : Type*} [CommRing K]

/-- Value of the Chebyshev polynomial `T_n` at `x`. -/
noncomputable def chebT (n : ℕ) (x : K) : K := (Chebyshev.T K (n : ℤ)).eval x

/-- Value of the Chebyshev polynomial `U_n` at `x`. -/
noncomputable def chebU (n : ℕ) (x : K) : K := (Chebyshev.U K (n : ℤ)).eval x

@[simp] theorem chebT_zero (x : K) : chebT 0 x = 1 := by simp [chebT]

@[simp] theorem chebT_one (x : K) : chebT 1 x = x := by simp [chebT]

theorem chebT_add_two (n : ℕ) (x : K) :
    chebT (n + 2) x = 2 * x * chebT (n + 1) x - chebT n x := by
  unfold chebT
  have := Chebyshev.T_add_two K (n : ℤ)
  push_cast
  rw [this]
  simp

theorem chebT_two (x : K) : chebT 2 x = 2 * x ^ 2 - 1 := by
  rw [chebT_add_two]; simp; ring

@[simp] theorem chebU_zero (x : K) : chebU 0 x = 1 := by simp [chebU]

@[simp] theorem chebU_one (x : K) : chebU 1 x = 2 * x := by simp [chebU]

theorem chebU_add_two (n : ℕ) (x : K) :
    chebU (n + 2) x = 2 * x * chebU (n + 1) x - chebU n x := by
  unfold chebU
  have := Chebyshev.U_add_two K (n : ℤ)
  push_cast
  rw [this]
  simp

theorem chebU_eq_add (n : ℕ) (x : K) :
    chebU (n + 1) x = x * chebU n x + chebT (n + 1) x := by
  unfold chebU chebT
  have := Chebyshev.U_eq_X_mul_U_add_T K (n : ℤ)
  push_cast
  rw [this]
  simp

/-- `2 x T_{n+1} = T_{n+2} + T_n`. -/
theorem two_mul_chebT (n : ℕ) (x : K) :
    2 * x * chebT (n + 1) x = chebT (n + 2) x + chebT n x := by
  rw [chebT_add_two]; ring

/-- Pell identity: `T_{n+1}² = 1 - (1 - x²) U_n²`. -/
theorem chebT_pell (n : ℕ) (x : K) :
    chebT (n + 1) x ^ 2 = 1 - (1 - x ^ 2) * chebU n x ^ 2 ∧
      chebU (n + 1) x ^ 2 + chebU n x ^ 2 - 2 * x * chebU n x * chebU (n + 1) x = 1 := by
  have h : ∀ m : ℕ, chebU (m + 1) x ^ 2 + chebU m x ^ 2 - 2 * x * chebU m x * chebU (m + 1) x = 1 := by
    intro m
    induction m with
    | zero => simp; ring
    | succ m ih =>
      rw [chebU_add_two]
      linear_combination ih
  refine ⟨?_, h n⟩
  have h1 := chebU_eq_add n x
  have h2 : chebT (n + 1) x = chebU (n + 1) x - x * chebU n x := by rw [h1]; ring
  rw [h2]
  linear_combination h n

section Ordered

variable {K : Type*} [Field K] [LinearOrder K] [IsStrictOrderedRing K]

theorem abs_chebT_le_one (n : ℕ) {x : K} (hx : |x| ≤ 1) : |chebT n x| ≤ 1 := by
  cases n with
  | zero => simp
  | succ n =>
    have h := (chebT_pell n x).1
    have hx2 : x ^ 2 ≤ 1 := (sq_le_one_iff_abs_le_one x).2 hx
    rw [← sq_le_one_iff_abs_le_one, h]
    have := mul_nonneg (sub_nonneg.2 hx2) (sq_nonneg (chebU n x))
    linarith

theorem abs_chebU_le (n : ℕ) {x : K} (hx : |x| ≤ 1) : |chebU n x| ≤ n + 1 := by
  induction n with
  | zero => simp
  | succ n ih =>
    rw [chebU_eq_add]
    calc |x * chebU n x + chebT (n + 1) x| ≤ |x * chebU n x| + |chebT (n + 1) x| := abs_add_le _ _
      _ ≤ 1 * (n + 1) + 1 := by
        rw [abs_mul]
        exact add_le_add (mul_le_mul hx ih (abs_nonneg _) zero_le_one) (abs_chebT_le_one _ hx)
      _ = ((n + 1 : ℕ) : K) + 1 := by push_cast; ring

end Ordered

end YRoots
