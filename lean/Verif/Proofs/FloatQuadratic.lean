import Verif.Model.FloatQuadratic
import Verif.Proofs.FloatConstant
import Verif.Proofs.FloatInterval
import Verif.Proofs.Quad2D3D
import Mathlib.Tactic.LinearCombination

/-!
# Rounding errors of the quadratic check in two variables
-/

namespace YRoots

open Finset

variable {K : Type*} [Field K] [LinearOrder K]

/-- `y` is within `k` units of `m` of `x`, and `x` is at most `m`. -/
def Appr (k m y x : K) : Prop := |x| ≤ m ∧ |y - x| ≤ k * uu K * m

variable [IsStrictOrderedRing K]

theorem uu_small : uu K ≤ 1 / 2 ^ 20 := by unfold uu; norm_num

theorem Appr.refl (x : K) : Appr 0 |x| x x := ⟨le_rfl, by simp⟩

theorem Appr.of_le {x m : K} (h : |x| ≤ m) : Appr 0 m x x := ⟨h, by simp⟩

theorem Appr.nonneg {k m y x : K} (h : Appr k m y x) : 0 ≤ m := (abs_nonneg _).trans h.1

theorem Appr.mono {k k' m m' y x : K} (h : Appr k m y x) (hk0 : 0 ≤ k) (hk : k ≤ k') (hm : m ≤ m') : Appr k' m' y x := by
  refine ⟨h.1.trans hm, h.2.trans ?_⟩
  have hu := uu_nonneg (K := K)
  exact mul_le_mul (mul_le_mul_of_nonneg_right hk hu) hm h.nonneg (mul_nonneg (hk0.trans hk) hu)

theorem Appr.neg {k m y x : K} (h : Appr k m y x) : Appr k m (-y) (-x) := by
  refine ⟨by rw [abs_neg]; exact h.1, ?_⟩
  have : -y - -x = -(y - x) := by ring
  rw [this, abs_neg]
  exact h.2

section R

variable [FloorRing K] {fl : K → K} (hfl : RoundsToNearest 53 fl)

include hfl

theorem Appr.round {k m y x : K} (hk0 : 0 ≤ k) (hk : k ≤ 1000) (h : |x| ≤ m) (h2 : |y - x| ≤ k * uu K * m) : Appr (k + 2) m (fl y) x := by
  refine ⟨h, ?_⟩
  have hu := uu_nonneg (K := K)
  have hu1 := uu_small (K := K)
  have h3 := flu hfl y
  have h4 := abs_add_le (y - x) x
  have h5 := abs_add_le (fl y - y) (y - x)
  rw [sub_add_cancel] at h4
  rw [sub_add_sub_cancel] at h5
  have hm : 0 ≤ m := (abs_nonneg _).trans h
  have hku : k * uu K ≤ 1 := by
    calc k * uu K ≤ 1000 * (1 / 2 ^ 20) := mul_le_mul hk hu1 hu (by norm_num)
      _ ≤ 1 := by norm_num
  have h6 : uu K * |y| ≤ uu K * (2 * m) := by
    apply mul_le_mul_of_nonneg_left _ hu
    have := mul_le_mul_of_nonneg_right hku hm
    linarith
  calc |fl y - x| ≤ uu K * (2 * m) + k * uu K * m := by linarith
    _ = (k + 2) * uu K * m := by ring

theorem Appr.add {k m m' y x y' x' : K} (hk0 : 0 ≤ k) (hk : k ≤ 1000) (h : Appr k m y x) (h' : Appr k m' y' x') :
    Appr (k + 2) (m + m') (fl (y + y')) (x + x') := by
  refine Appr.round hfl hk0 hk ((abs_add_le _ _).trans (add_le_add h.1 h'.1)) ?_
  have e : y + y' - (x + x') = (y - x) + (y' - x') := by ring
  rw [e]
  have := abs_add_le (y - x) (y' - x')
  have h1 := h.2
  have h2 := h'.2
  calc _ ≤ _ := this
    _ ≤ k * uu K * m + k * uu K * m' := add_le_add h1 h2
    _ = _ := by ring

theorem Appr.sub {k m m' y x y' x' : K} (hk0 : 0 ≤ k) (hk : k ≤ 1000) (h : Appr k m y x) (h' : Appr k m' y' x') :
    Appr (k + 2) (m + m') (fl (y - y')) (x - x') := by
  rw [sub_eq_add_neg, sub_eq_add_neg]
  exact h.add hfl hk0 hk h'.neg

theorem Appr.mul {k k' m m' y x y' x' : K} (hk0 : 0 ≤ k) (hk : k ≤ 100) (hk0' : 0 ≤ k') (hk' : k' ≤ 100) (h : Appr k m y x)
    (h' : Appr k' m' y' x') : Appr (k + k' + 3) (m * m') (fl (y * y')) (x * x') := by
  have hu := uu_nonneg (K := K)
  have hu1 := uu_small (K := K)
  have hm := h.nonneg
  have hm' := h'.nonneg
  have hxx : |x * x'| ≤ m * m' := by
    rw [abs_mul]
    exact mul_le_mul h.1 h'.1 (abs_nonneg _) hm
  have key : |y * y' - x * x'| ≤ (k + k' + 1) * uu K * (m * m') := by
    have e : y * y' - x * x' = (y - x) * (y' - x') + (y - x) * x' + x * (y' - x') := by ring
    rw [e]
    have g1 := abs_add_le ((y - x) * (y' - x') + (y - x) * x') (x * (y' - x'))
    have g2 := abs_add_le ((y - x) * (y' - x')) ((y - x) * x')
    simp only [abs_mul] at g1 g2
    have a1 : |y - x| * |y' - x'| ≤ (k * uu K * m) * (k' * uu K * m') := mul_le_mul h.2 h'.2 (abs_nonneg _) (by positivity)
    have a2 : |y - x| * |x'| ≤ (k * uu K * m) * m' := mul_le_mul h.2 h'.1 (abs_nonneg _) (by positivity)
    have a3 : |x| * |y' - x'| ≤ m * (k' * uu K * m') := mul_le_mul h.1 h'.2 (abs_nonneg _) hm
    have b : k * k' * uu K ≤ 1 := by
      calc k * k' * uu K ≤ 100 * 100 * (1 / 2 ^ 20) := mul_le_mul (mul_le_mul hk hk' hk0' (by norm_num)) hu1 hu (by norm_num)
        _ ≤ 1 := by norm_num
    have b2 := mul_le_mul_of_nonneg_right b (mul_nonneg hu (mul_nonneg hm hm'))
    calc _ ≤ (k * uu K * m) * (k' * uu K * m') + (k * uu K * m) * m' + m * (k' * uu K * m') := by linarith
      _ = k * k' * uu K * (uu K * (m * m')) + (k + k') * uu K * (m * m') := by ring
      _ ≤ _ := by linarith
  have := Appr.round hfl (by positivity) (by linarith) hxx key
  exact this.mono (by positivity) (by linarith) le_rfl

/-! ### The evaluation -/

omit [IsStrictOrderedRing K] [FloorRing K] hfl in
theorem evalFunc2D_vec (c : Fin 6 → K) (x y : K) :
    evalFunc2D c ![x, y] = c 0 - c 3 - c 5 + (c 1 + 2 * c 3 * x + c 4 * y) * x + (c 2 + 2 * c 5 * y) * y := rfl

theorem evalFunc2DF_close (c : Fin 6 → K) {x y : K} (hx : |x| ≤ 1) (hy : |y| ≤ 1) :
    |evalFunc2DF fl c ![x, y] - evalFunc2D c ![x, y]| ≤ 60 * uu K * ∑ i, |c i| := by
  have r := fun i => Appr.refl (c i)
  have two : Appr 0 2 (2 : K) 2 := Appr.of_le (by norm_num)
  have ax := Appr.of_le hx
  have ay := Appr.of_le hy
  have n : ∀ i, 0 ≤ |c i| := fun i => abs_nonneg _
  have a1 := (r 0).sub hfl le_rfl (by norm_num) (r 3)
  have a2 := a1.sub hfl (by norm_num) (by norm_num) ((r 5).mono le_rfl (by norm_num : (0 : K) ≤ 0 + 2) le_rfl)
  have b1 := (two.mul hfl le_rfl (by norm_num) le_rfl (by norm_num) (r 3)).mul hfl (by norm_num) (by norm_num) le_rfl (by norm_num) ax
  have b2 := ((r 1).mono le_rfl (by norm_num) le_rfl).add hfl (by norm_num) (by norm_num) b1
  have b3 := (r 4).mul hfl le_rfl (by norm_num) le_rfl (by norm_num) ay
  have b4 := b2.add hfl (by norm_num) (by norm_num) (b3.mono (by norm_num) (by norm_num) le_rfl)
  have b5 := b4.mul hfl (by norm_num) (by norm_num) le_rfl (by norm_num) ax
  have d1 := (a2.mono (by norm_num) (by norm_num) le_rfl).add hfl (by norm_num) (by norm_num) b5
  have e1 := (two.mul hfl le_rfl (by norm_num) le_rfl (by norm_num) (r 5)).mul hfl (by norm_num) (by norm_num) le_rfl (by norm_num) ay
  have e2 := ((r 2).mono le_rfl (by norm_num) le_rfl).add hfl (by norm_num) (by norm_num) e1
  have e3 := e2.mul hfl (by norm_num) (by norm_num) le_rfl (by norm_num) ay
  have d2 := d1.add hfl (by norm_num) (by norm_num) (e3.mono (by norm_num) (by norm_num) le_rfl)
  have d3 := d2.2
  have hu := uu_nonneg (K := K)
  refine le_trans (le_of_eq ?_) (d3.trans ?_)
  · rfl
  · rw [Fin.sum_univ_six]
    have := mul_nonneg hu (n 0)
    have := mul_nonneg hu (n 1)
    have := mul_nonneg hu (n 2)
    have := mul_nonneg hu (n 3)
    have := mul_nonneg hu (n 4)
    have := mul_nonneg hu (n 5)
    nlinarith

/-! ### The points of evaluation -/

omit [FloorRing K] hfl in
/-- Taylor's formula. -/
theorem evalFunc2D_shift (c : Fin 6 → K) (a b h k : K) :
    evalFunc2D c ![a + h, b + k] = evalFunc2D c ![a, b] + (c 1 + 4 * c 3 * a + c 4 * b) * h + (c 2 + c 4 * a + 4 * c 5 * b) * k
      + (2 * c 3 * h ^ 2 + c 4 * h * k + 2 * c 5 * k ^ 2) := by
  rw [evalFunc2D_vec, evalFunc2D_vec]
  ring

omit [IsStrictOrderedRing K] [FloorRing K] hfl in
/-- One of the points of evaluation has a value (times `σ`) of at most `v`. -/
def Reach (fl : K → K) (c : Fin 6 → K) (σ v : K) : Prop :=
  ∃ x y, ![x, y] ∈ points2DF fl c ∧ |x| ≤ 1 ∧ |y| ≤ 1 ∧ σ * evalFunc2D c ![x, y] ≤ v

omit [IsStrictOrderedRing K] [FloorRing K] hfl in
theorem Reach.mono {c : Fin 6 → K} {σ v w : K} (h : Reach fl c σ v) (hw : v ≤ w) : Reach fl c σ w := by
  obtain ⟨x, y, h1, h2, h3, h4⟩ := h
  exact ⟨x, y, h1, h2, h3, h4.trans hw⟩

omit [FloorRing K] hfl in
theorem reach_corner (c : Fin 6 → K) (σ : K) {x y : K} (hx : x = -1 ∨ x = 1) (hy : y = -1 ∨ y = 1) :
    Reach fl c σ (σ * evalFunc2D c ![x, y]) := by
  refine ⟨x, y, ?_, ?_, ?_, le_rfl⟩
  · unfold points2DF
    rcases hx with rfl | rfl <;> rcases hy with rfl | rfl <;> simp
  · rcases hx with rfl | rfl <;> simp
  · rcases hy with rfl | rfl <;> simp

/-- The rounded quotient on a side. -/
theorem side_close {b d s c5 : K} (hd : IsFloat 53 d) (hc5 : IsFloat 53 c5) (hs : s = -1 ∨ s = 1) (hy : |-(b + d * s) / (4 * c5)| ≤ 1) :
    |fl (-fl (b + fl (d * s)) / fl (4 * c5)) - -(b + d * s) / (4 * c5)| ≤ 3 * uu K := by
  have e1 : fl (d * s) = d * s := by
    apply fl_eq hfl
    rcases hs with rfl | rfl
    · rw [mul_neg, mul_one]; exact hd.neg
    · rwa [mul_one]
  have e2 : fl (4 * c5) = 4 * c5 := by
    apply fl_eq hfl
    have := hc5.mul_zp 2
    have e : (2 : K) ^ (2 : ℤ) = 4 := by norm_num
    rwa [e, mul_comm] at this
  rw [e1, e2]
  have hu := uu_nonneg (K := K)
  have hu1 := uu_small (K := K)
  have h1 := flu hfl (b + d * s)
  have h2 : |-fl (b + d * s) / (4 * c5) - -(b + d * s) / (4 * c5)| ≤ uu K := by
    rw [← sub_div, abs_div]
    rw [abs_div, abs_neg] at hy
    by_cases h0 : |4 * c5| = 0
    · rw [h0, div_zero]; exact hu
    · have hp : 0 < |4 * c5| := lt_of_le_of_ne (abs_nonneg _) (Ne.symm h0)
      rw [div_le_iff₀ hp]
      rw [div_le_iff₀ hp, one_mul] at hy
      have e : -fl (b + d * s) - -(b + d * s) = -(fl (b + d * s) - (b + d * s)) := by ring
      rw [e, abs_neg]
      exact h1.trans (mul_le_mul_of_nonneg_left hy hu)
  have h3 := flu hfl (-fl (b + d * s) / (4 * c5))
  have h4 := abs_add_le (-fl (b + d * s) / (4 * c5) - -(b + d * s) / (4 * c5)) (-(b + d * s) / (4 * c5))
  rw [sub_add_cancel] at h4
  have h5 := abs_add_le (fl (-fl (b + d * s) / (4 * c5)) - -fl (b + d * s) / (4 * c5)) (-fl (b + d * s) / (4 * c5) - -(b + d * s) / (4 * c5))
  rw [sub_add_sub_cancel] at h5
  have h6 : uu K * |-fl (b + d * s) / (4 * c5)| ≤ uu K * 2 := mul_le_mul_of_nonneg_left (by linarith) hu
  linarith

omit [FloorRing K] hfl in
theorem sq_small {e c S : K} (he : |e| ≤ 3 * uu K) (hc : |c| ≤ S) {σ : K} (hσ : |σ| = 1) : σ * (2 * c * e ^ 2) ≤ uu K * S := by
  have hu := uu_nonneg (K := K)
  have hu1 := uu_small (K := K)
  have h1 : e ^ 2 ≤ 9 * uu K ^ 2 := by
    rw [← sq_abs]
    calc |e| ^ 2 ≤ (3 * uu K) ^ 2 := pow_le_pow_left₀ (abs_nonneg _) he 2
      _ = _ := by ring
  refine (le_abs_self _).trans ?_
  rw [abs_mul, hσ, one_mul, abs_mul, abs_mul, abs_of_nonneg (sq_nonneg e), abs_two]
  have hS : 0 ≤ S := (abs_nonneg _).trans hc
  calc 2 * |c| * e ^ 2 ≤ 2 * S * (9 * uu K ^ 2) := mul_le_mul (by linarith) h1 (sq_nonneg _) (by linarith)
    _ = 18 * uu K * (uu K * S) := by ring
    _ ≤ 1 * (uu K * S) := mul_le_mul_of_nonneg_right (by linarith) (mul_nonneg hu hS)
    _ = _ := one_mul _

omit [FloorRing K] hfl in
theorem not_inside {y : K} (h : ¬ inside y) : y ≤ -1 ∨ 1 ≤ y := by
  unfold inside at h
  by_contra hc
  push Not at hc
  exact h hc

/-- The stationary point of a side with `x` constant. -/
theorem reach_sideX {c : Fin 6 → K} (hc : ∀ i, IsFloat 53 (c i)) {σ : K} (hσ : |σ| = 1) {s y : K} (hs : s = -1 ∨ s = 1) (h5 : c 5 ≠ 0)
    (hy : |y| ≤ 1) (hst : y = -(c 2 + c 4 * s) / (4 * c 5)) {S : K} (hS : |c 5| ≤ S) :
    Reach fl c σ (σ * evalFunc2D c ![s, y] + uu K * S) := by
  have h1 : |fl (-fl (c 2 + fl (c 4 * s)) / fl (4 * c 5)) - y| ≤ 3 * uu K := by
    rw [hst] at hy ⊢
    exact side_close hfl (hc 4) (hc 5) hs hy
  have hst' : c 2 + c 4 * s + 4 * c 5 * y = 0 := by rw [hst]; field_simp; ring
  obtain ⟨z, hz⟩ : ∃ z, z = fl (-fl (c 2 + fl (c 4 * s)) / fl (4 * c 5)) := ⟨_, rfl⟩
  rw [← hz] at h1
  have hu := uu_nonneg (K := K)
  have val : ∀ w, |w - y| ≤ 3 * uu K → σ * evalFunc2D c ![s, w] ≤ σ * evalFunc2D c ![s, y] + uu K * S := by
    intro w hw
    have := evalFunc2D_shift c s y 0 (w - y)
    rw [hst', add_zero, add_sub_cancel] at this
    rw [this]
    have h := sq_small hw hS hσ
    linarith
  by_cases hin : inside z
  · refine ⟨s, z, ?_, ?_, abs_le.2 ⟨hin.1.le, hin.2.le⟩, val z h1⟩
    · unfold points2DF
      simp only [List.mem_append]
      refine Or.inl (Or.inl (Or.inr ?_))
      rw [if_pos h5, List.mem_flatMap]
      refine ⟨s, by rcases hs with rfl | rfl <;> simp, ?_⟩
      show ![s, z] ∈ if inside (fl (-fl (c 2 + fl (c 4 * s)) / fl (4 * c 5))) then [![s, fl (-fl (c 2 + fl (c 4 * s)) / fl (4 * c 5))]] else []
      rw [← hz, if_pos hin]
      simp
    · rcases hs with rfl | rfl <;> simp
  · rw [abs_le] at hy h1
    rcases not_inside hin with h | h
    · refine (reach_corner c σ hs (Or.inl rfl)).mono (val _ (abs_le.2 ⟨?_, ?_⟩)) <;> linarith [hy.1, hy.2, h1.1, h1.2]
    · refine (reach_corner c σ hs (Or.inr rfl)).mono (val _ (abs_le.2 ⟨?_, ?_⟩)) <;> linarith [hy.1, hy.2, h1.1, h1.2]

/-- The stationary point of a side with `y` constant. -/
theorem reach_sideY {c : Fin 6 → K} (hc : ∀ i, IsFloat 53 (c i)) {σ : K} (hσ : |σ| = 1) {s x : K} (hs : s = -1 ∨ s = 1) (h3 : c 3 ≠ 0)
    (hx : |x| ≤ 1) (hst : x = -(c 1 + c 4 * s) / (4 * c 3)) {S : K} (hS : |c 3| ≤ S) :
    Reach fl c σ (σ * evalFunc2D c ![x, s] + uu K * S) := by
  have h1 : |fl (-fl (c 1 + fl (c 4 * s)) / fl (4 * c 3)) - x| ≤ 3 * uu K := by
    rw [hst] at hx ⊢
    exact side_close hfl (hc 4) (hc 3) hs hx
  have hst' : c 1 + 4 * c 3 * x + c 4 * s = 0 := by rw [hst]; field_simp; ring
  obtain ⟨z, hz⟩ : ∃ z, z = fl (-fl (c 1 + fl (c 4 * s)) / fl (4 * c 3)) := ⟨_, rfl⟩
  rw [← hz] at h1
  have hu := uu_nonneg (K := K)
  have val : ∀ w, |w - x| ≤ 3 * uu K → σ * evalFunc2D c ![w, s] ≤ σ * evalFunc2D c ![x, s] + uu K * S := by
    intro w hw
    have := evalFunc2D_shift c x s (w - x) 0
    rw [hst', add_zero, add_sub_cancel] at this
    rw [this]
    have h := sq_small hw hS hσ
    linarith
  by_cases hin : inside z
  · refine ⟨z, s, ?_, abs_le.2 ⟨hin.1.le, hin.2.le⟩, ?_, val z h1⟩
    · unfold points2DF
      simp only [List.mem_append]
      refine Or.inl (Or.inr ?_)
      rw [if_pos h3, List.mem_flatMap]
      refine ⟨s, by rcases hs with rfl | rfl <;> simp, ?_⟩
      show ![z, s] ∈ if inside (fl (-fl (c 1 + fl (c 4 * s)) / fl (4 * c 3))) then [![fl (-fl (c 1 + fl (c 4 * s)) / fl (4 * c 3)), s]] else []
      rw [← hz, if_pos hin]
      simp
    · rcases hs with rfl | rfl <;> simp
  · rw [abs_le] at hx h1
    rcases not_inside hin with h | h
    · refine (reach_corner c σ (Or.inl rfl) hs).mono (val _ (abs_le.2 ⟨?_, ?_⟩)) <;> linarith [hx.1, hx.2, h1.1, h1.2]
    · refine (reach_corner c σ (Or.inr rfl) hs).mono (val _ (abs_le.2 ⟨?_, ?_⟩)) <;> linarith [hx.1, hx.2, h1.1, h1.2]

omit [FloorRing K] hfl in
/-- A quadratic function on `[-1, 1]` takes its least value at an end or at its stationary point. -/
theorem quad1D (A B C t : K) (ht : |t| ≤ 1) :
    A - B + 2 * C ≤ A + B * t + 2 * C * t ^ 2 ∨ A + B + 2 * C ≤ A + B * t + 2 * C * t ^ 2 ∨
      (C ≠ 0 ∧ |-B / (4 * C)| ≤ 1 ∧ A + B * (-B / (4 * C)) + 2 * C * (-B / (4 * C)) ^ 2 ≤ A + B * t + 2 * C * t ^ 2) := by
  rw [abs_le] at ht
  by_cases hC : C ≤ 0
  · by_cases h1 : A - B + 2 * C ≤ A + B * t + 2 * C * t ^ 2
    · exact Or.inl h1
    · right; left
      push Not at h1
      have h2 : (t + 1) * (B + 2 * C * (t - 1)) < 0 := by nlinarith
      have h3 : B + 2 * C * (t - 1) < 0 := by
        by_contra h
        push Not at h
        exact absurd h2 (not_lt.2 (mul_nonneg (by linarith [ht.1]) h))
      nlinarith [mul_nonneg (by linarith [ht.2] : (0 : K) ≤ 1 - t) (by linarith : 0 ≤ -(B + 2 * C * (1 + t)))]
  · push Not at hC
    obtain ⟨w, hw⟩ : ∃ w, w = -B / (4 * C) := ⟨_, rfl⟩
    have hB : B = -4 * C * w := by rw [hw]; field_simp
    rw [← hw, hB]
    by_cases hin : |w| ≤ 1
    · right; right
      refine ⟨hC.ne', hin, ?_⟩
      nlinarith [mul_nonneg hC.le (sq_nonneg (t - w))]
    · rw [abs_le, not_and_or] at hin
      rcases hin with h | h
      · left
        push Not at h
        nlinarith [mul_nonneg hC.le (mul_nonneg (by linarith [ht.1] : 0 ≤ t + 1) (by linarith [ht.1] : 0 ≤ t - 1 - 2 * w))]
      · right; left
        push Not at h
        nlinarith [mul_nonneg hC.le (mul_nonneg (by linarith [ht.2] : 0 ≤ 1 - t) (by linarith [ht.2] : 0 ≤ 2 * w - t - 1))]

/-- Every point of a side with `x` constant. -/
theorem reach_boundaryX {c : Fin 6 → K} (hc : ∀ i, IsFloat 53 (c i)) {σ : K} (hσ : |σ| = 1) {s y : K} (hs : s = -1 ∨ s = 1)
    (hy : |y| ≤ 1) {S : K} (hS : |c 5| ≤ S) : Reach fl c σ (σ * evalFunc2D c ![s, y] + uu K * S) := by
  have hu := mul_nonneg (uu_nonneg (K := K)) ((abs_nonneg _).trans hS)
  have hσ0 : σ ≠ 0 := by intro h; rw [h, abs_zero] at hσ; exact zero_ne_one hσ
  have e : ∀ t, σ * evalFunc2D c ![s, t] = σ * (c 0 - c 3 - c 5 + (c 1 + 2 * c 3 * s) * s) + σ * (c 2 + c 4 * s) * t + 2 * (σ * c 5) * t ^ 2 := by
    intro t
    rw [evalFunc2D_vec]
    ring
  rcases quad1D (σ * (c 0 - c 3 - c 5 + (c 1 + 2 * c 3 * s) * s)) (σ * (c 2 + c 4 * s)) (σ * c 5) y hy with h | h | ⟨h1, h2, h3⟩
  · refine (reach_corner c σ hs (Or.inl rfl)).mono ?_
    rw [e, e]
    nlinarith
  · refine (reach_corner c σ hs (Or.inr rfl)).mono ?_
    rw [e, e]
    nlinarith
  · have e2 : -(σ * (c 2 + c 4 * s)) / (4 * (σ * c 5)) = -(c 2 + c 4 * s) / (4 * c 5) := by
      rw [show -(σ * (c 2 + c 4 * s)) = σ * -(c 2 + c 4 * s) by ring, show 4 * (σ * c 5) = σ * (4 * c 5) by ring, mul_div_mul_left _ _ hσ0]
    rw [e2, ← e, ← e] at h3
    rw [e2] at h2
    exact (reach_sideX hfl hc hσ hs (right_ne_zero_of_mul h1) h2 rfl hS).mono (by linarith)

/-- Every point of a side with `y` constant. -/
theorem reach_boundaryY {c : Fin 6 → K} (hc : ∀ i, IsFloat 53 (c i)) {σ : K} (hσ : |σ| = 1) {s x : K} (hs : s = -1 ∨ s = 1)
    (hx : |x| ≤ 1) {S : K} (hS : |c 3| ≤ S) : Reach fl c σ (σ * evalFunc2D c ![x, s] + uu K * S) := by
  have hu := mul_nonneg (uu_nonneg (K := K)) ((abs_nonneg _).trans hS)
  have hσ0 : σ ≠ 0 := by intro h; rw [h, abs_zero] at hσ; exact zero_ne_one hσ
  have e : ∀ t, σ * evalFunc2D c ![t, s] = σ * (c 0 - c 3 - c 5 + (c 2 + 2 * c 5 * s) * s) + σ * (c 1 + c 4 * s) * t + 2 * (σ * c 3) * t ^ 2 := by
    intro t
    rw [evalFunc2D_vec]
    ring
  rcases quad1D (σ * (c 0 - c 3 - c 5 + (c 2 + 2 * c 5 * s) * s)) (σ * (c 1 + c 4 * s)) (σ * c 3) x hx with h | h | ⟨h1, h2, h3⟩
  · refine (reach_corner c σ (Or.inl rfl) hs).mono ?_
    rw [e, e]
    nlinarith
  · refine (reach_corner c σ (Or.inr rfl) hs).mono ?_
    rw [e, e]
    nlinarith
  · have e2 : -(σ * (c 1 + c 4 * s)) / (4 * (σ * c 3)) = -(c 1 + c 4 * s) / (4 * c 3) := by
      rw [show -(σ * (c 1 + c 4 * s)) = σ * -(c 1 + c 4 * s) by ring, show 4 * (σ * c 3) = σ * (4 * c 3) by ring, mul_div_mul_left _ _ hσ0]
    rw [e2, ← e, ← e] at h3
    rw [e2] at h2
    exact (reach_sideY hfl hc hσ hs (right_ne_zero_of_mul h1) h2 rfl hS).mono (by linarith)

omit [FloorRing K] hfl in
/-- A line through the square leaves it. -/
theorem exit_line (a b r : K) (ha : |a| ≤ 1) (hb : |b| ≤ 1) :
    ∃ t, 0 ≤ t ∧ t ≤ 2 ∧ |a + r * t| ≤ 1 ∧ |b + t| ≤ 1 ∧ (b + t = 1 ∨ a + r * t = -1 ∨ a + r * t = 1) := by
  rw [abs_le] at ha hb
  by_cases h : |a + r * (1 - b)| ≤ 1
  · refine ⟨1 - b, by linarith [hb.2], by linarith [hb.1], h, by simp, Or.inl (by ring)⟩
  · have hT : 0 ≤ 1 - b := by linarith [hb.2]
    rw [abs_le, not_and_or] at h
    rcases h with h | h
    · push Not at h
      have hr : r < 0 := by
        by_contra hr
        push Not at hr
        linarith [mul_nonneg hr hT, ha.1]
      have e : r * ((-1 - a) / r) = -1 - a := mul_div_cancel₀ _ hr.ne
      have h0 : 0 ≤ (-1 - a) / r := div_nonneg_of_nonpos (by linarith [ha.1]) hr.le
      have h1 : (-1 - a) / r ≤ 1 - b := by rw [div_le_iff_of_neg hr]; linarith
      refine ⟨(-1 - a) / r, h0, by linarith [hb.1], ?_, abs_le.2 ⟨by linarith [hb.1], by linarith⟩, Or.inr (Or.inl ?_)⟩
      · rw [e]; simp
      · rw [e]; ring
    · push Not at h
      have hr : 0 < r := by
        by_contra hr
        push Not at hr
        nlinarith [mul_nonneg (neg_nonneg.2 hr) hT, ha.2]
      have e : r * ((1 - a) / r) = 1 - a := by field_simp
      have h0 : 0 ≤ (1 - a) / r := div_nonneg (by linarith [ha.2]) hr.le
      have h1 : (1 - a) / r ≤ 1 - b := by rw [div_le_iff₀ hr]; linarith
      refine ⟨(1 - a) / r, h0, by linarith [hb.1], ?_, abs_le.2 ⟨by linarith [hb.1], by linarith⟩, Or.inr (Or.inr ?_)⟩
      · rw [e]; simp
      · rw [e]; ring

omit [FloorRing K] hfl in
/-- The growth of a nearly degenerate quadratic form along its flat direction. -/
theorem flat_growth {σ c3 c4 c5 t θ S : K} (hσ : |σ| = 1) (h3 : 0 < σ * c3) (h53 : |c5| ≤ |c3|) (hθ : 0 ≤ θ)
    (hdet : 16 * c3 * c5 - c4 ^ 2 ≤ θ * (|c3| + |c5|) ^ 2) (ht0 : 0 ≤ t) (ht : t ≤ 2) (hS : |c3| ≤ S) :
    σ * (2 * c3 * (-c4 / (4 * c3) * t) ^ 2 + c4 * (-c4 / (4 * c3) * t) * t + 2 * c5 * t ^ 2) ≤ 2 * θ * S := by
  have h0 : c3 ≠ 0 := by rintro rfl; simp at h3
  have hp : 0 < |c3| := abs_pos.2 h0
  have e : 2 * c3 * (-c4 / (4 * c3) * t) ^ 2 + c4 * (-c4 / (4 * c3) * t) * t + 2 * c5 * t ^ 2 = t ^ 2 * ((16 * c3 * c5 - c4 ^ 2) / (8 * c3)) := by
    field_simp
    ring
  have e2 : σ * (t ^ 2 * ((16 * c3 * c5 - c4 ^ 2) / (8 * c3))) = t ^ 2 * ((16 * c3 * c5 - c4 ^ 2) / (8 * |c3|)) := by
    have hs : σ * c3 = |c3| := by
      have : |σ * c3| = |c3| := by rw [abs_mul, hσ, one_mul]
      rwa [abs_of_pos h3] at this
    have hs2 : σ * σ = 1 := by rw [← abs_mul_abs_self, hσ, one_mul]
    rw [← hs]
    have hσ0 : σ ≠ 0 := by rintro rfl; simp at hs2
    have : σ * (1 / c3) = 1 / (σ * c3) := by
      field_simp
      linear_combination hs2
    calc _ = t ^ 2 * ((16 * c3 * c5 - c4 ^ 2) / 8) * (σ * (1 / c3)) := by field_simp
      _ = _ := by rw [this]; field_simp
  rw [e, e2]
  have h1 : (16 * c3 * c5 - c4 ^ 2) / (8 * |c3|) ≤ θ * |c3| / 2 := by
    rw [div_le_iff₀ (by linarith)]
    refine hdet.trans ?_
    have : (|c3| + |c5|) ^ 2 ≤ (2 * |c3|) ^ 2 := pow_le_pow_left₀ (by positivity) (by linarith) 2
    calc θ * (|c3| + |c5|) ^ 2 ≤ θ * (2 * |c3|) ^ 2 := mul_le_mul_of_nonneg_left this hθ
      _ = _ := by ring
  have ht2 : t ^ 2 ≤ 4 := by nlinarith
  calc _ ≤ t ^ 2 * (θ * |c3| / 2) := mul_le_mul_of_nonneg_left h1 (sq_nonneg _)
    _ ≤ 4 * (θ * |c3| / 2) := mul_le_mul_of_nonneg_right ht2 (by positivity)
    _ = 2 * θ * |c3| := by ring
    _ ≤ _ := mul_le_mul_of_nonneg_left hS (by positivity)

/-- The stationary point in the interior when the determinant is small or the form is not definite. -/
theorem reach_flat {c : Fin 6 → K} (hc : ∀ i, IsFloat 53 (c i)) {σ : K} (hσ : |σ| = 1) {a b : K} (ha : |a| ≤ 1) (hb : |b| ≤ 1)
    (g1 : c 1 + 4 * c 3 * a + c 4 * b = 0) (g2 : c 2 + c 4 * a + 4 * c 5 * b = 0) {θ S : K} (hθ : 0 ≤ θ)
    (hdet : 16 * c 3 * c 5 - c 4 ^ 2 ≤ θ * (|c 3| + |c 5|) ^ 2) (h3 : |c 3| ≤ S) (h5 : |c 5| ≤ S) :
    Reach fl c σ (σ * evalFunc2D c ![a, b] + 2 * θ * S + uu K * S) := by
  have hS : 0 ≤ S := (abs_nonneg _).trans h3
  have hθS : 0 ≤ 2 * θ * S := by positivity
  have sh : ∀ h k, evalFunc2D c ![a + h, b + k] = evalFunc2D c ![a, b] + (2 * c 3 * h ^ 2 + c 4 * h * k + 2 * c 5 * k ^ 2) := by
    intro h k
    rw [evalFunc2D_shift, g1, g2]
    ring
  by_cases s3 : σ * c 3 ≤ 0
  · refine (reach_boundaryX hfl hc hσ (Or.inr rfl) hb h5).mono ?_
    have := sh (1 - a) 0
    rw [add_zero, add_sub_cancel] at this
    rw [this]
    nlinarith [mul_nonneg (neg_nonneg.2 s3) (sq_nonneg (1 - a))]
  by_cases s5 : σ * c 5 ≤ 0
  · refine (reach_boundaryY hfl hc hσ (Or.inr rfl) ha h3).mono ?_
    have := sh 0 (1 - b)
    rw [add_zero, add_sub_cancel] at this
    rw [this]
    nlinarith [mul_nonneg (neg_nonneg.2 s5) (sq_nonneg (1 - b))]
  push Not at s3 s5
  by_cases h53 : |c 5| ≤ |c 3|
  · obtain ⟨t, t0, t2, m1, m2, hex⟩ := exit_line a b (-c 4 / (4 * c 3)) ha hb
    have hg := flat_growth hσ s3 h53 hθ hdet t0 t2 h3
    have hv := sh (-c 4 / (4 * c 3) * t) t
    rcases hex with h | h
    · rw [h] at hv
      refine (reach_boundaryY hfl hc hσ (Or.inr rfl) m1 h3).mono ?_
      rw [hv]
      linarith
    · refine (reach_boundaryX hfl hc hσ h m2 h5).mono ?_
      rw [hv]
      linarith
  · push Not at h53
    obtain ⟨t, t0, t2, m1, m2, hex⟩ := exit_line b a (-c 4 / (4 * c 5)) hb ha
    have hdet' : 16 * c 5 * c 3 - c 4 ^ 2 ≤ θ * (|c 5| + |c 3|) ^ 2 := by
      rw [add_comm]
      linarith
    have hg := flat_growth hσ s5 h53.le hθ hdet' t0 t2 h5
    have hv := sh t (-c 4 / (4 * c 5) * t)
    rcases hex with h | h
    · rw [h] at hv
      refine (reach_boundaryX hfl hc hσ (Or.inr rfl) m1 h5).mono ?_
      rw [hv]
      linarith
    · refine (reach_boundaryY hfl hc hσ h m2 h3).mono ?_
      rw [hv]
      linarith

/-! ### Cramer's rule -/

/-- The rounded determinant, if the form is safely definite. -/
theorem det_close (c : Fin 6 → K) {P : K} (h3 : |c 3| ≤ P) (h5 : |c 5| ≤ P) (h4 : |c 4| ≤ 2 * P) :
    |det2DF fl c - (16 * c 3 * c 5 - c 4 ^ 2)| ≤ 160 * uu K * P ^ 2 := by
  have a3 := Appr.of_le h3
  have a5 := Appr.of_le h5
  have a4 := Appr.of_le h4
  have a16 : Appr 0 16 (16 : K) 16 := Appr.of_le (by norm_num)
  have d1 := (a16.mul hfl le_rfl (by norm_num) le_rfl (by norm_num) a3).mul hfl (by norm_num) (by norm_num) le_rfl (by norm_num) a5
  have d2 := a4.mul hfl le_rfl (by norm_num) le_rfl (by norm_num) a4
  have d3 := (d1.sub hfl (by norm_num) (by norm_num) (d2.mono (by norm_num) (by norm_num) le_rfl)).2
  unfold det2DF
  rw [sq (c 4)]
  refine d3.trans (le_of_eq ?_)
  ring

/-- A rounded numerator. -/
theorem num_close {c2 c4 c1 c5 P : K} (h2 : |c2| ≤ 6 * P) (h4 : |c4| ≤ 2 * P) (h1 : |c1| ≤ 6 * P) (h5 : |c5| ≤ P) :
    |fl (fl (c2 * c4) - fl (fl (4 * c1) * c5)) - (c2 * c4 - 4 * c1 * c5)| ≤ 288 * uu K * P ^ 2 := by
  have a2 := Appr.of_le h2
  have a5 := Appr.of_le h5
  have a4 := Appr.of_le h4
  have a1 := Appr.of_le h1
  have af : Appr 0 4 (4 : K) 4 := Appr.of_le (by norm_num)
  have d1 := a2.mul hfl le_rfl (by norm_num) le_rfl (by norm_num) a4
  have d2 := (af.mul hfl le_rfl (by norm_num) le_rfl (by norm_num) a1).mul hfl (by norm_num) (by norm_num) le_rfl (by norm_num) a5
  have d3 := ((d1.mono (by norm_num) (by norm_num) le_rfl).sub hfl (by norm_num) (by norm_num) d2).2
  refine d3.trans (le_of_eq ?_)
  ring

/-- A rounded quotient. -/
theorem quot_close {N N' D D' a P : K} (hP : 0 < P) (ha : |a| ≤ 1) (hN : N = a * D) (hN' : |N' - N| ≤ 288 * uu K * P ^ 2)
    (hD' : |D' - D| ≤ 160 * uu K * P ^ 2) (hD : P ^ 2 / 2 ^ 29 < D) : 0 < D' ∧ |fl (N' / D') - a| ≤ 450 / 2 ^ 24 := by
  have hP2 : 0 < P ^ 2 := by positivity
  have hu : uu K * P ^ 2 = P ^ 2 / 2 ^ 53 := by unfold uu; ring
  have hu0 := uu_nonneg (K := K)
  rw [mul_assoc, hu] at hN' hD'
  have h1 := (abs_le.1 hD').1
  have h2 : P ^ 2 * (1 / 2 ^ 29 - 160 / 2 ^ 53) ≤ D' := by linarith
  have hpos : 0 < D' := lt_of_lt_of_le (mul_pos hP2 (by norm_num)) h2
  refine ⟨hpos, ?_⟩
  have h3 : |N' / D' - a| ≤ 449 / 2 ^ 24 := by
    have e : N' / D' - a = (N' - a * D') / D' := by field_simp
    rw [e, abs_div, abs_of_pos hpos, div_le_iff₀ hpos]
    have e2 : N' - a * D' = (N' - N) - a * (D' - D) := by rw [hN]; ring
    rw [e2]
    have g1 := abs_sub (N' - N) (a * (D' - D))
    rw [abs_mul] at g1
    have g2 : |a| * |D' - D| ≤ 1 * |D' - D| := mul_le_mul_of_nonneg_right ha (abs_nonneg _)
    have g3 : (449 / 2 ^ 24 : K) * (P ^ 2 * (1 / 2 ^ 29 - 160 / 2 ^ 53)) ≤ 449 / 2 ^ 24 * D' := mul_le_mul_of_nonneg_left h2 (by norm_num)
    have g4 : 448 * (P ^ 2 / 2 ^ 53) ≤ (449 / 2 ^ 24 : K) * (P ^ 2 * (1 / 2 ^ 29 - 160 / 2 ^ 53)) := by
      have : (448 : K) * (1 / 2 ^ 53) ≤ 449 / 2 ^ 24 * (1 / 2 ^ 29 - 160 / 2 ^ 53) := by norm_num
      have := mul_le_mul_of_nonneg_left this hP2.le
      linarith
    linarith
  have h4 := flu hfl (N' / D')
  have h5 := abs_add_le (N' / D' - a) a
  rw [sub_add_cancel] at h5
  have h6 := abs_add_le (fl (N' / D') - N' / D') (N' / D' - a)
  rw [sub_add_sub_cancel] at h6
  have h7 : uu K * |N' / D'| ≤ 1 / 2 ^ 53 * 2 := by
    unfold uu
    apply mul_le_mul_of_nonneg_left _ (by norm_num)
    have : (449 / 2 ^ 24 : K) ≤ 1 := by norm_num
    linarith
  have h8 : (1 / 2 ^ 53 * 2 + 449 / 2 ^ 24 : K) ≤ 450 / 2 ^ 24 := by norm_num
  linarith

/-- The stationary point in the interior when the form is safely definite. -/
theorem reach_definite {c : Fin 6 → K} (hc : ∀ i, IsFloat 53 (c i)) {σ : K} (hσ : |σ| = 1) {a b : K} (ha : |a| ≤ 1) (hb : |b| ≤ 1)
    (g1 : c 1 + 4 * c 3 * a + c 4 * b = 0) (g2 : c 2 + c 4 * a + 4 * c 5 * b = 0) {S : K}
    (hdet : (|c 3| + |c 5|) ^ 2 / 2 ^ 29 < 16 * c 3 * c 5 - c 4 ^ 2) (hS : |c 3| + |c 5| ≤ S) :
    Reach fl c σ (σ * evalFunc2D c ![a, b] + 1 / 2 ^ 28 * S + uu K * S) := by
  obtain ⟨P, hP⟩ : ∃ P, P = |c 3| + |c 5| := ⟨_, rfl⟩
  rw [← hP] at hdet hS
  have n3 := abs_nonneg (c 3)
  have n5 := abs_nonneg (c 5)
  have h3 : |c 3| ≤ P := by linarith
  have h5 : |c 5| ≤ P := by linarith
  have hP2 : 0 ≤ P ^ 2 / 2 ^ 29 := by positivity
  have h35 : c 3 * c 5 ≤ P ^ 2 / 4 := by
    have := le_abs_self (c 3 * c 5)
    rw [abs_mul] at this
    rw [hP]
    nlinarith [sq_nonneg (|c 3| - |c 5|)]
  have hP0 : 0 < P := by
    rcases (by linarith : 0 ≤ P).lt_or_eq with h | h
    · exact h
    · exfalso
      rw [← h] at h35 hdet
      nlinarith [sq_nonneg (c 4)]
  have h4 : |c 4| ≤ 2 * P := by
    apply abs_le_of_sq_le_sq _ (by linarith)
    nlinarith
  have h1 : |c 1| ≤ 6 * P := by
    have e : c 1 = -(4 * c 3 * a + c 4 * b) := by linear_combination g1
    rw [e, abs_neg]
    refine (abs_add_le _ _).trans ?_
    rw [abs_mul, abs_mul, abs_mul, abs_of_pos (by norm_num : (0 : K) < 4)]
    have := mul_le_of_le_one_right (by positivity : 0 ≤ 4 * |c 3|) ha
    have := mul_le_of_le_one_right (abs_nonneg (c 4)) hb
    linarith
  have h2 : |c 2| ≤ 6 * P := by
    have e : c 2 = -(c 4 * a + 4 * c 5 * b) := by linear_combination g2
    rw [e, abs_neg]
    refine (abs_add_le _ _).trans ?_
    rw [abs_mul, abs_mul, abs_mul, abs_of_pos (by norm_num : (0 : K) < 4)]
    have := mul_le_of_le_one_right (by positivity : 0 ≤ 4 * |c 5|) hb
    have := mul_le_of_le_one_right (abs_nonneg (c 4)) ha
    linarith
  have hD := det_close hfl c h3 h5 h4
  obtain ⟨q0, q1⟩ := quot_close hfl hP0 ha (by linear_combination c 4 * g2 - 4 * c 5 * g1) (num_close hfl h2 h4 h1 h5) hD hdet
  obtain ⟨-, q2⟩ := quot_close hfl hP0 hb (by linear_combination c 4 * g1 - 4 * c 3 * g2) (num_close hfl h1 h4 h2 h3) hD hdet
  obtain ⟨x, hx⟩ : ∃ x, x = interior2DF fl c (det2DF fl c) 0 := ⟨_, rfl⟩
  obtain ⟨y, hy⟩ : ∃ y, y = interior2DF fl c (det2DF fl c) 1 := ⟨_, rfl⟩
  change |interior2DF fl c (det2DF fl c) 0 - a| ≤ _ at q1
  change |interior2DF fl c (det2DF fl c) 1 - b| ≤ _ at q2
  rw [← hx] at q1
  rw [← hy] at q2
  have hu := mul_nonneg (uu_nonneg (K := K)) (hP0.le.trans hS)
  have val : ∀ v w, |v - a| ≤ 450 / 2 ^ 24 → |w - b| ≤ 450 / 2 ^ 24 → σ * evalFunc2D c ![v, w] ≤ σ * evalFunc2D c ![a, b] + 1 / 2 ^ 28 * S := by
    intro v w hv hw
    have := evalFunc2D_shift c a b (v - a) (w - b)
    rw [g1, g2, add_sub_cancel, add_sub_cancel] at this
    rw [this]
    have k1 : σ * (2 * c 3 * (v - a) ^ 2 + c 4 * (v - a) * (w - b) + 2 * c 5 * (w - b) ^ 2) ≤ 4 * P * (450 / 2 ^ 24) ^ 2 := by
      refine (le_abs_self _).trans ?_
      rw [abs_mul, hσ, one_mul]
      have m1 := abs_add_le (2 * c 3 * (v - a) ^ 2 + c 4 * (v - a) * (w - b)) (2 * c 5 * (w - b) ^ 2)
      have m2 := abs_add_le (2 * c 3 * (v - a) ^ 2) (c 4 * (v - a) * (w - b))
      have r1 : |2 * c 3 * (v - a) ^ 2| ≤ 2 * |c 3| * (450 / 2 ^ 24) ^ 2 := by
        rw [abs_mul, abs_mul, abs_two, abs_pow]
        exact mul_le_mul_of_nonneg_left (pow_le_pow_left₀ (abs_nonneg _) hv 2) (by positivity)
      have r2 : |2 * c 5 * (w - b) ^ 2| ≤ 2 * |c 5| * (450 / 2 ^ 24) ^ 2 := by
        rw [abs_mul, abs_mul, abs_two, abs_pow]
        exact mul_le_mul_of_nonneg_left (pow_le_pow_left₀ (abs_nonneg _) hw 2) (by positivity)
      have r3 : |c 4 * (v - a) * (w - b)| ≤ 2 * P * (450 / 2 ^ 24) ^ 2 := by
        rw [abs_mul, abs_mul, sq, ← mul_assoc]
        exact mul_le_mul (mul_le_mul h4 hv (abs_nonneg _) (by positivity)) hw (abs_nonneg _) (by positivity)
      rw [hP] at r3 ⊢
      linarith
    have k2 : 4 * P * (450 / 2 ^ 24) ^ 2 ≤ 1 / 2 ^ 28 * S := by
      have : 4 * (450 / 2 ^ 24 : K) ^ 2 ≤ 1 / 2 ^ 28 := by norm_num
      calc 4 * P * (450 / 2 ^ 24) ^ 2 = 4 * (450 / 2 ^ 24 : K) ^ 2 * P := by ring
        _ ≤ 1 / 2 ^ 28 * P := mul_le_mul_of_nonneg_right this hP0.le
        _ ≤ _ := mul_le_mul_of_nonneg_left hS (by norm_num)
    linarith
  have z : ∀ t : K, |t - t| ≤ 450 / 2 ^ 24 := fun t => by rw [sub_self, abs_zero]; norm_num
  have hS3 : |c 3| ≤ S := h3.trans hS
  have hS5 : |c 5| ≤ S := h5.trans hS
  rw [abs_le] at ha hb
  have qa := abs_le.1 q1
  have qb := abs_le.1 q2
  by_cases i0 : inside x
  · by_cases i1 : inside y
    · refine ⟨x, y, ?_, abs_le.2 ⟨i0.1.le, i0.2.le⟩, abs_le.2 ⟨i1.1.le, i1.2.le⟩, (val x y q1 q2).trans (by linarith)⟩
      unfold points2DF
      simp only [List.mem_append]
      refine Or.inr ?_
      rw [if_pos q0.ne', ← hx, ← hy, if_pos ⟨i0, i1⟩, List.mem_singleton, hx, hy]
      rfl
    · rcases not_inside i1 with h | h
      · refine (reach_boundaryY hfl hc hσ (Or.inl rfl) (abs_le.2 ha) hS3).mono (add_le_add (val a (-1) (z a) ?_) le_rfl)
        exact abs_le.2 ⟨by linarith [qb.1], by linarith [hb.1, (by norm_num : (0 : K) ≤ 450 / 2 ^ 24)]⟩
      · refine (reach_boundaryY hfl hc hσ (Or.inr rfl) (abs_le.2 ha) hS3).mono (add_le_add (val a 1 (z a) ?_) le_rfl)
        exact abs_le.2 ⟨by linarith [hb.2, (by norm_num : (0 : K) ≤ 450 / 2 ^ 24)], by linarith [qb.2]⟩
  · rcases not_inside i0 with h | h
    · refine (reach_boundaryX hfl hc hσ (Or.inl rfl) (abs_le.2 hb) hS5).mono (add_le_add (val (-1) b ?_ (z b)) le_rfl)
      exact abs_le.2 ⟨by linarith [qa.1], by linarith [ha.1, (by norm_num : (0 : K) ≤ 450 / 2 ^ 24)]⟩
    · refine (reach_boundaryX hfl hc hσ (Or.inr rfl) (abs_le.2 hb) hS5).mono (add_le_add (val 1 b ?_ (z b)) le_rfl)
      exact abs_le.2 ⟨by linarith [ha.2, (by norm_num : (0 : K) ≤ 450 / 2 ^ 24)], by linarith [qa.2]⟩

/-- Every point at which the exact check evaluates. -/
theorem reach_point {c : Fin 6 → K} (hc : ∀ i, IsFloat 53 (c i)) {σ : K} (hσ : |σ| = 1) {p : Fin 2 → K} (hp : p ∈ points2D c) :
    Reach fl c σ (σ * evalFunc2D c p + (1 / 2 ^ 28 + uu K) * ∑ i, |c i|) := by
  have n : ∀ i, 0 ≤ |c i| := fun i => abs_nonneg _
  have hS : |c 3| + |c 5| ≤ ∑ i, |c i| := by
    rw [Fin.sum_univ_six]
    linarith [n 0, n 1, n 2, n 4]
  have hS3 : |c 3| ≤ ∑ i, |c i| := by linarith [n 5]
  have hS5 : |c 5| ≤ ∑ i, |c i| := by linarith [n 3]
  obtain ⟨S, hSS⟩ : ∃ S, S = ∑ i, |c i| := ⟨_, rfl⟩
  rw [← hSS] at hS hS3 hS5 ⊢
  have hS0 : 0 ≤ S := (n 3).trans hS3
  have hu := mul_nonneg (uu_nonneg (K := K)) hS0
  have h28 : 0 ≤ 1 / 2 ^ 28 * S := by positivity
  rw [add_mul, ← add_assoc]
  have pm : ∀ s : K, s ∈ ([-1, 1] : List K) → s = -1 ∨ s = 1 := by
    intro s hs
    simpa using hs
  unfold points2D at hp
  simp only [List.mem_append] at hp
  rcases hp with ((hp | hp) | hp) | hp
  · simp only [List.mem_cons, List.not_mem_nil, or_false] at hp
    have : p = ![p 0, p 1] := vec2_eta p
    rw [this]
    refine (reach_corner c σ (x := p 0) (y := p 1) ?_ ?_).mono (by linarith)
    · rcases hp with rfl | rfl | rfl | rfl <;> simp
    · rcases hp with rfl | rfl | rfl | rfl <;> simp
  · split_ifs at hp with h5
    · rw [List.mem_flatMap] at hp
      obtain ⟨x, hx, hp⟩ := hp
      split_ifs at hp with h
      · rw [List.mem_singleton] at hp
        rw [hp]
        exact (reach_sideX hfl hc hσ (pm x hx) h5 (abs_le.2 ⟨h.1.le, h.2.le⟩) rfl hS5).mono (by linarith)
      · simp at hp
    · simp at hp
  · split_ifs at hp with h3
    · rw [List.mem_flatMap] at hp
      obtain ⟨x, hx, hp⟩ := hp
      split_ifs at hp with h
      · rw [List.mem_singleton] at hp
        rw [hp]
        exact (reach_sideY hfl hc hσ (pm x hx) h3 (abs_le.2 ⟨h.1.le, h.2.le⟩) rfl hS3).mono (by linarith)
      · simp at hp
    · simp at hp
  · split_ifs at hp with hd h
    · rw [List.mem_singleton] at hp
      rw [hp]
      obtain ⟨a, hae⟩ : ∃ a, a = (c 2 * c 4 - 4 * c 1 * c 5) / (16 * c 3 * c 5 - c 4 ^ 2) := ⟨_, rfl⟩
      obtain ⟨b, hbe⟩ : ∃ b, b = (c 1 * c 4 - 4 * c 2 * c 3) / (16 * c 3 * c 5 - c 4 ^ 2) := ⟨_, rfl⟩
      rw [← hae, ← hbe] at h ⊢
      have ea : a * (16 * c 3 * c 5 - c 4 ^ 2) = c 2 * c 4 - 4 * c 1 * c 5 := by rw [hae, div_mul_cancel₀ _ hd]
      have eb : b * (16 * c 3 * c 5 - c 4 ^ 2) = c 1 * c 4 - 4 * c 2 * c 3 := by rw [hbe, div_mul_cancel₀ _ hd]
      have g1 : c 1 + 4 * c 3 * a + c 4 * b = 0 := by
        have : (c 1 + 4 * c 3 * a + c 4 * b) * (16 * c 3 * c 5 - c 4 ^ 2) = 0 := by linear_combination 4 * c 3 * ea + c 4 * eb
        exact (mul_eq_zero.1 this).resolve_right hd
      have g2 : c 2 + c 4 * a + 4 * c 5 * b = 0 := by
        have : (c 2 + c 4 * a + 4 * c 5 * b) * (16 * c 3 * c 5 - c 4 ^ 2) = 0 := by linear_combination c 4 * ea + 4 * c 5 * eb
        exact (mul_eq_zero.1 this).resolve_right hd
      have ha := abs_le.2 ⟨h.1.1.le, h.1.2.le⟩
      have hb := abs_le.2 ⟨h.2.1.le, h.2.2.le⟩
      by_cases hdet : (|c 3| + |c 5|) ^ 2 / 2 ^ 29 < 16 * c 3 * c 5 - c 4 ^ 2
      · exact reach_definite hfl hc hσ ha hb g1 g2 hdet hS
      · push Not at hdet
        have := reach_flat hfl hc hσ ha hb g1 g2 (θ := 1 / 2 ^ 29) (by positivity) (by linarith) hS3 hS5
        refine this.mono (le_of_eq ?_)
        ring
    · simp at hp
    · simp at hp

/-! ### The sum of the other coefficients -/

theorem SumTree.val_le (t : SumTree K) (h : ∀ x ∈ t.leaves, 0 ≤ x) :
    t.val fl ≤ (1 + uu K) ^ t.leaves.length * t.leaves.sum ∧ 0 ≤ t.val fl := by
  have hu := uu_nonneg (K := K)
  have h1 : (1 : K) ≤ 1 + uu K := by linarith
  induction t with
  | leaf x =>
    have hx := h x (by simp [leaves])
    simp only [leaves, List.length_singleton, pow_one, List.sum_singleton, val]
    exact ⟨le_mul_of_one_le_left hx h1, hx⟩
  | node a b iha ihb =>
    have ha : ∀ x ∈ a.leaves, 0 ≤ x := fun x hx => h x (by simp [leaves, hx])
    have hb : ∀ x ∈ b.leaves, 0 ≤ x := fun x hx => h x (by simp [leaves, hx])
    obtain ⟨a1, a2⟩ := iha ha
    obtain ⟨b1, b2⟩ := ihb hb
    have la := a.length_pos
    have lb := b.length_pos
    have sa : 0 ≤ a.leaves.sum := List.sum_nonneg ha
    have sb : 0 ≤ b.leaves.sum := List.sum_nonneg hb
    simp only [leaves, List.length_append, List.sum_append, val]
    refine ⟨?_, fl_nonneg hfl (add_nonneg a2 b2)⟩
    have g := flu_abs hfl (a.val fl + b.val fl)
    rw [abs_of_nonneg (add_nonneg a2 b2)] at g
    have pa : (1 + uu K) * ((1 + uu K) ^ a.leaves.length * a.leaves.sum) ≤ (1 + uu K) ^ (a.leaves.length + b.leaves.length) * a.leaves.sum := by
      rw [← mul_assoc, ← pow_succ']
      exact mul_le_mul_of_nonneg_right (pow_le_pow_right₀ h1 (by omega)) sa
    have pb : (1 + uu K) * ((1 + uu K) ^ b.leaves.length * b.leaves.sum) ≤ (1 + uu K) ^ (a.leaves.length + b.leaves.length) * b.leaves.sum := by
      rw [← mul_assoc, ← pow_succ']
      exact mul_le_mul_of_nonneg_right (pow_le_pow_right₀ h1 (by omega)) sb
    have := mul_le_mul_of_nonneg_left (add_le_add a1 b1) (by linarith : 0 ≤ 1 + uu K)
    have := le_abs_self (fl (a.val fl + b.val fl))
    linarith

omit hfl in
/-- `np.sum(np.abs(M))` is close to the exact sum. -/
theorem sum_close {n : ℕ} {ar : FloatArith K} (hfl : RoundsToNearest 53 ar.fl) (hs : ar.Sums) (M : Tensor n K) (hM : M.Nonempty)
    (hN : ∏ i, M.shape i ≤ 2 ^ 20) : |ar.sum M.absList - M.absSum| ≤ 1 / 2 ^ 32 * M.absSum := by
  have hpos : 0 < ∏ i, M.shape i := prod_pos fun i _ => hM i
  have hlen : M.absList.length = ∏ i, M.shape i := by simp [Tensor.absList]
  have hne : M.absList ≠ [] := by
    intro h
    rw [h] at hlen
    simp at hlen
    omega
  obtain ⟨t, ht, hv⟩ := hs.tree _ hne
  have h0 : ∀ x ∈ t.leaves, 0 ≤ x := by
    intro x hx
    have := ht.mem_iff.1 hx
    simp only [Tensor.absList, List.mem_map] at this
    obtain ⟨q, -, rfl⟩ := this
    exact abs_nonneg _
  obtain ⟨g1, -⟩ := t.val_ge hfl (by norm_num) h0
  obtain ⟨g2, -⟩ := t.val_le hfl h0
  rw [ht.length_eq, ht.sum_eq, hlen, absList_sum M hM, hv] at g1 g2
  have hS : 0 ≤ M.absSum := sum_nonneg fun _ _ => abs_nonneg _
  generalize ∏ i, M.shape i = N at *
  have hN' : (N : K) ≤ 2 ^ 20 := by exact_mod_cast hN
  have hb := one_add_mul_le_pow (a := -(1 / 2 ^ 53 : K)) (by norm_num) N
  rw [← sub_eq_add_neg] at hb
  have hb2 := uu_pow_le (K := K) N (hN.trans (by norm_num))
  have e1 : (N : K) * (1 / 2 ^ 53) ≤ 2 ^ 20 * (1 / 2 ^ 53) := mul_le_mul_of_nonneg_right hN' (by norm_num)
  rw [abs_le]
  constructor
  · have : (1 - 1 / 2 ^ 32) * M.absSum ≤ ar.sum M.absList := by
      refine le_trans (mul_le_mul_of_nonneg_right ?_ hS) g1
      refine le_trans ?_ hb
      have : (2 ^ 20 * (1 / 2 ^ 53) : K) ≤ 1 / 2 ^ 32 := by norm_num
      linarith
    linarith
  · have : ar.sum M.absList ≤ (1 + 1 / 2 ^ 32) * M.absSum := by
      refine g2.trans (mul_le_mul_of_nonneg_right (hb2.trans ?_) hS)
      unfold uu
      have : (2 * (2 ^ 20 * (1 / 2 ^ 53)) : K) ≤ 1 / 2 ^ 32 := by norm_num
      linarith
    linarith

/-- The builtin sum of six absolute values. -/
theorem pysum_close (c : Fin 6 → K) : |(List.ofFn fun i => |c i|).foldl (fun s a => fl (s + a)) 0 - (∑ i, |c i|)| ≤ 12 * uu K * ∑ i, |c i| := by
  have r : ∀ i, Appr 0 |c i| |c i| |c i| := fun i => Appr.of_le (by rw [abs_abs])
  have z : Appr 0 0 (0 : K) 0 := Appr.of_le (by simp)
  have a0 := z.add hfl le_rfl (by norm_num) (r 0)
  have a1 := a0.add hfl (by norm_num) (by norm_num) ((r 1).mono le_rfl (by norm_num) le_rfl)
  have a2 := a1.add hfl (by norm_num) (by norm_num) ((r 2).mono le_rfl (by norm_num) le_rfl)
  have a3 := a2.add hfl (by norm_num) (by norm_num) ((r 3).mono le_rfl (by norm_num) le_rfl)
  have a4 := a3.add hfl (by norm_num) (by norm_num) ((r 4).mono le_rfl (by norm_num) le_rfl)
  have a5 := a4.add hfl (by norm_num) (by norm_num) ((r 5).mono le_rfl (by norm_num) le_rfl)
  have h := a5.2
  rw [Fin.sum_univ_six]
  refine le_trans (le_of_eq ?_) (h.trans (le_of_eq ?_))
  · rw [zero_add (|c 0|)]
    simp [List.ofFn_succ]
  · ring

omit hfl in
/-- The rounded `other_sum`. -/
theorem otherSum2DF_close {ar : FloatArith K} (hfl : RoundsToNearest 53 ar.fl) (hs : ar.Sums) (M : Tensor 2 K) (hM : M.Nonempty)
    (hN : ∏ i, M.shape i ≤ 2 ^ 20) {tol : K} (ht : 0 ≤ tol) :
    |otherSum2DF ar M tol - (restAbs M + tol)| ≤ 1 / 2 ^ 31 * (M.absSum + tol) ∧ ∑ i, |coeffs2D M i| ≤ M.absSum := by
  have h1 := sum_close hfl hs M hM hN
  have h2 := pysum_close hfl (coeffs2D M)
  have h3 := otherSum2D_eq M hM
  have hr : 0 ≤ restAbs M := sum_nonneg fun _ _ => abs_nonneg _
  have hS : 0 ≤ ∑ i, |coeffs2D M i| := sum_nonneg fun _ _ => abs_nonneg _
  unfold otherSum2DF
  generalize List.foldl _ _ _ = p at *
  generalize ar.sum M.absList = q at *
  generalize ∑ i, |coeffs2D M i| = S at *
  generalize M.absSum = A at *
  generalize restAbs M = R at *
  refine ⟨?_, by linarith⟩
  have h4 := flu hfl (q - p)
  have h5 := flu hfl (ar.fl (q - p) + tol)
  have hA : 0 ≤ A := by linarith
  unfold uu at *
  generalize ar.fl (q - p) = z at *
  generalize ar.fl (z + tol) = w at *
  have e1 : |q - p - R| ≤ 1 / 2 ^ 32 * A + 12 * (1 / 2 ^ 53) * A := by
    have e : q - p - R = (q - A) - (p - S) := by linarith
    rw [e]
    refine (abs_sub _ _).trans (add_le_add h1 (h2.trans ?_))
    exact mul_le_mul_of_nonneg_left (by linarith) (by norm_num)
  have e2 : |q - p| ≤ 2 * A := by
    have := abs_add_le (q - p - R) R
    rw [sub_add_cancel, abs_of_nonneg hr] at this
    have : (1 / 2 ^ 32 * A + 12 * (1 / 2 ^ 53) * A : K) ≤ 1 * A := by
      rw [← add_mul]
      exact mul_le_mul_of_nonneg_right (by norm_num) hA
    linarith
  have e3 : |z - R| ≤ 1 / 2 ^ 32 * A + 14 * (1 / 2 ^ 53) * A := by
    have := abs_add_le (z - (q - p)) (q - p - R)
    rw [sub_add_sub_cancel] at this
    have : 1 / 2 ^ 53 * |q - p| ≤ 1 / 2 ^ 53 * (2 * A) := mul_le_mul_of_nonneg_left e2 (by norm_num)
    linarith
  have e4 : |z + tol| ≤ 2 * A + tol := by
    have g1 := abs_add_le (z - R) (R + tol)
    rw [abs_of_nonneg (add_nonneg hr ht), show z - R + (R + tol) = z + tol by ring] at g1
    have : (1 / 2 ^ 32 * A + 14 * (1 / 2 ^ 53) * A : K) ≤ 1 * A := by
      rw [← add_mul]
      exact mul_le_mul_of_nonneg_right (by norm_num) hA
    linarith
  have e5 := abs_add_le (w - (z + tol)) (z - R)
  rw [show w - (z + tol) + (z - R) = w - (R + tol) by ring] at e5
  have e6 : 1 / 2 ^ 53 * |z + tol| ≤ 1 / 2 ^ 53 * (2 * A + tol) := mul_le_mul_of_nonneg_left e4 (by norm_num)
  have e7 : (1 / 2 ^ 32 + 16 * (1 / 2 ^ 53)) * A ≤ 1 / 2 ^ 31 * A := mul_le_mul_of_nonneg_right (by norm_num) hA
  have e8 : 1 / 2 ^ 53 * tol ≤ 1 / 2 ^ 31 * tol := mul_le_mul_of_nonneg_right (by norm_num) ht
  linarith

omit [FloorRing K] hfl in
theorem points2DF_inCube (c : Fin 6 → K) : ∀ p ∈ points2DF fl c, |p 0| ≤ 1 ∧ |p 1| ≤ 1 := by
  have pm : ∀ s : K, s ∈ ([-1, 1] : List K) → |s| ≤ 1 := by
    intro s hs
    have : s = -1 ∨ s = 1 := by simpa using hs
    rcases this with rfl | rfl <;> simp
  have ins : ∀ s : K, inside s → |s| ≤ 1 := fun s hs => abs_le.2 ⟨hs.1.le, hs.2.le⟩
  intro p hp
  unfold points2DF at hp
  simp only [List.mem_append] at hp
  rcases hp with ((hp | hp) | hp) | hp
  · simp only [List.mem_cons, List.not_mem_nil, or_false] at hp
    rcases hp with rfl | rfl | rfl | rfl <;> simp
  · split_ifs at hp
    · rw [List.mem_flatMap] at hp
      obtain ⟨x, hx, hp⟩ := hp
      split_ifs at hp with h
      · rw [List.mem_singleton] at hp
        rw [hp]
        exact ⟨pm x hx, ins _ h⟩
      · simp at hp
    · simp at hp
  · split_ifs at hp
    · rw [List.mem_flatMap] at hp
      obtain ⟨x, hx, hp⟩ := hp
      split_ifs at hp with h
      · rw [List.mem_singleton] at hp
        rw [hp]
        exact ⟨ins _ h, pm x hx⟩
      · simp at hp
    · simp at hp
  · split_ifs at hp with hd h
    · rw [List.mem_singleton] at hp
      rw [hp]
      exact ⟨ins _ h.1, ins _ h.2⟩
    · simp at hp
    · simp at hp

end R

end YRoots
