import Verif.Spec.FloatSvd
import Verif.Proofs.FloatQuadratic

/-!
# The bounding step in floating-point arithmetic: the inverse matrix, and bounds in terms of the coefficients
-/

namespace YRoots

open Finset

variable {n : ℕ} {K : Type*} [Field K] [LinearOrder K] [IsStrictOrderedRing K]

/-! ### The interval from the inverse matrix -/

section Inverse

variable [FloorRing K] {fl : K → K} (hfl : RoundsToNearest 53 fl)

include hfl

theorem inverse_encloses {A B : Matrix (Fin n) (Fin n) K} {c e y T : Fin n → K} {ρ γ κ C W : K} (j : Fin n) (hy : InCube y)
    (hT : ∀ i, 0 ≤ T i) (hrow : ∀ i, |c i + ∑ k, A i k * y k| ≤ e i - κ * T i) (hκ0 : 0 ≤ κ) (hc : ∀ i, |c i| ≤ T i) (he : ∀ i, e i ≤ 2 * T i)
    (hA : ∀ i, |A i j| ≤ 2 * T i) (hρ : ρ ≤ 1 / 2) (hγ : 0 ≤ γ) (hγ1 : γ ≤ 1) (hκ : 4 * ρ + 3 * γ + 6 * uu K ≤ κ)
    (hB : ∑ k, |(∑ i, B j i * A i k) - if j = k then 1 else 0| ≤ ρ)
    (hC : |C + ∑ i, B j i * c i| ≤ γ * ∑ i, |B j i * c i|)
    (hW : |W - (∑ i, |B j i * e i|)| ≤ γ * ∑ i, |B j i * e i|) : fl (C - W) ≤ y j ∧ y j ≤ fl (C + W) := by
  have hu := uu_nonneg (K := K)
  have he0 : ∀ i, 0 ≤ e i := fun i => by
    have := (abs_nonneg _).trans (hrow i)
    have := mul_nonneg hκ0 (hT i)
    linarith
  obtain ⟨w, hw⟩ : ∃ w, w = ∑ i, |B j i| * T i := ⟨_, rfl⟩
  obtain ⟨p, hp⟩ : ∃ p, p = ∑ i, |B j i * c i| := ⟨_, rfl⟩
  obtain ⟨q, hq⟩ : ∃ q, q = ∑ i, |B j i * e i| := ⟨_, rfl⟩
  have hw0 : 0 ≤ w := by rw [hw]; exact sum_nonneg fun i _ => mul_nonneg (abs_nonneg _) (hT i)
  have hpw : p ≤ w := by
    rw [hp, hw]
    refine sum_le_sum fun i _ => ?_
    rw [abs_mul]
    exact mul_le_mul_of_nonneg_left (hc i) (abs_nonneg _)
  have hqw : q ≤ 2 * w := by
    rw [hq, hw, mul_sum]
    refine sum_le_sum fun i _ => ?_
    rw [abs_mul, abs_of_nonneg (he0 i), show 2 * (|B j i| * T i) = |B j i| * (2 * T i) by ring]
    exact mul_le_mul_of_nonneg_left (he i) (abs_nonneg _)
  have hp0 : 0 ≤ p := by rw [hp]; exact sum_nonneg fun _ _ => abs_nonneg _
  have hq0 : 0 ≤ q := by rw [hq]; exact sum_nonneg fun _ _ => abs_nonneg _
  have hρ0 : 0 ≤ ρ := (sum_nonneg fun _ _ => abs_nonneg _).trans hB
  -- the size of the inverse
  have hquarter : 1 / 4 ≤ w := by
    have h1 : |(∑ i, B j i * A i j) - 1| ≤ ρ := by
      refine le_trans ?_ hB
      have := single_le_sum (f := fun k => |(∑ i, B j i * A i k) - if j = k then 1 else 0|) (fun _ _ => abs_nonneg _) (mem_univ j)
      simpa using this
    have h2 : |∑ i, B j i * A i j| ≤ 2 * w := by
      refine (abs_sum_le_sum_abs _ _).trans ?_
      rw [hw, mul_sum]
      refine sum_le_sum fun i _ => ?_
      rw [abs_mul, show 2 * (|B j i| * T i) = |B j i| * (2 * T i) by ring]
      exact mul_le_mul_of_nonneg_left (hA i) (abs_nonneg _)
    linarith [(abs_le.1 h1).1, (abs_le.1 h2).2]
  -- the distance from the centre
  have hz : |∑ i, B j i * (c i + ∑ k, A i k * y k)| ≤ q - κ * w := by
    refine (abs_sum_le_sum_abs _ _).trans ?_
    rw [hq, hw, mul_sum, ← sum_sub_distrib]
    refine sum_le_sum fun i _ => ?_
    rw [abs_mul, abs_mul, abs_of_nonneg (he0 i), show |B j i| * e i - κ * (|B j i| * T i) = |B j i| * (e i - κ * T i) by ring]
    exact mul_le_mul_of_nonneg_left (hrow i) (abs_nonneg _)
  have hd : |∑ k, ((∑ i, B j i * A i k) - if j = k then 1 else 0) * y k| ≤ ρ := by
    refine (abs_sum_le_sum_abs _ _).trans (le_trans (sum_le_sum fun k _ => ?_) hB)
    rw [abs_mul]
    exact mul_le_of_le_one_right (abs_nonneg _) (hy k)
  have e1 : ∑ i, B j i * (c i + ∑ k, A i k * y k) = ∑ i, B j i * c i + ∑ k, (∑ i, B j i * A i k) * y k := by
    simp only [mul_add, sum_add_distrib, mul_sum, sum_mul]
    congr 1
    rw [sum_comm]
    exact sum_congr rfl fun k _ => sum_congr rfl fun i _ => by ring
  have e2 : ∑ k, ((∑ i, B j i * A i k) - if j = k then 1 else 0) * y k = ∑ k, (∑ i, B j i * A i k) * y k - y j := by
    simp only [sub_mul, sum_sub_distrib, ite_mul, one_mul, zero_mul, sum_ite_eq, mem_univ, if_true]
  rw [e1] at hz
  rw [e2] at hd
  generalize ∑ k, (∑ i, B j i * A i k) * y k = r at hz hd
  rw [← hp] at hC
  rw [← hq] at hW
  have hbc : |∑ i, B j i * c i| ≤ p := by rw [hp]; exact abs_sum_le_sum_abs _ _
  generalize ∑ i, B j i * c i = s at hz hC hbc
  rw [abs_le] at hz hd hC hW hbc
  -- the sizes
  have hγw : γ * p ≤ γ * w := mul_le_mul_of_nonneg_left hpw hγ
  have hγq : γ * q ≤ γ * (2 * w) := mul_le_mul_of_nonneg_left hqw hγ
  have hγw1 : γ * w ≤ w := mul_le_of_le_one_left hw0 hγ1
  have hρw : ρ ≤ 4 * ρ * w := by
    have := mul_le_mul_of_nonneg_left hquarter (by linarith : 0 ≤ 4 * ρ)
    linarith
  have hκw := mul_le_mul_of_nonneg_right hκ hw0
  have s1 : |C - W| ≤ 6 * w := by rw [abs_le]; constructor <;> linarith [hz.1, hz.2, hC.1, hC.2, hW.1, hW.2, hbc.1, hbc.2]
  have s2 : |C + W| ≤ 6 * w := by rw [abs_le]; constructor <;> linarith [hz.1, hz.2, hC.1, hC.2, hW.1, hW.2, hbc.1, hbc.2]
  have f1 := (abs_le.1 (flu hfl (C - W))).2
  have f2 := (abs_le.1 (flu hfl (C + W))).1
  have g1 := mul_le_mul_of_nonneg_left s1 hu
  have g2 := mul_le_mul_of_nonneg_left s2 hu
  constructor
  · linarith [hz.1, hz.2, hd.1, hd.2, hC.1, hC.2, hW.1, hW.2]
  · linarith [hz.1, hz.2, hd.1, hd.2, hC.1, hC.2, hW.1, hW.2]

end Inverse

/-! ### Sizes -/

theorem maxAbs_le (v : Fin n → K) {B : K} (hB : 0 ≤ B) (h : ∀ i, |v i| ≤ B) : maxAbs v ≤ B := by
  unfold maxAbs
  have : ∀ (l : List (Fin n)) (m : K), m ≤ B → l.foldl (fun m i => max m |v i|) m ≤ B := by
    intro l
    induction l with
    | nil => intro m hm; exact hm
    | cons a l ih => intro m hm; exact ih _ (max_le hm (h a))
  exact this _ _ hB

theorem const_lin_le (M : Tensor n K) (hM : M.Nonempty) : |M.const| + ∑ j, |linCoef M j| ≤ M.absSum := by
  have h := eval_linear_bound M hM (x := fun _ => 0) (fun _ => by simp)
  have := (abs_nonneg _).trans h
  linarith

section Sizes

variable [FloorRing K]

theorem rowScale_le (M : Tensor n K) (hM : M.Nonempty) (j : Fin n) (hj : linCoef M j ≠ 0) : rowScale (linCoef M) ≤ M.absSum := by
  have h1 := const_lin_le M hM
  have h2 : ∀ i, |linCoef M i| ≤ ∑ j, |linCoef M j| := fun i => single_le_sum (f := fun j => |linCoef M j|) (fun _ _ => abs_nonneg _) (mem_univ i)
  have h3 : maxAbs (linCoef M) ≤ M.absSum := by
    refine (maxAbs_le _ (sum_nonneg fun _ _ => abs_nonneg _) h2).trans ?_
    linarith [abs_nonneg M.const]
  have h4 : 0 < maxAbs (linCoef M) := (abs_pos.2 hj).trans_le (abs_le_maxAbs _ j)
  unfold rowScale pow2Floor
  rw [if_pos h4]
  have h5 := Int.zpow_log_le_self (b := 2) one_lt_two h4
  rw [Nat.cast_ofNat] at h5
  exact h5.trans h3

theorem abs_mul_colScale_le (v : Fin n → K) (i : Fin n) : |v i| * colScale v ≤ 2 := by
  have h := abs_le_maxAbs v i
  unfold colScale
  split
  · rename_i hm
    have h2 := Int.lt_zpow_succ_log_self (b := 2) one_lt_two (maxAbs v)
    rw [Nat.cast_ofNat, zpow_add_one₀ (two_ne_zero)] at h2
    have hp : (0 : K) < 2 ^ Int.log 2 (maxAbs v) := zpow_pos two_pos _
    rw [zpow_neg, ← div_eq_mul_inv, div_le_iff₀ hp]
    linarith
  · rename_i hm
    linarith

variable (Ms : Fin n → Tensor n K) (hM : ∀ i, (Ms i).Nonempty) (errors : Fin n → K) (he : ∀ i, 0 ≤ errors i)

include hM in
theorem rowScale_eq (i : Fin n) : rowScale (fun j : Fin n => (getLinearTerms (Ms i)).getD j 0) = rowScale (linCoef (Ms i)) := by
  congr 1
  funext j
  exact getLinearTerms_getD (Ms i) (hM i) j

include hM in
theorem linSys_A_eq (i j : Fin n) : (linSys Ms errors false).A i j = linCoef (Ms i) j / rowScale (linCoef (Ms i)) * (linSys Ms errors false).colScaler j := by
  rw [← rowScale_eq Ms hM i, ← getLinearTerms_getD (Ms i) (hM i) j]
  rfl

include hM in
theorem linSys_consts_eq (i : Fin n) : (linSys Ms errors false).consts i = (Ms i).const / rowScale (linCoef (Ms i)) := by
  rw [← rowScale_eq Ms hM i, ← ravel_zero]
  rfl

include hM in
theorem linSys_err_eq (i : Fin n) : (linSys Ms errors false).err i =
    ((Ms i).absSum + errors i - |(Ms i).const| - ∑ j, |linCoef (Ms i) j|) / rowScale (linCoef (Ms i)) := by
  rw [← rowScale_eq Ms hM i, ← ravel_zero]
  have : ∀ j : Fin n, linCoef (Ms i) j = (getLinearTerms (Ms i)).getD j 0 := fun j => (getLinearTerms_getD (Ms i) (hM i) j).symm
  simp only [this]
  rfl

include hM he in
/-- The scaled linear coefficients, also after the scaling of the columns. -/
theorem scaled_le (i j : Fin n) :
    |linCoef (Ms i) j / rowScale (linCoef (Ms i))| * (linSys Ms errors false).colScaler j ≤
      2 * (((Ms i).absSum + errors i) / rowScale (linCoef (Ms i))) := by
  have hs := rowScale_pos (linCoef (Ms i))
  have hS : 0 ≤ (Ms i).absSum := sum_nonneg fun _ _ => abs_nonneg _
  by_cases h0 : linCoef (Ms i) j = 0
  · rw [h0, zero_div, abs_zero, zero_mul]
    have := he i
    positivity
  · have h1 := rowScale_le (Ms i) (hM i) j h0
    have h2 : 1 ≤ ((Ms i).absSum + errors i) / rowScale (linCoef (Ms i)) := by
      rw [le_div_iff₀ hs]
      linarith [he i]
    have h3 : |linCoef (Ms i) j / rowScale (linCoef (Ms i))| * (linSys Ms errors false).colScaler j ≤ 2 := by
      have := abs_mul_colScale_le (fun i' => (getLinearTerms (Ms i')).getD j 0 / rowScale (fun j : Fin n => (getLinearTerms (Ms i')).getD j 0)) i
      simp only [rowScale_eq Ms hM i, getLinearTerms_getD (Ms i) (hM i) j] at this
      exact this
    linarith

/-! ### The computed masses -/

variable {ar : FloatArith K} (hfl : RoundsToNearest 53 ar.fl) (hs : ar.Sums) (hF : ∀ i, ∀ k ∈ (Ms i).idx, IsFloat 53 ((Ms i).coef k))
  (hN : ∀ i, ∏ j, (Ms i).shape j ≤ 2 ^ 20) (hn : n ≤ 2 ^ 11)

include hfl hs hM he hN in
theorem totalF_close (i : Fin n) :
    |ar.fl (ar.sum (Ms i).absList + errors i) - ((Ms i).absSum + errors i)| ≤ (1 / 2 ^ 32 + 2 * uu K) * ((Ms i).absSum + errors i) := by
  have hS : 0 ≤ (Ms i).absSum := sum_nonneg fun _ _ => abs_nonneg _
  have hu := uu_nonneg (K := K)
  have h1 := sum_close hfl hs (Ms i) (hM i) (hN i)
  have h2 := flu hfl (ar.sum (Ms i).absList + errors i)
  have hei := he i
  rw [abs_le] at h1
  have h3 : |ar.sum (Ms i).absList + errors i| ≤ 2 * ((Ms i).absSum + errors i) := by
    rw [abs_le]; constructor <;> linarith [h1.1, h1.2]
  have h4 := mul_le_mul_of_nonneg_left h3 hu
  have h5 : 1 / 2 ^ 32 * (Ms i).absSum ≤ 1 / 2 ^ 32 * ((Ms i).absSum + errors i) := by linarith
  rw [abs_le] at h2 ⊢
  constructor <;> linarith [h1.1, h1.2, h2.1, h2.2]

include hfl hs hM he hF hN hn in
/-- The total masses in terms of the coefficients. -/
theorem linSysF_total_le (i : Fin n) : (linSysF ar Ms errors false).totalErrs i * rowScale (linCoef (Ms i)) ≤
    2 * (2 * n + 1) * ((Ms i).absSum + errors i) := by
  have hS : 0 ≤ (Ms i).absSum := sum_nonneg fun _ _ => abs_nonneg _
  have hu := uu_nonneg (K := K)
  have h1u : (1 : K) ≤ 1 + uu K := by linarith
  have hsp := rowScale_pos (linCoef (Ms i))
  have hei := he i
  obtain ⟨s, hsd⟩ : ∃ s, s = rowScale (linCoef (Ms i)) := ⟨_, rfl⟩
  obtain ⟨T, hT⟩ : ∃ T, T = ((Ms i).absSum + errors i) / s := ⟨_, rfl⟩
  have hT0 : 0 ≤ T := by rw [hT, hsd]; positivity
  rw [← hsd] at hsp
  have hle : ∀ y : K, 0 ≤ y → ar.fl y ≤ (1 + uu K) * y := fun y hy => by
    have := (abs_le.1 (flu hfl y)).2
    rw [abs_of_nonneg hy] at this
    linarith
  have key : ∀ (l : List (Fin n)) (t : K), 0 ≤ t → l.foldl (fun t (j : Fin n) => ar.fl (t + ar.fl (|ar.fl ((getLinearTerms (Ms i)).getD j 0 / s)| *
      ar.fl ((linSysF ar Ms errors false).colScaler j - 1)))) t ≤ (1 + uu K) ^ (3 * l.length) * (t + 2 * l.length * T) := by
    intro l
    induction l with
    | nil => intro t _; simp
    | cons j l ih =>
      intro t ht
      rw [List.foldl_cons, List.length_cons]
      have e1 : ar.fl ((getLinearTerms (Ms i)).getD j 0 / s) = linCoef (Ms i) j / s := by
        have := linSysF_scaled hfl Ms hM hF i j
        rw [rowScale_eq Ms hM i, ← hsd] at this
        rw [← getLinearTerms_getD (Ms i) (hM i) j]
        exact this
      have hc := linSys_colScaler_ge Ms errors false j
      have h2 := scaled_le Ms hM errors he i j
      rw [← hsd, ← hT] at h2
      rw [e1, congrFun (linSysF_colScaler hfl Ms hM hF errors) j]
      generalize (linSys Ms errors false).colScaler j = c at hc h2
      have ha0 : 0 ≤ |linCoef (Ms i) j / s| := abs_nonneg _
      generalize |linCoef (Ms i) j / s| = a at h2 ha0
      have hc1 : 0 ≤ c - 1 := by linarith
      have hf0 := fl_nonneg hfl hc1
      have z1 := hle (c - 1) hc1
      have z2 := hle _ (mul_nonneg ha0 hf0)
      have z3 := fl_nonneg hfl (mul_nonneg ha0 hf0)
      generalize ar.fl (a * ar.fl (c - 1)) = z at z2 z3
      generalize ar.fl (c - 1) = f at z1 z2 hf0
      have z4 : z ≤ (1 + uu K) ^ 2 * (2 * T) := by
        refine z2.trans ?_
        rw [sq, mul_assoc]
        apply mul_le_mul_of_nonneg_left _ (by linarith)
        calc a * f ≤ a * ((1 + uu K) * (c - 1)) := mul_le_mul_of_nonneg_left z1 ha0
          _ = (1 + uu K) * (a * c - a) := by ring
          _ ≤ _ := mul_le_mul_of_nonneg_left (by linarith) (by linarith)
      have z5 := hle (t + z) (add_nonneg ht z3)
      have z6 : ar.fl (t + z) ≤ (1 + uu K) ^ 3 * (t + 2 * T) := by
        refine z5.trans ?_
        have : t ≤ (1 + uu K) ^ 2 * t := le_mul_of_one_le_left ht (one_le_pow₀ h1u)
        calc (1 + uu K) * (t + z) ≤ (1 + uu K) * ((1 + uu K) ^ 2 * t + (1 + uu K) ^ 2 * (2 * T)) :=
              mul_le_mul_of_nonneg_left (by linarith) (by linarith)
          _ = _ := by ring
      refine (ih _ (fl_nonneg hfl (add_nonneg ht z3))).trans ?_
      have hl : (0 : K) ≤ 2 * l.length * T := by positivity
      have z7 : (2 * l.length * T : K) ≤ (1 + uu K) ^ 3 * (2 * l.length * T) := le_mul_of_one_le_left hl (one_le_pow₀ h1u)
      calc (1 + uu K) ^ (3 * l.length) * (ar.fl (t + z) + 2 * l.length * T)
          ≤ (1 + uu K) ^ (3 * l.length) * ((1 + uu K) ^ 3 * (t + 2 * T) + (1 + uu K) ^ 3 * (2 * l.length * T)) :=
            mul_le_mul_of_nonneg_left (by linarith) (by positivity)
        _ = _ := by
          push_cast
          rw [show 3 * (l.length + 1) = 3 * l.length + 3 by ring, pow_add]
          ring
  have hm0 : 0 ≤ (Ms i).absSum + errors i := by linarith
  have h1 := totalF_close Ms hM errors he hfl hs hN i
  have h2 := fl_nonneg hfl (x := ar.sum (Ms i).absList + errors i) (by
    have h3 := (abs_le.1 (sum_close hfl hs (Ms i) (hM i) (hN i))).1
    linarith)
  have h3 : ar.fl (ar.sum (Ms i).absList + errors i) / s ≤ (1 + 1 / 2 ^ 31) * T := by
    rw [hT, ← mul_div_assoc]
    apply div_le_div_of_nonneg_right _ hsp.le
    have : (1 / 2 ^ 32 + 2 * uu K) * ((Ms i).absSum + errors i) ≤ 1 / 2 ^ 31 * ((Ms i).absSum + errors i) :=
      mul_le_mul_of_nonneg_right (by unfold uu; norm_num) hm0
    linarith [(abs_le.1 h1).2]
  have h4 := hle _ (div_nonneg h2 hsp.le)
  have h5 := key (List.finRange n) (ar.fl (ar.fl (ar.sum (Ms i).absList + errors i) / s)) (fl_nonneg hfl (div_nonneg h2 hsp.le))
  have e : (linSysF ar Ms errors false).totalErrs i = (List.finRange n).foldl (fun t (j : Fin n) => ar.fl (t +
      ar.fl (|ar.fl ((getLinearTerms (Ms i)).getD j 0 / s)| * ar.fl ((linSysF ar Ms errors false).colScaler j - 1))))
      (ar.fl (ar.fl (ar.sum (Ms i).absList + errors i) / s)) := by
    rw [hsd, ← rowScale_eq Ms hM i]
    rfl
  rw [← e, List.length_finRange] at h5
  have h6 := uu_pow_le (K := K) (3 * n) (by omega)
  have hnK : (n : K) ≤ 2 ^ 11 := by exact_mod_cast hn
  have h7 : (1 + uu K) ^ (3 * n) ≤ 1 + 1 / 2 ^ 30 := by
    refine h6.trans ?_
    push_cast
    have := mul_le_mul_of_nonneg_right hnK hu
    have : (2 : K) ^ 11 * uu K ≤ 1 / 2 ^ 40 := by unfold uu; norm_num
    linarith
  have h8 : ar.fl (ar.fl (ar.sum (Ms i).absList + errors i) / s) ≤ (1 + 1 / 2 ^ 30) * T := by
    refine h4.trans ?_
    calc _ ≤ (1 + uu K) * ((1 + 1 / 2 ^ 31) * T) := mul_le_mul_of_nonneg_left h3 (by linarith)
      _ = ((1 + uu K) * (1 + 1 / 2 ^ 31)) * T := by ring
      _ ≤ _ := mul_le_mul_of_nonneg_right (by unfold uu; norm_num) hT0
  have hnT : (0 : K) ≤ n * T := by positivity
  have h9 : (linSysF ar Ms errors false).totalErrs i ≤ 2 * (2 * n + 1) * T := by
    refine h5.trans ?_
    calc _ ≤ (1 + 1 / 2 ^ 30) * ((1 + 1 / 2 ^ 30) * T + 2 * n * T) := by
          refine mul_le_mul h7 (by linarith) (add_nonneg (fl_nonneg hfl (div_nonneg h2 hsp.le)) (by positivity)) (by positivity)
      _ ≤ _ := by linarith
  rw [← hsd]
  refine (mul_le_mul_of_nonneg_right h9 hsp.le).trans (le_of_eq ?_)
  rw [hT]
  field_simp

omit hF in
include hfl hs hM he hN hn in
/-- The computed residual masses. -/
theorem linSysF_err_close (i : Fin n) : |(linSysF ar Ms errors false).err i - (linSys Ms errors false).err i| ≤
    1 / 2 ^ 30 * (((Ms i).absSum + errors i) / rowScale (linCoef (Ms i))) := by
  have hS : 0 ≤ (Ms i).absSum := sum_nonneg fun _ _ => abs_nonneg _
  have hu := uu_nonneg (K := K)
  have hu1 : uu K ≤ 1 / 2 ^ 53 := le_rfl
  have hsp := rowScale_pos (linCoef (Ms i))
  have hei := he i
  have h0 := const_lin_le (Ms i) (hM i)
  have hc0 := abs_nonneg (Ms i).const
  have hL0 : 0 ≤ ∑ j, |linCoef (Ms i) j| := sum_nonneg fun _ _ => abs_nonneg _
  -- the sum of the linear coefficients
  have hls : |ar.sum (List.ofFn fun j => |linCoef (Ms i) j|) - (∑ j, |linCoef (Ms i) j|)| ≤ 1 / 2 ^ 41 * ∑ j, |linCoef (Ms i) j| := by
    have hne : (List.ofFn fun j => |linCoef (Ms i) j|) ≠ [] := by
      intro h
      have := congrArg List.length h
      simp at this
      have := i.2
      omega
    have h0 : ∀ x ∈ (List.ofFn fun j => |linCoef (Ms i) j|), 0 ≤ x := by
      intro x hx
      rw [List.mem_ofFn] at hx
      obtain ⟨j, rfl⟩ := hx
      exact abs_nonneg _
    obtain ⟨t, ht, hv⟩ := hs.tree _ hne
    have h0' : ∀ x ∈ t.leaves, 0 ≤ x := fun x hx => h0 x (ht.mem_iff.1 hx)
    obtain ⟨g1, -⟩ := t.val_ge hfl (by norm_num) h0'
    obtain ⟨g2, -⟩ := t.val_le hfl h0'
    rw [ht.length_eq, ht.sum_eq, List.length_ofFn, List.sum_ofFn, hv] at g1 g2
    have hnK : (n : K) ≤ 2 ^ 11 := by exact_mod_cast hn
    have hb := one_add_mul_le_pow (a := -(1 / 2 ^ 53 : K)) (by norm_num) n
    rw [← sub_eq_add_neg] at hb
    have hb2 := uu_pow_le (K := K) n (hn.trans (by norm_num))
    have e1 : (n : K) * (1 / 2 ^ 53) ≤ 1 / 2 ^ 42 := (mul_le_mul_of_nonneg_right hnK (by norm_num)).trans (by norm_num)
    have e2 : (n : K) * uu K ≤ 1 / 2 ^ 42 := e1
    have k1 : (1 - 1 / 2 ^ 41) * (∑ j, |linCoef (Ms i) j|) ≤ ar.sum (List.ofFn fun j => |linCoef (Ms i) j|) :=
      le_trans (mul_le_mul_of_nonneg_right (by linarith) hL0) g1
    have k2 : ar.sum (List.ofFn fun j => |linCoef (Ms i) j|) ≤ (1 + 1 / 2 ^ 41) * (∑ j, |linCoef (Ms i) j|) :=
      le_trans g2 (mul_le_mul_of_nonneg_right (by linarith) hL0)
    rw [abs_le]
    constructor <;> linarith
  have ha := totalF_close Ms hM errors he hfl hs hN i
  have e : (linSysF ar Ms errors false).err i = ar.fl (ar.fl (ar.fl (ar.fl (ar.sum (Ms i).absList + errors i) - |(Ms i).const|) -
      ar.sum (List.ofFn fun j => |linCoef (Ms i) j|)) / rowScale (linCoef (Ms i))) := by
    rw [← rowScale_eq Ms hM i, ← ravel_zero]
    have : (fun j => |linCoef (Ms i) j|) = fun j : Fin n => |(getLinearTerms (Ms i)).getD j 0| := by
      funext j
      rw [getLinearTerms_getD (Ms i) (hM i) j]
    rw [this]
    rfl
  rw [e, linSys_err_eq Ms hM errors i]
  generalize rowScale (linCoef (Ms i)) = s at hsp
  generalize ar.sum (List.ofFn fun j => |linCoef (Ms i) j|) = l at hls
  generalize ar.fl (ar.sum (Ms i).absList + errors i) = a at ha
  generalize ∑ j, |linCoef (Ms i) j| = L at h0 hL0 hls
  generalize |(Ms i).const| = c at h0 hc0
  obtain ⟨m, hm⟩ : ∃ m, m = (Ms i).absSum + errors i := ⟨_, rfl⟩
  rw [← hm] at ha ⊢
  have hm0 : 0 ≤ m := by linarith
  have hcm : c ≤ m := by linarith
  have hLm : L ≤ m := by linarith
  have hum : uu K * m ≤ 1 / 2 ^ 53 * m := mul_le_mul_of_nonneg_right hu1 hm0
  have ha' : |a - m| ≤ 1 / 2 ^ 31 * m - 1 / 2 ^ 33 * m := by
    refine ha.trans ?_
    have : (1 / 2 ^ 32 + 2 * uu K) * m = 1 / 2 ^ 32 * m + 2 * (uu K * m) := by ring
    rw [this]
    linarith
  rw [abs_le] at ha' hls
  have h1 := flu hfl (a - c)
  have h1' : |a - c| ≤ 2 * m := by rw [abs_le]; constructor <;> linarith [ha'.1, ha'.2]
  have h1'' := h1.trans (mul_le_mul_of_nonneg_left h1' hu)
  generalize ar.fl (a - c) = b at h1''
  rw [abs_le] at h1''
  have h2 := flu hfl (b - l)
  have h2' : |b - l| ≤ 4 * m := by rw [abs_le]; constructor <;> linarith [ha'.1, ha'.2, h1''.1, h1''.2, hls.1, hls.2]
  have h2'' := h2.trans (mul_le_mul_of_nonneg_left h2' hu)
  generalize ar.fl (b - l) = d at h2''
  rw [abs_le] at h2''
  have hd : |d - (m - c - L)| ≤ 1 / 2 ^ 31 * m := by
    rw [abs_le]; constructor <;> linarith [ha'.1, ha'.2, h1''.1, h1''.2, hls.1, hls.2, h2''.1, h2''.2]
  have hd2 : |d| ≤ 4 * m := by
    rw [abs_le] at hd ⊢; constructor <;> linarith [hd.1, hd.2]
  have h3 := flu hfl (d / s)
  rw [abs_div, abs_of_pos hsp] at h3
  have h4 : |d / s - (m - c - L) / s| ≤ 1 / 2 ^ 31 * (m / s) := by
    rw [← sub_div, abs_div, abs_of_pos hsp, ← mul_div_assoc]
    exact div_le_div_of_nonneg_right hd hsp.le
  have h5 : |d| / s ≤ 4 * (m / s) := by
    rw [← mul_div_assoc]
    exact div_le_div_of_nonneg_right hd2 hsp.le
  have h6 := mul_le_mul_of_nonneg_left h5 hu
  have hms : 0 ≤ m / s := by positivity
  have h7 : uu K * (m / s) ≤ 1 / 2 ^ 53 * (m / s) := mul_le_mul_of_nonneg_right hu1 hms
  have h8 := abs_add_le (ar.fl (d / s) - d / s) (d / s - (m - c - L) / s)
  rw [sub_add_sub_cancel] at h8
  linarith

end Sizes

end YRoots
