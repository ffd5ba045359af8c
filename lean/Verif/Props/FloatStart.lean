import Verif.Proofs.FloatStart
import Verif.Props.FloatBounding
import Verif.Props.FloatConstant
import Verif.Props.FloatQuadratic
import Verif.Props.FloatQuadratic3D

/-!
# C108: errors with a relative slack protect the roots from rounding

`solvePolyRecursive` tests a cube in turn with the constant check, the quadratic checks, and, after trimming, the linear bounds together with the
inverse matrix.  By `C99_false`, `C101_false`, `C106_false` and `C107_false` rounding makes these tests throw out cubes with a zero.  Proved here:
none of them does, if the errors given to the function exceed the true ones by a small multiple of the sums of the absolute values of the
coefficients.
-/

set_option linter.unusedSectionVars false

namespace YRoots

open Finset

variable {n : ℕ} {K : Type*} [Field K] [LinearOrder K] [IsStrictOrderedRing K] [FloorRing K]

section

variable {ar : FloatArith K} (hfl : RoundsToNearest 53 ar.fl) (hs : ar.Sums)

include hfl hs

/-- Under the hypotheses of `C108_bounding_partial` the zero lies between the bounds. -/
theorem bounding_kept (Ms : Fin n → Tensor n K) (hM : ∀ i, (Ms i).Nonempty) (hFl : ∀ i, ∀ k ∈ (Ms i).idx, IsFloat 53 ((Ms i).coef k))
    (hN : ∀ i, ∏ j, (Ms i).shape j ≤ 2 ^ 20) (hn : ∀ i, (∏ j, (Ms i).shape j + n + 10) * (2 * n + 1) ≤ 2 ^ 23)
    (errors : Fin n → K) (he : ∀ i, 0 ≤ errors i) (svd : SvdF n K) {ρ γ κ : K} (hsvd : svd.Accurate ρ γ) (hρ0 : 0 ≤ ρ) (hρ : ρ ≤ 1 / 2) (hγ0 : 0 ≤ γ)
    (hγ : γ ≤ 1) (hκ : 1 / 2 ^ 28 + 4 * ρ + 3 * γ ≤ κ) (F : Fin n → (Fin n → K) → K)
    (hF : ∀ i x, InCube x → |F i x - (Ms i).eval x| ≤ errors i - κ * ((Ms i).absSum + errors i))
    (x : Fin n → K) (hx : InCube x) (hroot : ∀ i, F i x = 0) : 
    let r := rawBoundsF ar svd (linSysF ar Ms errors false) (linSysF ar Ms errors false).err
      (linearCheck1F ar.fl (linSysF ar Ms errors false).totalErrs (linSysF ar Ms errors false).A (linSysF ar Ms errors false).consts).1
      (linearCheck1F ar.fl (linSysF ar Ms errors false).totalErrs (linSysF ar Ms errors false).A (linSysF ar Ms errors false).consts).2
    ∀ j, r.1 j ≤ (x j : WithBot K) ∧ (x j : WithTop K) ≤ r.2 j := by
  have hu : uu K = 1 / 2 ^ 53 := rfl
  have hκ0 : 1 / 2 ^ 28 ≤ κ := by linarith
  have hS : ∀ i, 0 ≤ (Ms i).absSum + errors i := fun i => add_nonneg (sum_nonneg fun _ _ => abs_nonneg _) (he i)
  have hn' : n ≤ 2 ^ 11 := by
    rcases Nat.eq_zero_or_pos n with h | h
    · omega
    · have := hn ⟨0, h⟩
      by_contra hlt
      push_neg at hlt
      have h2 : (n + 10) * (2 * n + 1) ≤ 2 ^ 23 := le_trans (Nat.mul_le_mul_right _ (by omega)) this
      nlinarith
  have hslack : ∀ i, ((∏ j, (Ms i).shape j : ℕ) + n + 10) / 2 ^ 52 * ((linSysF ar Ms errors false).totalErrs i * rowScale (linCoef (Ms i))) ≤
      errors i - (errors i - κ * ((Ms i).absSum + errors i)) := by
    intro i
    have h1 := linSysF_total_le Ms hM errors he hfl hs hFl hN hn' i
    have h2 : (((∏ j, (Ms i).shape j : ℕ) : K) + n + 10) * (2 * n + 1) ≤ 2 ^ 23 := by exact_mod_cast hn i
    have h3 : (0 : K) ≤ (((∏ j, (Ms i).shape j : ℕ) : K) + n + 10) / 2 ^ 52 := by positivity
    calc _ ≤ (((∏ j, (Ms i).shape j : ℕ) : K) + n + 10) / 2 ^ 52 * (2 * (2 * n + 1) * ((Ms i).absSum + errors i)) :=
          mul_le_mul_of_nonneg_left h1 h3
      _ = ((((∏ j, (Ms i).shape j : ℕ) : K) + n + 10) * (2 * n + 1)) * (1 / 2 ^ 51 * ((Ms i).absSum + errors i)) := by ring
      _ ≤ 2 ^ 23 * (1 / 2 ^ 51 * ((Ms i).absSum + errors i)) := mul_le_mul_of_nonneg_right h2 (mul_nonneg (by norm_num) (hS i))
      _ = 1 / 2 ^ 28 * ((Ms i).absSum + errors i) := by ring
      _ ≤ κ * ((Ms i).absSum + errors i) := mul_le_mul_of_nonneg_right hκ0 (hS i)
      _ = _ := by ring
  refine raw_bounds_kept hfl hs Ms hM hFl (fun i => ?_) errors _ he F hF hslack x hx hroot svd (fun hwc j => ?_)
  · have := hN i
    omega
  obtain ⟨B, hB, hC, hW⟩ := hsvd _ hwc
  obtain ⟨e', he'⟩ : ∃ e' : Fin n → K, e' = fun i => errors i - κ * ((Ms i).absSum + errors i) := ⟨_, rfl⟩
  have hres : ∀ i, |(Ms i).const + ∑ j, linCoef (Ms i) j * x j| ≤ (Ms i).absSum + e' i - |(Ms i).const| - ∑ j, |linCoef (Ms i) j| := by
    intro i
    have h1 := eval_linear_bound (Ms i) (hM i) hx
    have h2 := hF i x hx
    rw [hroot i] at h2
    have h3 := abs_add_le (0 - (Ms i).eval x) ((Ms i).eval x - ((Ms i).const + ∑ j, linCoef (Ms i) j * x j))
    rw [sub_add_sub_cancel, zero_sub, abs_neg] at h3
    rw [he']
    simp only
    linarith
  obtain ⟨hy, hrow, -⟩ := linSys_holds Ms e' hM x hx hres
  have eA : (linSysF ar Ms errors false).A = (linSys Ms e' false).A := linSysF_A hfl Ms hM hFl errors
  have eC : (linSysF ar Ms errors false).consts = (linSys Ms e' false).consts := linSysF_consts hfl Ms hM hFl errors
  have eS : (linSysF ar Ms errors false).colScaler = (linSys Ms e' false).colScaler := linSysF_colScaler hfl Ms hM hFl errors
  simp only [← eA, ← eC, ← eS] at hy hrow
  have hT : ∀ i, 0 ≤ ((Ms i).absSum + errors i) / rowScale (linCoef (Ms i)) := fun i => div_nonneg (hS i) (rowScale_pos _).le
  have hclose := linSysF_err_close Ms hM errors he hfl hs hN hn'
  have herr : ∀ i, (linSys Ms e' false).err i = (linSys Ms errors false).err i - κ * (((Ms i).absSum + errors i) / rowScale (linCoef (Ms i))) := by
    intro i
    rw [linSys_err_eq Ms hM e' i, linSys_err_eq Ms hM errors i, he', ← mul_div_assoc, ← sub_div]
    congr 1
    ring
  refine inverse_encloses hfl (A := (linSysF ar Ms errors false).A) (B := B) (κ := κ - 1 / 2 ^ 30) (ρ := ρ) (γ := γ)
    (T := fun i => ((Ms i).absSum + errors i) / rowScale (linCoef (Ms i))) j hy hT (fun i => ?_) ?_ (fun i => ?_) (fun i => ?_) (fun i => ?_) hρ hγ0 hγ ?_
    (hB j) (hC _ j) (hW _ j)
  · refine (hrow i).trans ?_
    rw [herr i, sub_mul]
    linarith [(abs_le.1 (hclose i)).1]
  · linarith
  · rw [linSysF_consts hfl Ms hM hFl errors, linSys_consts_eq Ms hM errors i, abs_div, abs_of_pos (rowScale_pos (linCoef (Ms i)))]
    apply div_le_div_of_nonneg_right _ (rowScale_pos _).le
    have h1 := const_lin_le (Ms i) (hM i)
    have h2 : 0 ≤ ∑ j, |linCoef (Ms i) j| := sum_nonneg fun _ _ => abs_nonneg _
    linarith [he i]
  · have h1 := (abs_le.1 (hclose i)).2
    have h2 : (linSys Ms errors false).err i ≤ ((Ms i).absSum + errors i) / rowScale (linCoef (Ms i)) := by
      rw [linSys_err_eq Ms hM errors i]
      apply div_le_div_of_nonneg_right _ (rowScale_pos _).le
      have h2 : 0 ≤ ∑ j, |linCoef (Ms i) j| := sum_nonneg fun _ _ => abs_nonneg _
      linarith [abs_nonneg (Ms i).const]
    linarith [hT i]
  · rw [linSysF_A hfl Ms hM hFl errors, linSys_A_eq Ms hM errors i j, abs_mul,
      abs_of_nonneg (a := (linSys Ms errors false).colScaler j) (by linarith [linSys_colScaler_ge Ms errors false j])]
    exact scaled_le Ms hM errors he i j
  · rw [hu]
    linarith

/-- **C108, part: the bounding step.**  Like `C99_kept_partial`, but the slack is given in terms of the coefficients, and the interval from the
inverse matrix is covered. -/
theorem C108_bounding_partial (Ms : Fin n → Tensor n K) (hM : ∀ i, (Ms i).Nonempty) (hFl : ∀ i, ∀ k ∈ (Ms i).idx, IsFloat 53 ((Ms i).coef k))
    (hN : ∀ i, ∏ j, (Ms i).shape j ≤ 2 ^ 20) (hn : ∀ i, (∏ j, (Ms i).shape j + n + 10) * (2 * n + 1) ≤ 2 ^ 23)
    (errors : Fin n → K) (he : ∀ i, 0 ≤ errors i) (svd : SvdF n K) {ρ γ κ : K} (hsvd : svd.Accurate ρ γ) (hρ0 : 0 ≤ ρ) (hρ : ρ ≤ 1 / 2) (hγ0 : 0 ≤ γ)
    (hγ : γ ≤ 1) (hκ : 1 / 2 ^ 28 + 4 * ρ + 3 * γ ≤ κ) (F : Fin n → (Fin n → K) → K)
    (hF : ∀ i x, InCube x → |F i x - (Ms i).eval x| ≤ errors i - κ * ((Ms i).absSum + errors i))
    (x : Fin n → K) (hx : InCube x) (hroot : ∀ i, F i x = 0) : throwOutF ar svd (linSysF ar Ms errors false) = false :=
  have h := bounding_kept hfl hs Ms hM hFl hN hn errors he svd hsvd hρ0 hρ hγ0 hγ hκ F hF x hx hroot
  throwOutOf_eq_false hx (fun j => (h j).1) fun j => (h j).2

/-- Trimming, with what it does to the approximation. -/
theorem trim_slack (Ms : Fin n → Tensor n K) (hM : ∀ i, (Ms i).Nonempty) (hFl : ∀ i, ∀ k ∈ (Ms i).idx, IsFloat 53 ((Ms i).coef k))
    (hn : ∀ i, (∏ j, (Ms i).shape j + n + 10) * (2 * n + 1) ≤ 2 ^ 23)
    (errors : Fin n → K) (he : ∀ i, 0 ≤ errors i) (i : Fin n) :
    let tr := trimMsF ar Ms errors
    (tr.1 i).coef = (Ms i).coef ∧ (∀ j, (tr.1 i).shape j ≤ (Ms i).shape j) ∧ (tr.1 i).Nonempty ∧ 0 ≤ tr.2 i ∧ tr.2 i ≤ 101 / 100 * errors i ∧
      ∀ x, InCube x → errors i + |(Ms i).eval x - (tr.1 i).eval x| ≤ (1 + 1 / 2 ^ 28) * tr.2 i := by
  intro tr
  obtain ⟨h1, h2, h3, h4⟩ := C102_trim_partial hfl hs Ms hM hFl errors he i
  have hsh : ∀ j, (Ms i).shape j ≤ ∏ j, (Ms i).shape j := fun j =>
    Nat.le_of_dvd (prod_pos fun j _ => hM i j) (dvd_prod_of_mem _ (mem_univ j))
  have hsum : ∑ j, (Ms i).shape j ≤ n * ∏ j, (Ms i).shape j := by
    refine (sum_le_card_nsmul univ _ _ fun j _ => hsh j).trans ?_
    simp
  have hK : ∑ j, (Ms i).shape j + ∏ j, (Ms i).shape j + 3 ≤ 2 ^ 23 := by
    have := hn i
    have e : (∏ j, (Ms i).shape j + n + 10) * (2 * n + 1) = 2 * (n * ∏ j, (Ms i).shape j) + ∏ j, (Ms i).shape j + (n + 10) * (2 * n + 1) := by ring
    have h0 : 10 ≤ (n + 10) * (2 * n + 1) := by nlinarith
    omega
  generalize hKd : ∑ j, (Ms i).shape j + ∏ j, (Ms i).shape j = k at h3 hK
  have hkK : (k : K) ≤ 2 ^ 23 := by exact_mod_cast (by omega : k ≤ 2 ^ 23)
  have hpow : 1 - 1 / 2 ^ 30 ≤ (1 - 1 / 2 ^ 53 : K) ^ k := by
    have hb := one_add_mul_le_pow (a := -(1 / 2 ^ 53 : K)) (by norm_num) k
    rw [← sub_eq_add_neg] at hb
    have := mul_le_mul_of_nonneg_right hkK (by norm_num : (0 : K) ≤ 1 / 2 ^ 53)
    linarith
  have hmain : ∀ x, InCube x → errors i + |(Ms i).eval x - (tr.1 i).eval x| ≤ (1 + 1 / 2 ^ 28) * tr.2 i := by
    intro x hx
    have := h3 (fun x => if (tr.1 i).eval x ≤ (Ms i).eval x then (Ms i).eval x + errors i else (Ms i).eval x - errors i) (fun y _ => ?_) x hx
    · have e : |(if (tr.1 i).eval x ≤ (Ms i).eval x then (Ms i).eval x + errors i else (Ms i).eval x - errors i) - (tr.1 i).eval x| =
          errors i + |(Ms i).eval x - (tr.1 i).eval x| := by
        split
        · rename_i h
          rw [abs_of_nonneg (by linarith [he i]), abs_of_nonneg (by linarith)]
          ring
        · rename_i h
          rw [abs_of_nonpos (by linarith [he i]), abs_of_nonpos (by linarith)]
          ring
      change _ * |(if (tr.1 i).eval x ≤ (Ms i).eval x then (Ms i).eval x + errors i else (Ms i).eval x - errors i) - (tr.1 i).eval x| ≤ tr.2 i at this
      rw [e] at this
      have h0 : 0 ≤ errors i + |(Ms i).eval x - (tr.1 i).eval x| := add_nonneg (he i) (abs_nonneg _)
      have h5 := (mul_le_mul_of_nonneg_right hpow h0).trans this
      generalize errors i + |(Ms i).eval x - (tr.1 i).eval x| = v at h5 h0
      linarith
    · split
      · rw [add_sub_cancel_left, abs_of_nonneg (he i)]
      · rw [sub_sub_cancel_left, abs_neg, abs_of_nonneg (he i)]
  refine ⟨h1, fun j => (h2 j).1, fun j => ?_, ?_, ?_, hmain⟩
  · rcases (h2 j).2 with h | h
    · exact h ▸ hM i j
    · exact lt_of_lt_of_le (by norm_num) h
  · have := hmain (fun _ => 0) (fun _ => by simp)
    have h0 : 0 ≤ errors i + |(Ms i).eval (fun _ => 0) - (tr.1 i).eval (fun _ => 0)| := add_nonneg (he i) (abs_nonneg _)
    linarith
  · refine h4.trans ?_
    have h5 := uu_pow_le (K := K) (∑ j, (Ms i).shape j + 3) (by omega)
    have h6 : ((∑ j, (Ms i).shape j + 3 : ℕ) : K) ≤ 2 ^ 23 := by exact_mod_cast (by omega : ∑ j, (Ms i).shape j + 3 ≤ 2 ^ 23)
    have h7 : (1 + 1 / 2 ^ 53 : K) ^ (∑ j, (Ms i).shape j + 3) ≤ 1 + 1 / 2 ^ 20 := by
      refine h5.trans ?_
      have := mul_le_mul_of_nonneg_right h6 (by norm_num : (0 : K) ≤ 1 / 2 ^ 53)
      unfold uu
      linarith
    refine (mul_le_mul_of_nonneg_right h7 (mul_nonneg (by norm_num) (he i))).trans ?_
    have := he i
    linarith

/-- **C108, part: the start of `solvePolyRecursive`.**  Any rounding to nearest, sums in any order, linear algebra with errors `ρ` and `γ`, and
quadratic checks that are only asked not to fire in the presence of a zero.  If the errors exceed the true ones by
`2 ^ -26 + 5 ρ + 4 γ` times the sums of the absolute values (and the errors), a cube with a common zero is not thrown out. -/
theorem C108_kept_partial (Ms : Fin n → Tensor n K) (hM : ∀ i, (Ms i).Nonempty) (hFl : ∀ i, ∀ k ∈ (Ms i).idx, IsFloat 53 ((Ms i).coef k))
    (hN : ∀ i, ∏ j, (Ms i).shape j ≤ 2 ^ 20) (hn : ∀ i, (∏ j, (Ms i).shape j + n + 10) * (2 * n + 1) ≤ 2 ^ 23)
    (errors : Fin n → K) (he : ∀ i, 0 ≤ errors i) (svd : SvdF n K) {ρ γ τ : K} (hsvd : svd.Accurate ρ γ) (hρ0 : 0 ≤ ρ) (hρ : ρ ≤ 1 / 2) (hγ0 : 0 ≤ γ)
    (hγ : γ ≤ 1) (hτ : 1 / 2 ^ 26 + 5 * ρ + 4 * γ ≤ τ) (F : Fin n → (Fin n → K) → K)
    (hF : ∀ i x, InCube x → |F i x - (Ms i).eval x| < errors i - τ * ((Ms i).absSum + errors i))
    (quad : (Fin n → Tensor n K) → (Fin n → K) → Bool) (hquad : quad Ms errors = true → ∃ i, ∀ x, InCube x → F i x ≠ 0)
    (x : Fin n → K) (hx : InCube x) (hroot : ∀ i, F i x = 0) : startDiscards ar svd quad (trimMsF ar) Ms errors = false := by
  have hS : ∀ i, 0 ≤ (Ms i).absSum := fun i => sum_nonneg fun _ _ => abs_nonneg _
  have hτ0 : 1 / 2 ^ 26 ≤ τ := by linarith
  unfold startDiscards
  rw [Bool.or_eq_false_iff, Bool.or_eq_false_iff]
  refine ⟨⟨?_, ?_⟩, ?_⟩
  · rw [Bool.eq_false_iff]
    intro h
    obtain ⟨i, -, h2⟩ := C101_slack_partial hfl hs Ms hM hFl errors he h
    refine h2 (F i) (fun y hy => (hF i y hy).le.trans ?_) x hx (hroot i)
    have h3 : ((∏ j, (Ms i).shape j : ℕ) : K) ≤ 2 ^ 20 := by exact_mod_cast hN i
    have h4 : (((∏ j, (Ms i).shape j : ℕ) : K) + 2) * (Ms i).absSum ≤ (2 ^ 20 + 2) * (Ms i).absSum :=
      mul_le_mul_of_nonneg_right (by linarith) (hS i)
    have h5 := mul_le_mul_of_nonneg_right hτ0 (add_nonneg (hS i) (he i))
    have h6 : ((((∏ j, (Ms i).shape j : ℕ) : K) + 2) * (Ms i).absSum + 2 * errors i) / 2 ^ 53 ≤ ((2 ^ 20 + 2) * (Ms i).absSum + 2 * errors i) / 2 ^ 53 :=
      div_le_div_of_nonneg_right (by linarith) (by norm_num)
    have h7 := hS i
    have h8 := he i
    linarith
  · rw [Bool.eq_false_iff]
    intro h
    obtain ⟨i, hi⟩ := hquad h
    exact hi x hx (hroot i)
  · have htr := trim_slack hfl hs Ms hM hFl hn errors he
    simp only at htr
    generalize trimMsF ar Ms errors = tr at htr
    show throwOutF ar svd (linSysF ar tr.1 tr.2 false) = false
    have hprod : ∀ i, ∏ j, (tr.1 i).shape j ≤ ∏ j, (Ms i).shape j := fun i => prod_le_prod' fun j _ => (htr i).2.1 j
    have hsub : ∀ i, (tr.1 i).idx ⊆ (Ms i).idx := by
      intro i k hk
      rw [mem_idx_iff] at hk ⊢
      exact fun j => (hk j).trans_le ((htr i).2.1 j)
    have habs : ∀ i, (tr.1 i).absSum ≤ (Ms i).absSum := by
      intro i
      unfold Tensor.absSum
      rw [(htr i).1]
      exact sum_le_sum_of_subset_of_nonneg (hsub i) fun _ _ _ => abs_nonneg _
    refine C108_bounding_partial hfl hs tr.1 (fun i => (htr i).2.2.1) (fun i k hk => ?_) (fun i => (hprod i).trans (hN i))
      (fun i => le_trans (Nat.mul_le_mul_right _ (by have := hprod i; omega)) (hn i)) tr.2 (fun i => (htr i).2.2.2.1) svd hsvd hρ0 hρ hγ0 hγ
      (κ := 1 / 2 ^ 28 + 4 * ρ + 3 * γ) le_rfl F (fun i y hy => ?_) x hx hroot
    · rw [(htr i).1]
      exact hFl i k (hsub i hk)
    · obtain ⟨-, -, -, g1, g2, g3⟩ := htr i
      have g4 := g3 y hy
      have g5 := hF i y hy
      have g6 := abs_add_le (F i y - (Ms i).eval y) ((Ms i).eval y - (tr.1 i).eval y)
      rw [sub_add_sub_cancel] at g6
      have g7 := habs i
      have g8 := hS i
      have g9 := he i
      have g10 : (1 / 2 ^ 28 + 4 * ρ + 3 * γ) * ((tr.1 i).absSum + tr.2 i) ≤ (1 / 2 ^ 28 + 4 * ρ + 3 * γ) * (101 / 100 * ((Ms i).absSum + errors i)) :=
        mul_le_mul_of_nonneg_left (by linarith) (by positivity)
      have g11 : (1 / 2 ^ 28 + 4 * ρ + 3 * γ) * (101 / 100 * ((Ms i).absSum + errors i)) + 1 / 2 ^ 27 * ((Ms i).absSum + errors i) ≤
          τ * ((Ms i).absSum + errors i) := by
        have : ((1 / 2 ^ 28 + 4 * ρ + 3 * γ) * (101 / 100) + 1 / 2 ^ 27) * ((Ms i).absSum + errors i) ≤ τ * ((Ms i).absSum + errors i) :=
          mul_le_mul_of_nonneg_right (by linarith) (by linarith)
        linarith
      linarith

/-- **C108, part: two variables**, with the quadratic check of the code. -/
theorem C108_two_partial (Ms : Fin 2 → Tensor 2 K) (hM : ∀ i, (Ms i).Nonempty) (hFl : ∀ i, ∀ k ∈ (Ms i).idx, IsFloat 53 ((Ms i).coef k))
    (hN : ∀ i, ∏ j, (Ms i).shape j ≤ 2 ^ 20) (errors : Fin 2 → K) (he : ∀ i, 0 ≤ errors i) (svd : SvdF 2 K) {ρ γ τ : K} (hsvd : svd.Accurate ρ γ)
    (hρ0 : 0 ≤ ρ) (hρ : ρ ≤ 1 / 2) (hγ0 : 0 ≤ γ) (hγ : γ ≤ 1) (hτ : 1 / 2 ^ 26 + 5 * ρ + 4 * γ ≤ τ) (F : Fin 2 → (Fin 2 → K) → K)
    (hF : ∀ i x, InCube x → |F i x - (Ms i).eval x| < errors i - τ * ((Ms i).absSum + errors i))
    (x : Fin 2 → K) (hx : InCube x) (hroot : ∀ i, F i x = 0) :
    startDiscards ar svd (quadraticDiscards2DF ar) (trimMsF ar) Ms errors = false := by
  refine C108_kept_partial hfl hs Ms hM hFl hN (fun i => ?_) errors he svd hsvd hρ0 hρ hγ0 hγ hτ F hF _ (fun h => ?_) x hx hroot
  · have := hN i
    omega
  · unfold quadraticDiscards2DF at h
    rw [decide_eq_true_eq] at h
    obtain ⟨i, hi⟩ := h
    refine ⟨i, C106_slack_partial hfl hs (Ms i) (hM i) (hFl i) (hN i) (errors i) (he i) hi (F i) fun y hy => (hF i y hy).trans_le ?_⟩
    have h0 : 0 ≤ (Ms i).absSum + errors i := add_nonneg (sum_nonneg fun _ _ => abs_nonneg _) (he i)
    have := mul_le_mul_of_nonneg_right (by linarith : 1 / 2 ^ 27 ≤ τ) h0
    linarith

/-- **C108, part: three variables**, with the quadratic check of the code, which needs more slack. -/
theorem C108_three_partial (Ms : Fin 3 → Tensor 3 K) (hM : ∀ i, (Ms i).Nonempty) (hFl : ∀ i, ∀ k ∈ (Ms i).idx, IsFloat 53 ((Ms i).coef k))
    (hN : ∀ i, ∏ j, (Ms i).shape j ≤ 2 ^ 20) (errors : Fin 3 → K) (he : ∀ i, 0 ≤ errors i) (svd : SvdF 3 K) {ρ γ τ : K} (hsvd : svd.Accurate ρ γ)
    (hρ0 : 0 ≤ ρ) (hρ : ρ ≤ 1 / 2) (hγ0 : 0 ≤ γ) (hγ : γ ≤ 1) (hτ : 1 / 2 ^ 26 + 5 * ρ + 4 * γ ≤ τ) (hτ' : 1 / 2 ^ 13 ≤ τ)
    (F : Fin 3 → (Fin 3 → K) → K) (hF : ∀ i x, InCube x → |F i x - (Ms i).eval x| < errors i - τ * ((Ms i).absSum + errors i))
    (x : Fin 3 → K) (hx : InCube x) (hroot : ∀ i, F i x = 0) :
    startDiscards ar svd (quadraticDiscards3DF ar) (trimMsF ar) Ms errors = false := by
  refine C108_kept_partial hfl hs Ms hM hFl hN (fun i => ?_) errors he svd hsvd hρ0 hρ hγ0 hγ hτ F hF _ (fun h => ?_) x hx hroot
  · have := hN i
    omega
  · unfold quadraticDiscards3DF at h
    rw [decide_eq_true_eq] at h
    obtain ⟨i, hi⟩ := h
    refine ⟨i, C107_slack_partial hfl hs (Ms i) (hM i) (hFl i) (hN i) (errors i) (he i) hi (F i) fun y hy => (hF i y hy).trans_le ?_⟩
    have h0 : 0 ≤ (Ms i).absSum + errors i := add_nonneg (sum_nonneg fun _ _ => abs_nonneg _) (he i)
    have := mul_le_mul_of_nonneg_right hτ' h0
    linarith

end

/-! ### Examples -/

/-- Exact linear algebra in two variables. -/
def exSvdF2 : SvdF 2 ℚ :=
  let B := fun A : Matrix (Fin 2) (Fin 2) ℚ => (Matrix.of ![![A 1 1 / (A 0 0 * A 1 1 - A 0 1 * A 1 0), -A 0 1 / (A 0 0 * A 1 1 - A 0 1 * A 1 0)],
    ![-A 1 0 / (A 0 0 * A 1 1 - A 0 1 * A 1 0), A 0 0 / (A 0 0 * A 1 1 - A 0 1 * A 1 0)]] : Matrix (Fin 2) (Fin 2) ℚ)
  ⟨fun _ => 1, fun A => decide (A 0 0 * A 1 1 - A 0 1 * A 1 0 ≠ 0), fun A c j => -∑ i, B A j i * c i, fun A e j => ∑ i, |B A j i * e i|⟩

theorem exSvdF2_accurate : exSvdF2.Accurate 0 0 := by
  intro A h
  have h : A 0 0 * A 1 1 - A 0 1 * A 1 0 ≠ 0 := of_decide_eq_true h
  refine ⟨Matrix.of ![![A 1 1 / (A 0 0 * A 1 1 - A 0 1 * A 1 0), -A 0 1 / (A 0 0 * A 1 1 - A 0 1 * A 1 0)],
    ![-A 1 0 / (A 0 0 * A 1 1 - A 0 1 * A 1 0), A 0 0 / (A 0 0 * A 1 1 - A 0 1 * A 1 0)]], fun j => le_of_eq ?_, fun c j => ?_, fun e j => ?_⟩
  · refine sum_eq_zero fun k _ => ?_
    rw [abs_eq_zero, sub_eq_zero, Fin.sum_univ_two]
    obtain ⟨d, hd⟩ : ∃ d, d = A 0 0 * A 1 1 - A 0 1 * A 1 0 := ⟨_, rfl⟩
    rw [← hd] at h ⊢
    fin_cases j <;> fin_cases k <;> simp <;> field_simp <;> rw [hd] <;> ring
  · simp only [exSvdF2]
    rw [neg_add_cancel, abs_zero, zero_mul]
  · simp only [exSvdF2]
    rw [sub_self, abs_zero, zero_mul]

/-- The system of `C99_false` with errors of `2 ^ -10` instead of `2 ^ -52`: the test of line 694 passes, and the cube is kept. -/
example : exSvdF2.wellConditioned (linSysF exAr exFM (fun _ => 1 / 2 ^ 10) false).A = true ∧
    startDiscards exAr exSvdF2 (quadraticDiscards2DF exAr) (trimMsF exAr) exFM (fun _ => 1 / 2 ^ 10) = false := by
  refine ⟨by decide +kernel, C108_two_partial (ar := exAr) (roundFloat_nearest (by norm_num)) (leftSum_sums _) exFM (fun i => (exFM_affine i).nonempty)
    (fun i k _ => exFM_float i k) (by intro i; fin_cases i <;> simp [exFM, Fin.prod_univ_two]) _ (fun _ => by norm_num) exSvdF2 exSvdF2_accurate
    le_rfl (by norm_num) le_rfl (by norm_num) (τ := 1 / 2 ^ 26) (by norm_num) (fun i => (exFM i).eval) (fun i x _ => ?_) ![-1, -1 / 2 ^ 21]
    (by intro i; fin_cases i <;> norm_num [abs_le]) exFM_root⟩
  rw [sub_self, abs_zero]
  revert i
  decide +kernel

theorem trimAxisF_short (ar : FloatArith K) (d : Fin n) (s : TrimState n K) (h : s.M.shape d ≤ 3) : trimAxisF ar d s = s := by
  rw [trimAxisF, dif_neg]
  rintro ⟨-, h2⟩
  omega

theorem trimMsF_short (ar : FloatArith K) (Ms : Fin n → Tensor n K) (e : Fin n → K) (h : ∀ i j, (Ms i).shape j ≤ 3) : trimMsF ar Ms e = (Ms, e) := by
  have key : ∀ (i : Fin n) (l : List (Fin n)) (s : TrimState n K), s.M = Ms i → l.foldl (fun s d => trimAxisF ar d s) s = s := by
    intro i l
    induction l with
    | nil => intro s _; rfl
    | cons d l ih =>
      intro s hs
      rw [List.foldl_cons, trimAxisF_short ar d s (by rw [hs]; exact h i d)]
      exact ih s hs
  have h1 : ∀ i, trimPolyF ar (Ms i) (e i) (ar.fl (1 / 10 ^ 3)) 0 = ⟨Ms i, ar.fl (0 + ar.fl (e i * ar.fl (1 / 10 ^ 3))), e i⟩ := fun i => key i _ _ rfl
  unfold trimMsF
  simp only [h1]

/-- **C108 is false** without the slack: the witness of `C99_false` with the quadratic check and the trimming of the code and exact linear algebra.
The errors `2 ^ -52` are upper bounds, since the polynomials are given exactly. -/
theorem C108_false : ∃ ar : FloatArith ℚ, ar.fl = roundFloat 53 ∧ RoundsToNearest 53 ar.fl ∧ ar.Sums ∧
    ∃ (svd : SvdF 2 ℚ) (Ms : Fin 2 → Tensor 2 ℚ) (x : Fin 2 → ℚ), svd.Accurate 0 0 ∧ (∀ i, Affine (Ms i)) ∧
      (∀ i, ∀ k ∈ (Ms i).idx, IsFloat 53 ((Ms i).coef k)) ∧ InCube x ∧ (∀ i, (Ms i).eval x = 0) ∧
      startDiscards ar svd (quadraticDiscards2DF ar) (trimMsF ar) Ms (fun _ => macheps) = true := by
  obtain ⟨ar, h1, h2, h3, Ms, x, h4, h5, -, h6, h7, h8⟩ := C99_false
  exact ⟨ar, h1, h2, h3, exSvdF2, Ms, x, exSvdF2_accurate, h4, h5, h6, h7,
    h8 exSvdF2 _ _ (fun _ => by norm_num [exSvdF2]) fun Ms e h => trimMsF_short ar Ms e h⟩

/-- Linear algebra that only accepts the identity matrix. -/
def exSvdF1 : SvdF 3 ℚ := ⟨fun _ => 1, fun A => decide (A = 1), fun _ c j => -c j, fun _ e j => |e j|⟩

theorem exSvdF1_accurate : exSvdF1.Accurate 0 0 := by
  intro A h
  have h : A = 1 := of_decide_eq_true h
  subst h
  refine ⟨1, fun j => le_of_eq ?_, fun c j => ?_, fun e j => ?_⟩
  · refine sum_eq_zero fun k _ => ?_
    rw [abs_eq_zero, sub_eq_zero, ← Matrix.mul_apply, mul_one, Matrix.one_apply]
  · simp [exSvdF1, Matrix.one_apply]
  · simp [exSvdF1, Matrix.one_apply, apply_ite abs]

/-- The three coordinate functions, as arrays of two entries along every axis. -/
def exXF : Fin 3 → Tensor 3 ℚ := fun i => ⟨![2, 2, 2], fun k => if k = Pi.single i 1 then 1 else 0⟩

theorem exXF_affine (i : Fin 3) : Affine (exXF i) := by
  refine ⟨fun j => by fin_cases j <;> simp [exXF], fun k _ h => ?_⟩
  simp only [exXF]
  rw [if_neg]
  rintro rfl
  simp at h

/-- The hypotheses of `C108_three_partial` are met. -/
example : exSvdF1.wellConditioned (linSysF exAr exXF (fun _ => 1 / 8) false).A = true ∧
    startDiscards exAr exSvdF1 (quadraticDiscards3DF exAr) (trimMsF exAr) exXF (fun _ => 1 / 8) = false := by
  refine ⟨by decide +kernel, C108_three_partial (ar := exAr) (roundFloat_nearest (by norm_num)) (leftSum_sums _) exXF (fun i => (exXF_affine i).nonempty)
    (fun i k _ => ?_) (by intro i; fin_cases i <;> simp [exXF, Fin.prod_univ_three]) _ (fun _ => by norm_num) exSvdF1 exSvdF1_accurate
    le_rfl (by norm_num) le_rfl (by norm_num) (τ := 1 / 2 ^ 13) (by norm_num) le_rfl (fun i => (exXF i).eval) (fun i x _ => ?_) ![0, 0, 0]
    (by intro i; fin_cases i <;> norm_num [abs_le]) fun i => ?_⟩
  · simp only [exXF]
    split_ifs
    · exact ⟨1, 0, by norm_num, by norm_num⟩
    · exact isFloat_zero
  · rw [sub_self, abs_zero]
    revert i
    decide +kernel
  · rw [(exXF_affine i).eval, Fin.sum_univ_three]
    have h : (fun _ : Fin 3 => 0) ≠ Pi.single i 1 := fun h => by simpa using congrFun h i
    fin_cases i <;> simp [exXF, Tensor.const, linCoef] <;> exact h

end YRoots
