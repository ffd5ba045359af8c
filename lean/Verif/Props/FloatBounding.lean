import Verif.Proofs.FloatBounding
import Verif.Proofs.AffineTensor
import Mathlib.Data.Rat.Floor
import Mathlib.Tactic.FinCases

/-!
# C99: rounding does not make the bounding step throw out roots

"Add this width to the new intervals we find to avoid rounding error throwing out roots" (line 695).  False of the code: the width is always
`2 ^ -51`, while the rounding errors of the bounds are proportional to `totalErrs / |A|`, which is not bounded.  An exact zero of two affine
polynomials with the errors that `solve` gives to such polynomials is thrown out, whatever the singular value decomposition returns.  Proved
instead: how far a bound can be off.
-/

set_option linter.unusedSectionVars false

namespace YRoots

open Finset

variable {n : ℕ} {K : Type*} [Field K] [LinearOrder K] [IsStrictOrderedRing K] [FloorRing K]

/-- At a common zero every row leaves room for its own term. -/
theorem one_term {ar : FloatArith K} (hfl : RoundsToNearest 53 ar.fl) (Ms : Fin n → Tensor n K) (hM : ∀ i, (Ms i).Nonempty)
    (hFl : ∀ i, ∀ k ∈ (Ms i).idx, IsFloat 53 ((Ms i).coef k)) (errors e' : Fin n → K) (F : Fin n → (Fin n → K) → K)
    (hF : ∀ i x, InCube x → |F i x - (Ms i).eval x| ≤ e' i) (x : Fin n → K) (hx : InCube x)
    (hroot : ∀ i, F i x = 0) (i j : Fin n) :
    let L := linSysF ar Ms errors false
    |L.consts i + L.A i j * (x j / L.colScaler j)| ≤
      (linSys Ms errors false).totalErrs i - (errors i - e' i) / rowScale (linCoef (Ms i)) - |L.consts i| - |L.A i j| := by
  intro L
  have hres : ∀ i, |(Ms i).const + ∑ j, linCoef (Ms i) j * x j|
      ≤ (Ms i).absSum + e' i - |(Ms i).const| - ∑ j, |linCoef (Ms i) j| := by
    intro i
    have h1 := eval_linear_bound (Ms i) (hM i) hx
    have h2 := hF i x hx
    rw [hroot i] at h2
    have h3 := abs_add_le (0 - (Ms i).eval x)
      ((Ms i).eval x - ((Ms i).const + ∑ j, linCoef (Ms i) j * x j))
    rw [sub_add_sub_cancel, zero_sub, abs_neg] at h3
    linarith
  obtain ⟨hy, hrow, hmass⟩ := linSys_holds Ms e' hM x hx hres
  have eA : L.A = (linSys Ms e' false).A := linSysF_A hfl Ms hM hFl errors
  have eC : L.consts = (linSys Ms e' false).consts := linSysF_consts hfl Ms hM hFl errors
  have eS : L.colScaler = (linSys Ms e' false).colScaler := linSysF_colScaler hfl Ms hM hFl errors
  have eR : rowScale (fun j : Fin n => (getLinearTerms (Ms i)).getD j 0) = rowScale (linCoef (Ms i)) := by
    congr 1
    funext j
    exact getLinearTerms_getD (Ms i) (hM i) j
  have eT : (linSys Ms errors false).totalErrs i - (errors i - e' i) / rowScale (linCoef (Ms i)) = (linSys Ms e' false).totalErrs i := by
    rw [← eR]
    have key : ∀ S e e' s R : K, (S + e) / s + R - (e - e') / s = (S + e') / s + R := by intros; ring
    exact key _ _ _ _ _
  rw [eT]
  have h1 := hrow i
  rw [hmass i] at h1
  rw [eA, eC, eS]
  generalize (linSys Ms e' false) = L0 at h1 hy ⊢
  have e : L0.consts i + ∑ k, L0.A i k * (x k / L0.colScaler k) =
      (L0.consts i + L0.A i j * (x j / L0.colScaler j)) + ∑ k ∈ univ.erase j, L0.A i k * (x k / L0.colScaler k) := by
    rw [← add_sum_erase univ _ (mem_univ j)]
    ring
  have e2 : ∑ k, |L0.A i k| = |L0.A i j| + ∑ k ∈ univ.erase j, |L0.A i k| := (add_sum_erase univ _ (mem_univ j)).symm
  have h2 : |∑ k ∈ univ.erase j, L0.A i k * (x k / L0.colScaler k)| ≤ ∑ k ∈ univ.erase j, |L0.A i k| := by
    refine (abs_sum_le_sum_abs _ _).trans (sum_le_sum fun k _ => ?_)
    rw [abs_mul]
    exact mul_le_of_le_one_right (abs_nonneg _) (hy k)
  rw [e, e2] at h1
  have h3 := abs_sub_abs_le_abs_sub (L0.consts i + L0.A i j * (x j / L0.colScaler j))
    (-∑ k ∈ univ.erase j, L0.A i k * (x k / L0.colScaler k))
  rw [sub_neg_eq_add, abs_neg] at h3
  linarith

/-- **C99, part.** Polynomials with floating-point coefficients, any rounding to nearest, sums in any order.  At a common zero in the cube of
functions that are within `errors` of the polynomials, no bound of `linearCheck1` is off by more than `(m + n + 10) * 2 ^ -52` times
`totalErrs / |A|`, where `m` is the number of coefficients. -/
theorem C99_bounds_partial {ar : FloatArith K} (hfl : RoundsToNearest 53 ar.fl) (hs : ar.Sums) (Ms : Fin n → Tensor n K)
    (hM : ∀ i, (Ms i).Nonempty) (hFl : ∀ i, ∀ k ∈ (Ms i).idx, IsFloat 53 ((Ms i).coef k)) (hsize : ∀ i, ∏ j, (Ms i).shape j + n + 2 ≤ 2 ^ 52)
    (errors : Fin n → K) (he : ∀ i, 0 ≤ errors i) (F : Fin n → (Fin n → K) → K)
    (hF : ∀ i x, InCube x → |F i x - (Ms i).eval x| ≤ errors i) (x : Fin n → K) (hx : InCube x) (hroot : ∀ i, F i x = 0) (j : Fin n) (η : K)
    (hη : ∀ i, (linSysF ar Ms errors false).A i j ≠ 0 → ((∏ j, (Ms i).shape j : ℕ) + n + 10) / 2 ^ 52 *
      ((linSysF ar Ms errors false).totalErrs i / |(linSysF ar Ms errors false).A i j|) ≤ η) :
    let L := linSysF ar Ms errors false
    let r := linearCheck1F ar.fl L.totalErrs L.A L.consts
    r.1 j ≤ ((x j / L.colScaler j + η : K) : WithBot K) ∧ ((x j / L.colScaler j - η : K) : WithTop K) ≤ r.2 j := by
  intro L r
  have hpair : ∀ i, L.A i j ≠ 0 →
      (linBoundsF ar.fl (L.totalErrs i) (L.A i j) (L.consts i)).1 ≤ x j / L.colScaler j + η ∧
        x j / L.colScaler j - η ≤ (linBoundsF ar.fl (L.totalErrs i) (L.A i j) (L.consts i)).2 := by
    intro i hA
    have hone := one_term hfl Ms hM hFl errors errors F hF x hx hroot i j
    simp only [sub_self, zero_div, sub_zero] at hone
    have ht := linSysF_total hfl Ms hM hFl errors (by norm_num) hs he i
    have hc : IsFloat 53 (L.consts i) := isFloat_consts hfl Ms hM hFl errors i
    obtain ⟨g1, g2⟩ := linBoundsF_close hfl hA hc (hsize i) ht hone
    have hη' := hη i hA
    have e : (((∏ j, (Ms i).shape j + n + 2 : ℕ) : K) + 8) = ((∏ j, (Ms i).shape j : ℕ) + n + 10 : K) := by push_cast; ring
    rw [e] at g1 g2
    exact ⟨g1.trans (by linarith), le_trans (by linarith) g2⟩
  constructor
  · exact foldl_max_le _ _ _ _ (fun i _ hi => WithBot.coe_le_coe.2 (hpair i hi).1) _ bot_le
  · exact foldl_le_min _ _ _ _ (fun i _ hi => WithTop.coe_le_coe.2 (hpair i hi).2) _ le_top

/-- Under the hypotheses of `C99_kept_partial` the zero lies between the bounds. -/
theorem raw_bounds_kept {ar : FloatArith K} (hfl : RoundsToNearest 53 ar.fl) (hs : ar.Sums) (Ms : Fin n → Tensor n K)
    (hM : ∀ i, (Ms i).Nonempty) (hFl : ∀ i, ∀ k ∈ (Ms i).idx, IsFloat 53 ((Ms i).coef k)) (hsize : ∀ i, ∏ j, (Ms i).shape j + n + 2 ≤ 2 ^ 52)
    (errors e' : Fin n → K) (he : ∀ i, 0 ≤ errors i) (F : Fin n → (Fin n → K) → K)
    (hF : ∀ i x, InCube x → |F i x - (Ms i).eval x| ≤ e' i)
    (hslack : ∀ i, ((∏ j, (Ms i).shape j : ℕ) + n + 10) / 2 ^ 52 * ((linSysF ar Ms errors false).totalErrs i * rowScale (linCoef (Ms i))) ≤
      errors i - e' i)
    (x : Fin n → K) (hx : InCube x) (hroot : ∀ i, F i x = 0) (svd : SvdF n K)
    (hsvd : svd.wellConditioned (linSysF ar Ms errors false).A = true → ∀ j, let L := linSysF ar Ms errors false
      ar.fl (svd.center L.A L.consts j - svd.width L.A L.err j) ≤ x j / L.colScaler j ∧
        x j / L.colScaler j ≤ ar.fl (svd.center L.A L.consts j + svd.width L.A L.err j)) :
    let r := rawBoundsF ar svd (linSysF ar Ms errors false) (linSysF ar Ms errors false).err
      (linearCheck1F ar.fl (linSysF ar Ms errors false).totalErrs (linSysF ar Ms errors false).A (linSysF ar Ms errors false).consts).1
      (linearCheck1F ar.fl (linSysF ar Ms errors false).totalErrs (linSysF ar Ms errors false).A (linSysF ar Ms errors false).consts).2
    ∀ j, r.1 j ≤ (x j : WithBot K) ∧ (x j : WithTop K) ≤ r.2 j := by
  have hT0 : ∀ i, 0 ≤ (linSysF ar Ms errors false).totalErrs i := by
    intro i
    refine le_trans (mul_nonneg (pow_nonneg ?_ _) ?_) (linSysF_total hfl Ms hM hFl errors (by norm_num) hs he i)
    · norm_num
    · have h1 : 0 ≤ ((Ms i).absSum + errors i) / rowScale (fun j : Fin n => (getLinearTerms (Ms i)).getD j 0) :=
        div_nonneg (add_nonneg (sum_nonneg fun _ _ => abs_nonneg _) (he i)) (rowScale_pos _).le
      refine add_nonneg h1 (sum_nonneg fun j _ => mul_nonneg (abs_nonneg _) ?_)
      have := linSys_colScaler_ge Ms errors false j
      exact sub_nonneg.2 this
  have hle : ∀ i, e' i ≤ errors i := by
    intro i
    have h1 := hslack i
    have h2 : (0 : K) ≤ ((∏ j, (Ms i).shape j : ℕ) + n + 10) / 2 ^ 52 *
        ((linSysF ar Ms errors false).totalErrs i * rowScale (linCoef (Ms i))) :=
      mul_nonneg (by positivity) (mul_nonneg (hT0 i) (rowScale_pos _).le)
    linarith
  have hpair : ∀ i j, (linSysF ar Ms errors false).A i j ≠ 0 →
      (linBoundsF ar.fl ((linSysF ar Ms errors false).totalErrs i) ((linSysF ar Ms errors false).A i j)
        ((linSysF ar Ms errors false).consts i)).1 ≤ x j / (linSysF ar Ms errors false).colScaler j ∧
      x j / (linSysF ar Ms errors false).colScaler j ≤ (linBoundsF ar.fl ((linSysF ar Ms errors false).totalErrs i)
        ((linSysF ar Ms errors false).A i j) ((linSysF ar Ms errors false).consts i)).2 := by
    intro i j hA
    have hone := one_term hfl Ms hM hFl errors e' F hF x hx hroot i j
    have ht := linSysF_total hfl Ms hM hFl errors (by norm_num) hs he i
    have hc : IsFloat 53 ((linSysF ar Ms errors false).consts i) := isFloat_consts hfl Ms hM hFl errors i
    have hsl := hslack i
    have hsz := hsize i
    simp only at hone
    generalize linSysF ar Ms errors false = L at *
    generalize (linSys Ms errors false).totalErrs i = T at *
    have hA0 : 0 < |L.A i j| := abs_pos.2 hA
    set δ := (errors i - e' i) / rowScale (linCoef (Ms i)) with hδ
    have hδ1 : ((∏ j, (Ms i).shape j : ℕ) + n + 10) / 2 ^ 52 * (L.totalErrs i / |L.A i j|) ≤ δ / |L.A i j| := by
      rw [← mul_div_assoc]
      apply div_le_div_of_nonneg_right _ hA0.le
      rw [hδ, le_div_iff₀ (rowScale_pos _)]
      linarith
    have hδ0 : 0 ≤ δ := div_nonneg (sub_nonneg.2 (hle i)) (rowScale_pos _).le
    have e : (((∏ j, (Ms i).shape j + n + 2 : ℕ) : K) + 8) = ((∏ j, (Ms i).shape j : ℕ) + n + 10 : K) := by push_cast; ring
    have hshift : ∀ d : K, |d| ≤ δ / |L.A i j| → |L.consts i + L.A i j * (x j / L.colScaler j + d)| ≤ T - |L.consts i| - |L.A i j| := by
      intro d hd
      have h1 := abs_add_le (L.consts i + L.A i j * (x j / L.colScaler j)) (L.A i j * d)
      rw [abs_mul] at h1
      have h2 : |L.A i j| * |d| ≤ δ := by
        rw [le_div_iff₀ hA0] at hd
        linarith
      rw [mul_add, ← add_assoc]
      linarith
    have hd0 : 0 ≤ δ / |L.A i j| := div_nonneg hδ0 hA0.le
    obtain ⟨_, g2⟩ := linBoundsF_close hfl hA hc hsz ht (hshift (δ / |L.A i j|) (by rw [abs_of_nonneg hd0]))
    obtain ⟨g1, _⟩ := linBoundsF_close hfl hA hc hsz ht (hshift (-(δ / |L.A i j|)) (by rw [abs_neg, abs_of_nonneg hd0]))
    rw [e] at g1 g2
    exact ⟨by linarith, by linarith⟩
  have hcs : ∀ j, ∃ k : ℤ, (linSysF ar Ms errors false).colScaler j = 2 ^ k := fun j => colScale_zp _
  generalize linSysF ar Ms errors false = L at *
  have hlo : ∀ j, (linearCheck1F ar.fl L.totalErrs L.A L.consts).1 j ≤ ((x j / L.colScaler j : K) : WithBot K) := fun j =>
    foldl_max_le _ _ _ _ (fun i _ hi => WithBot.coe_le_coe.2 (hpair i j hi).1) _ bot_le
  have hhi : ∀ j, ((x j / L.colScaler j : K) : WithTop K) ≤ (linearCheck1F ar.fl L.totalErrs L.A L.consts).2 j := fun j =>
    foldl_le_min _ _ _ _ (fun i _ hi => WithTop.coe_le_coe.2 (hpair i j hi).2) _ le_top
  have fLo : ∀ j, BotFloat ((linearCheck1F ar.fl L.totalErrs L.A L.consts).1 j) := fun j =>
    botFloat_foldl _ _ _ (fun i => (isFloat_linBoundsF hfl _ _ _).1) _ (by intro v hv; exact absurd hv (by simp))
  have fHi : ∀ j, TopFloat ((linearCheck1F ar.fl L.totalErrs L.A L.consts).2 j) := fun j =>
    topFloat_foldl _ _ _ (fun i => (isFloat_linBoundsF hfl _ _ _).2) _ (by intro v hv; exact absurd hv (by simp))
  have hw : 0 ≤ ar.fl (max (svd.condNum L.A) 2 * macheps) :=
    fl_nonneg hfl (mul_nonneg (le_trans two_pos.le (le_max_right _ _)) macheps_pos.le)
  intro r
  unfold r rawBoundsF
  simp only
  generalize ar.fl (max (svd.condNum L.A) 2 * macheps) = w at hw ⊢
  have hA : ∀ j, WithBot.map (fun v => ar.fl (ar.fl (v * L.colScaler j) - w))
      (if svd.wellConditioned L.A = true then max ((ar.fl (svd.center L.A L.consts j - svd.width L.A L.err j) : K) : WithBot K)
        ((linearCheck1F ar.fl L.totalErrs L.A L.consts).1 j) else (linearCheck1F ar.fl L.totalErrs L.A L.consts).1 j) ≤ (x j : WithBot K) := by
    intro j
    apply lower_kept hfl _ (hcs j) hw
    · split
      · rename_i hwc
        exact max_le (WithBot.coe_le_coe.2 (hsvd hwc j).1) (hlo j)
      · exact hlo j
    · split
      · exact BotFloat.max (.coe (hfl.isFloat _)) (fLo j)
      · exact fLo j
  have hB : ∀ j, (x j : WithTop K) ≤ WithTop.map (fun v => ar.fl (ar.fl (v * L.colScaler j) + w))
      (if svd.wellConditioned L.A = true then min ((ar.fl (svd.center L.A L.consts j + svd.width L.A L.err j) : K) : WithTop K)
        ((linearCheck1F ar.fl L.totalErrs L.A L.consts).2 j) else (linearCheck1F ar.fl L.totalErrs L.A L.consts).2 j) := by
    intro j
    apply upper_kept hfl _ (hcs j) hw
    · split
      · rename_i hwc
        exact le_min (WithTop.coe_le_coe.2 (hsvd hwc j).2) (hhi j)
      · exact hhi j
    · split
      · exact TopFloat.min (.coe (hfl.isFloat _)) (fHi j)
      · exact fHi j
  exact fun j => ⟨hA j, hB j⟩

/-- Bounds around a point of the cube are not thrown out. -/
theorem throwOutOf_eq_false {r : (Fin n → WithBot K) × (Fin n → WithTop K)} {x : Fin n → K} (hx : InCube x)
    (hA : ∀ j, r.1 j ≤ (x j : WithBot K)) (hB : ∀ j, (x j : WithTop K) ≤ r.2 j) : throwOutOf r = false := by
  unfold throwOutOf
  simp only [Bool.or_eq_false_iff, decide_eq_false_iff_not, not_exists]
  refine ⟨⟨fun j hj => ?_, fun j hj => ?_⟩, fun j hj => ?_⟩
  · have h1 := hA j
    have h2 := hB j
    revert hj h1 h2
    generalize r.1 j = za
    generalize r.2 j = zb
    intro hj h1 h2
    induction za using WithBot.recBotCoe with
    | bot => exact absurd hj (by simp)
    | coe a =>
      induction zb using WithTop.recTopCoe with
      | top => exact absurd hj (by simp)
      | coe b =>
        have h3 : decide (a > b) = true := hj
        rw [decide_eq_true_eq] at h3
        have := WithBot.coe_le_coe.1 h1
        have := WithTop.coe_le_coe.1 h2
        linarith
  · have := WithBot.coe_lt_coe.1 (hj.trans_le (hA j))
    have := (abs_le.1 (hx j)).2
    linarith
  · have := WithTop.coe_lt_coe.1 ((hB j).trans_lt hj)
    have := (abs_le.1 (hx j)).1
    linarith

/-- **C99, part.** If the errors given to the function exceed the true errors by `(m + n + 10) * 2 ^ -52` times the total (so relative to the
size of the coefficients, while `solve` uses the absolute `2 ^ -52`), and the interval from the inverse matrix, when it is used, contains the
scaled zero, then the cube is not thrown out. -/
theorem C99_kept_partial {ar : FloatArith K} (hfl : RoundsToNearest 53 ar.fl) (hs : ar.Sums) (Ms : Fin n → Tensor n K)
    (hM : ∀ i, (Ms i).Nonempty) (hFl : ∀ i, ∀ k ∈ (Ms i).idx, IsFloat 53 ((Ms i).coef k)) (hsize : ∀ i, ∏ j, (Ms i).shape j + n + 2 ≤ 2 ^ 52)
    (errors e' : Fin n → K) (he : ∀ i, 0 ≤ errors i) (F : Fin n → (Fin n → K) → K)
    (hF : ∀ i x, InCube x → |F i x - (Ms i).eval x| ≤ e' i)
    (hslack : ∀ i, ((∏ j, (Ms i).shape j : ℕ) + n + 10) / 2 ^ 52 * ((linSysF ar Ms errors false).totalErrs i * rowScale (linCoef (Ms i))) ≤
      errors i - e' i)
    (x : Fin n → K) (hx : InCube x) (hroot : ∀ i, F i x = 0) (svd : SvdF n K)
    (hsvd : svd.wellConditioned (linSysF ar Ms errors false).A = true → ∀ j, let L := linSysF ar Ms errors false
      ar.fl (svd.center L.A L.consts j - svd.width L.A L.err j) ≤ x j / L.colScaler j ∧
        x j / L.colScaler j ≤ ar.fl (svd.center L.A L.consts j + svd.width L.A L.err j)) :
    throwOutF ar svd (linSysF ar Ms errors false) = false :=
  have h := raw_bounds_kept hfl hs Ms hM hFl hsize errors e' he F hF hslack x hx hroot svd hsvd
  throwOutOf_eq_false hx (fun j => (h j).1) fun j => (h j).2

/-- **C99, the width.** For singular values in descending order the width added to the intervals is always `2 ^ -51`: `condNum` is the
reciprocal of the condition number. -/
theorem C99_width_constant (svd : SVD n K) (hnn : ∀ A i, 0 ≤ svd.S A i) (anti : ∀ A i j, i ≤ j → svd.S A j ≤ svd.S A i)
    (A : Matrix (Fin n) (Fin n) K) : max (svd.condNum A) 2 * (macheps : K) = 1 / 2 ^ 51 := by
  have h : svd.condNum A ≤ 2 := by
    unfold SVD.condNum
    split
    · rename_i h
      exact (div_le_one_of_le₀ (anti A _ _ (by simp [Fin.le_def])) (hnn A _)).trans one_le_two
    · exact zero_le_two
  rw [max_eq_right h]
  unfold macheps
  norm_num

example : max ((⟨fun _ => 1, fun _ i => 2 - i.1, fun _ => 1⟩ : SVD 2 ℚ).condNum 1) 2 * (macheps : ℚ) = 1 / 2 ^ 51 :=
  C99_width_constant _ (by intro A i; fin_cases i <;> norm_num) (by intro A i j; fin_cases i <;> fin_cases j <;> norm_num) 1

/-! ### The witness -/

/-- Rounding to nearest even and `np.sum` of fewer than eight numbers. -/
def exAr : FloatArith ℚ := ⟨roundFloat 53, leftSum (roundFloat 53)⟩

/-- `1024 + 2^-42 + 1024 x + 2^-21 y` and `2^-21 + y`. -/
def exFM : Fin 2 → Tensor 2 ℚ :=
  ![⟨![2, 2], fun k => if k 0 = 0 then (if k 1 = 0 then 1024 + 1 / 2 ^ 42 else 1 / 2 ^ 21) else if k 1 = 0 then 1024 else 0⟩,
    ⟨![1, 2], fun k => if k 1 = 0 then 1 / 2 ^ 21 else 1⟩]

/-- The errors that `solve` assigns to polynomials on the unit cube. -/
def exFE : Fin 2 → ℚ := fun _ => macheps

theorem exFM_bounds :
    let L := linSysF exAr exFM exFE false
    let r := linearCheck1F exAr.fl L.totalErrs L.A L.consts
    ((-1 / 2 ^ 21 - 1 / 2 ^ 52 : ℚ) : WithBot ℚ) ≤ r.1 1 ∧ r.2 1 ≤ ((-1 / 2 ^ 20 : ℚ) : WithTop ℚ) ∧ L.colScaler 1 = 1 := by
  decide +kernel

theorem exFM_affine (i : Fin 2) : Affine (exFM i) := by
  refine ⟨?_, ?_⟩
  · fin_cases i <;> intro j <;> fin_cases j <;> simp [exFM]
  · intro k hk h
    rw [mem_idx_iff] at hk
    have h0 := hk 0
    have h1 := hk 1
    rw [Fin.sum_univ_two] at h
    fin_cases i
    · simp [exFM] at h0 h1 ⊢
      have : k 0 = 1 := by omega
      have : k 1 = 1 := by omega
      simp [*]
    · simp [exFM] at h0 h1
      omega

theorem exFM_float (i : Fin 2) (k : Fin 2 → ℕ) : IsFloat 53 ((exFM i).coef k) := by
  have h1 : IsFloat 53 (1024 + 1 / 2 ^ 42 : ℚ) := ⟨2 ^ 52 + 1, -42, by norm_num, by norm_num⟩
  have h2 : IsFloat 53 (1 / 2 ^ 21 : ℚ) := ⟨1, -21, by norm_num, by norm_num⟩
  have h3 : IsFloat 53 (1024 : ℚ) := ⟨1, 10, by norm_num, by norm_num⟩
  have h4 : IsFloat 53 (1 : ℚ) := ⟨1, 0, by norm_num, by norm_num⟩
  fin_cases i
  · show IsFloat 53 (if k 0 = 0 then (if k 1 = 0 then (1024 + 1 / 2 ^ 42 : ℚ) else 1 / 2 ^ 21) else if k 1 = 0 then 1024 else 0)
    split_ifs
    exacts [h1, h2, h3, isFloat_zero]
  · show IsFloat 53 (if k 1 = 0 then (1 / 2 ^ 21 : ℚ) else 1)
    split_ifs
    exacts [h2, h4]

theorem exFM_root (i : Fin 2) : (exFM i).eval ![-1, -1 / 2 ^ 21] = 0 := by
  rw [(exFM_affine i).eval, Fin.sum_univ_two]
  fin_cases i <;> simp [exFM, Tensor.const, linCoef] <;> norm_num

/-- **C99 is false.** In the arithmetic of IEEE 754 (rounding to nearest even) there are two affine polynomials in two variables with
representable coefficients, and a point of the cube at which both vanish exactly, such that the solver, started with the errors `2^-52` that
`solve` gives to polynomials on the unit cube, returns no interval at all: whatever the quadratic checks answer, whatever the singular value
decomposition gives (with `S[-1] <= 2 S[0]`) and whatever `trimMs` does to arrays with more than three entries along an axis. -/
theorem C99_false : ∃ ar : FloatArith ℚ, ar.fl = roundFloat 53 ∧ RoundsToNearest 53 ar.fl ∧ ar.Sums ∧
    ∃ (Ms : Fin 2 → Tensor 2 ℚ) (x : Fin 2 → ℚ), (∀ i, Affine (Ms i)) ∧ (∀ i, ∀ k ∈ (Ms i).idx, IsFloat 53 ((Ms i).coef k)) ∧
      (∀ i, IsFloat 53 (x i)) ∧ InCube x ∧ (∀ i, (Ms i).eval x = 0) ∧
      ∀ (svd : SvdF 2 ℚ) (quad : (Fin 2 → Tensor 2 ℚ) → (Fin 2 → ℚ) → Bool)
        (trim : (Fin 2 → Tensor 2 ℚ) → (Fin 2 → ℚ) → (Fin 2 → Tensor 2 ℚ) × (Fin 2 → ℚ)),
        (∀ A, svd.condNum A ≤ 2) → (∀ Ms e, (∀ i j, (Ms i).shape j ≤ 3) → trim Ms e = (Ms, e)) →
        startDiscards ar svd quad trim Ms (fun _ => macheps) = true := by
  refine ⟨exAr, rfl, roundFloat_nearest (by norm_num), leftSum_sums _, exFM, ![-1, -1 / 2 ^ 21], exFM_affine, fun i k _ => exFM_float i k,
    ?_, ?_, exFM_root, ?_⟩
  · intro i
    fin_cases i
    · exact ⟨-1, 0, by norm_num, by norm_num⟩
    · exact ⟨-1, -21, by norm_num, by norm_num⟩
  · intro i
    fin_cases i <;> norm_num [abs_le]
  · intro svd quad trim hcond htrim
    have ht := htrim exFM exFE (by intro i j; fin_cases i <;> fin_cases j <;> simp [exFM])
    unfold startDiscards
    rw [show (fun _ => macheps : Fin 2 → ℚ) = exFE from rfl, ht]
    obtain ⟨h1, h2, h3⟩ := exFM_bounds
    rw [throwOutF_of_gap (ar := exAr) (roundFloat_nearest (by norm_num)) svd _ 1 (hcond _) h1 h2 h3 (by decide +kernel), Bool.or_true]

/-- The hypotheses of `C99_bounds_partial` are met by the witness, with `2^-15` as the bound on the error. -/
example : let L := linSysF exAr exFM exFE false
    (linearCheck1F exAr.fl L.totalErrs L.A L.consts).1 1 ≤ ((-1 / 2 ^ 21 / L.colScaler 1 + 1 / 2 ^ 15 : ℚ) : WithBot ℚ) :=
  (C99_bounds_partial (ar := exAr) (roundFloat_nearest (by norm_num)) (leftSum_sums _) exFM (fun i => (exFM_affine i).nonempty)
    (fun i k _ => exFM_float i k) (by intro i; fin_cases i <;> simp [exFM, Fin.prod_univ_two]) exFE (fun _ => by simp only [exFE]; exact macheps_pos.le)
    (fun i => (exFM i).eval) (fun i x _ => by rw [sub_self, abs_zero]; exact macheps_pos.le) ![-1, -1 / 2 ^ 21]
    (by intro i; fin_cases i <;> norm_num [abs_le]) exFM_root 1 (1 / 2 ^ 15) (by decide +kernel)).1

/-- With errors of `2 ^ -30` the system of the witness is kept. -/
example : throwOutF exAr ⟨fun _ => 1, fun _ => false, fun _ _ _ => 0, fun _ _ _ => 0⟩ (linSysF exAr exFM (fun _ => 1 / 2 ^ 30) false) = false :=
  C99_kept_partial (ar := exAr) (roundFloat_nearest (by norm_num)) (leftSum_sums _) exFM (fun i => (exFM_affine i).nonempty)
    (fun i k _ => exFM_float i k) (by intro i; fin_cases i <;> simp [exFM, Fin.prod_univ_two]) (fun _ => 1 / 2 ^ 30) (fun _ => 0)
    (fun _ => by norm_num) (fun i => (exFM i).eval) (fun i x _ => by rw [sub_self, abs_zero]) (by decide +kernel) ![-1, -1 / 2 ^ 21]
    (by intro i; fin_cases i <;> norm_num [abs_le]) exFM_root _ (by intro h; cases h)

end YRoots
