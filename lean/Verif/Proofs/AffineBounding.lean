import Verif.Proofs.AffineTensor
import Verif.Proofs.Zoom
import Verif.Props.Bounding
import Mathlib.LinearAlgebra.Matrix.NonsingularInverse

/-!
# Helper lemmas: the linear bounding step on affine systems
-/

set_option linter.unusedSectionVars false

namespace YRoots

open Finset

variable {n : ℕ} {K : Type*} [Field K] [LinearOrder K] [IsStrictOrderedRing K] [FloorSemiring K]

/-- The system `c + A x`. -/
def AffSys (Ms : Fin n → Tensor n K) (A : Matrix (Fin n) (Fin n) K) (c : Fin n → K) : Prop :=
  ∀ i, Affine (Ms i) ∧ (Ms i).const = c i ∧ ∀ j, linCoef (Ms i) j = A i j

/-- Column scale of `equil`. -/
def colS (A : Matrix (Fin n) (Fin n) K) (j : Fin n) : K := colScale fun i => A i j / rowScale (A i)

/-- The scaled matrix. -/
def equil (A : Matrix (Fin n) (Fin n) K) : Matrix (Fin n) (Fin n) K := Matrix.of fun i j => A i j / rowScale (A i) * colS A j

theorem one_le_colS (A : Matrix (Fin n) (Fin n) K) (j : Fin n) : 1 ≤ colS A j :=
  one_le_colScale _ fun i => abs_div_rowScale_lt (A i) j

theorem colS_pos (A : Matrix (Fin n) (Fin n) K) (j : Fin n) : 0 < colS A j := lt_of_lt_of_le one_pos (one_le_colS A j)

theorem linSys_affine {Ms : Fin n → Tensor n K} {A : Matrix (Fin n) (Fin n) K} {c : Fin n → K} (h : AffSys Ms A c) (e : Fin n → K) :
    linSys Ms e false =
      { A := equil A
        consts := fun i => c i / rowScale (A i)
        totalErrs := fun i => (|c i| + ∑ j, |A i j| + e i) / rowScale (A i) + ∑ j, |A i j / rowScale (A i)| * (colS A j - 1)
        err := fun i => e i / rowScale (A i)
        errors := fun i => e i / rowScale (A i)
        colScaler := colS A } := by
  have hA : (Matrix.of fun i (j : Fin n) => (getLinearTerms (Ms i)).getD j 0) = A := by
    ext i j
    rw [Matrix.of_apply, getLinearTerms_getD (Ms i) (h i).1.nonempty j, (h i).2.2 j]
  have hc : (fun i => (Ms i).ravel 0) = c := by
    funext i
    rw [ravel_zero, (h i).2.1]
  have hs : ∀ i, (Ms i).absSum = |c i| + ∑ j, |A i j| := by
    intro i
    rw [(h i).1.absSum, (h i).2.1]
    simp only [(h i).2.2]
  have hc' : ∀ i, (Ms i).ravel 0 = c i := fun i => congrFun hc i
  unfold linSys
  simp only [Bool.false_eq_true, if_false, hA, hc', hs]
  congr 1
  funext i
  congr 1
  ring

theorem linSys_final (Ms : Fin n → Tensor n K) (e : Fin n → K) : linSys Ms e true = linSys Ms (fun _ => 0) false := rfl

/-! ### Uniform scaling by a power of two -/

theorem maxAbs_mul (v : Fin n → K) {t : K} (ht : 0 < t) : maxAbs (fun j => v j * t) = maxAbs v * t := by
  have key : ∀ (l : List (Fin n)) (m : K), l.foldl (fun m i => max m |v i * t|) (m * t) = l.foldl (fun m i => max m |v i|) m * t := by
    intro l
    induction l with
    | nil => intro m; rfl
    | cons a l ih =>
      intro m
      simp only [List.foldl_cons]
      rw [← ih, abs_mul, abs_of_pos ht, max_mul_of_nonneg _ _ ht.le]
  have := key (List.finRange n) 0
  rw [zero_mul] at this
  exact this

theorem log_mul_zpow {x : K} (hx : 0 < x) (m : ℤ) : Int.log 2 (x * (2 : K) ^ m) = Int.log 2 x + m := by
  have h2 : (0 : K) < 2 ^ m := zpow_pos two_pos m
  have key : ∀ k : ℤ, k ≤ Int.log 2 (x * (2 : K) ^ m) ↔ k ≤ Int.log 2 x + m := by
    intro k
    rw [← Int.zpow_le_iff_le_log one_lt_two (mul_pos hx h2), Nat.cast_ofNat]
    have : k ≤ Int.log 2 x + m ↔ k - m ≤ Int.log 2 x := by omega
    rw [this, ← Int.zpow_le_iff_le_log one_lt_two hx, Nat.cast_ofNat, zpow_sub₀ two_ne_zero, div_le_iff₀ h2]
  exact le_antisymm ((key _).1 le_rfl) ((key _).2 le_rfl)

theorem div_rowScale_mul (v : Fin n → K) (m : ℤ) (j : Fin n) :
    v j * (2 : K) ^ m / rowScale (fun j => v j * (2 : K) ^ m) = v j / rowScale v := by
  have h2 : (0 : K) < 2 ^ m := zpow_pos two_pos m
  by_cases hm : maxAbs v > 0
  · have : rowScale (fun j => v j * (2 : K) ^ m) = rowScale v * 2 ^ m := by
      unfold rowScale pow2Floor
      rw [maxAbs_mul v h2, if_pos hm, if_pos (mul_pos hm h2), log_mul_zpow hm, zpow_add₀ two_ne_zero]
    rw [this, mul_div_mul_right _ _ h2.ne']
  · have : v j = 0 := by
      have h1 := abs_le_maxAbs v j
      have := abs_nonneg (v j)
      exact abs_eq_zero.1 (by linarith)
    rw [this]; simp

theorem equil_scale (A : Matrix (Fin n) (Fin n) K) (m : ℤ) : equil (Matrix.of fun i j => A i j * (2 : K) ^ m) = equil A := by
  have h : ∀ i j, A i j * (2 : K) ^ m / rowScale (fun j => A i j * (2 : K) ^ m) = A i j / rowScale (A i) :=
    fun i j => div_rowScale_mul (A i) m j
  ext i j
  show A i j * (2 : K) ^ m / rowScale (fun j => A i j * (2 : K) ^ m) * colScale (fun i => A i j * (2 : K) ^ m / rowScale (fun j => A i j * (2 : K) ^ m)) = _
  simp only [h]
  rfl

/-! ### The external decomposition -/

theorem SVD.pos_of_wc {svd : SVD n K} {A : Matrix (Fin n) (Fin n) K} (h : svd.wellConditioned A = true) : 0 < n := by
  unfold SVD.wellConditioned at h
  by_contra hn
  rw [dif_neg hn] at h
  cases h

theorem SVD.condNum_le {svd : SVD n K} (hv : svd.Valid) (A : Matrix (Fin n) (Fin n) K) : svd.condNum A ≤ 1 := by
  unfold SVD.condNum
  split_ifs with hn
  · have h0 := hv.nonneg A ⟨0, hn⟩
    rcases h0.eq_or_lt with h | h
    · rw [← h, div_zero]; exact zero_le_one
    · rw [div_le_one h]
      exact hv.anti A _ _ (Fin.le_def.2 (Nat.zero_le _))
  · exact zero_le_one

theorem SVD.width_eq {svd : SVD n K} (hv : svd.Valid) (A : Matrix (Fin n) (Fin n) K) :
    max (svd.condNum A) 2 * (macheps : K) = 2 * macheps := by
  rw [max_eq_right]
  have := SVD.condNum_le hv A
  linarith [one_lt_two (α := K)]

theorem ainv_equil {svd : SVD n K} (hv : svd.Valid) {A B : Matrix (Fin n) (Fin n) K} (hB : B * A = 1)
    (hwc : svd.wellConditioned (equil A) = true) (j k : Fin n) :
    svd.ainv (equil A) j k = B j k * rowScale (A k) / colS A j := by
  have h1 := SVD.ainv_mul hv (equil A) hwc
  have h2 : (Matrix.of fun j k => B j k * rowScale (A k) / colS A j) * equil A = 1 := by
    ext i l
    have h3 := congrFun (congrFun hB i) l
    rw [Matrix.mul_apply] at h3
    rw [Matrix.mul_apply]
    have : ∀ k, (Matrix.of fun j k => B j k * rowScale (A k) / colS A j) i k * equil A k l
        = B i k * A k l * (colS A l / colS A i) := by
      intro k
      have := (rowScale_pos (A k)).ne'
      have := (colS_pos A i).ne'
      simp only [Matrix.of_apply, equil]
      field_simp
    simp only [this]
    rw [← sum_mul, h3]
    by_cases hil : i = l
    · subst hil
      rw [div_self (colS_pos A i).ne', mul_one]
    · simp [hil]
  have h4 := mul_eq_one_comm.1 h1
  have : svd.ainv (equil A) = Matrix.of fun j k => B j k * rowScale (A k) / colS A j := by
    calc svd.ainv (equil A) = 1 * svd.ainv (equil A) := (Matrix.one_mul _).symm
      _ = _ := by rw [← h2, Matrix.mul_assoc, h4, Matrix.mul_one]
  rw [this, Matrix.of_apply]

/-- Half-widths of the smallest box around the region `|A (x - z)| ≤ e`. -/
def halfWidth (B : Matrix (Fin n) (Fin n) K) (e : Fin n → K) (j : Fin n) : K := ∑ k, |B j k| * e k

theorem halfWidth_nonneg (B : Matrix (Fin n) (Fin n) K) {e : Fin n → K} (he : ∀ i, 0 ≤ e i) (j : Fin n) : 0 ≤ halfWidth B e j :=
  sum_nonneg fun k _ => mul_nonneg (abs_nonneg _) (he k)

/-- A point of the region that is extreme in coordinate `j`. -/
theorem exists_extreme {A B : Matrix (Fin n) (Fin n) K} (hB : B * A = 1) {e : Fin n → K} (he : ∀ i, 0 ≤ e i) (j : Fin n) :
    ∃ x : Fin n → K, x j = halfWidth B e j ∧ (∀ l, |x l| ≤ halfWidth B e l) ∧ ∀ i, |∑ l, A i l * x l| ≤ e i := by
  have hAB := mul_eq_one_comm.1 hB
  let ρ : Fin n → K := fun k => if B j k < 0 then -e k else e k
  have hρ : ∀ k, |ρ k| = e k := by
    intro k
    simp only [ρ]
    split_ifs
    · rw [abs_neg, abs_of_nonneg (he k)]
    · exact abs_of_nonneg (he k)
  refine ⟨fun l => ∑ k, B l k * ρ k, ?_, ?_, ?_⟩
  · apply sum_congr rfl
    intro k _
    simp only [ρ]
    split_ifs with h
    · rw [abs_of_neg h]; ring
    · rw [abs_of_nonneg (not_lt.1 h)]
  · intro l
    refine (abs_sum_le_sum_abs _ _).trans (sum_le_sum fun k _ => ?_)
    rw [abs_mul, hρ]
  · intro i
    have : ∑ l, A i l * ∑ k, B l k * ρ k = ρ i := by
      have h1 : (A * B).mulVec ρ i = ρ i := by rw [hAB, Matrix.one_mulVec]
      rw [← Matrix.mulVec_mulVec] at h1
      exact h1
    rw [this, hρ]

theorem center_equil {svd : SVD n K} (hv : svd.Valid) {A B : Matrix (Fin n) (Fin n) K} (hB : B * A = 1)
    (hwc : svd.wellConditioned (equil A) = true) {c z : Fin n → K} (hz : ∀ i, c i + ∑ j, A i j * z j = 0) (j : Fin n) :
    -∑ k, svd.ainv (equil A) j k * (c k / rowScale (A k)) = z j / colS A j := by
  have h1 : ∀ k, svd.ainv (equil A) j k * (c k / rowScale (A k)) = -(B j k * ∑ l, A k l * z l) / colS A j := by
    intro k
    have := (rowScale_pos (A k)).ne'
    rw [ainv_equil hv hB hwc, show c k = -∑ l, A k l * z l by linarith [hz k]]
    field_simp
  simp only [h1]
  rw [← sum_div, sum_neg_distrib, neg_div, neg_neg]
  congr 1
  have h2 : (B * A).mulVec z j = z j := by rw [hB, Matrix.one_mulVec]
  rw [← Matrix.mulVec_mulVec] at h2
  exact h2

theorem width_equil {svd : SVD n K} (hv : svd.Valid) {A B : Matrix (Fin n) (Fin n) K} (hB : B * A = 1)
    (hwc : svd.wellConditioned (equil A) = true) {e : Fin n → K} (he : ∀ i, 0 ≤ e i) (j : Fin n) :
    ∑ k, |svd.ainv (equil A) j k * (e k / rowScale (A k))| = halfWidth B e j / colS A j := by
  unfold halfWidth
  rw [sum_div]
  apply sum_congr rfl
  intro k _
  have h1 := (rowScale_pos (A k)).ne'
  rw [ainv_equil hv hB hwc, show B j k * rowScale (A k) / colS A j * (e k / rowScale (A k)) = B j k * e k / colS A j by field_simp,
    abs_div, abs_mul, abs_of_nonneg (he k), abs_of_pos (colS_pos A j)]

/-- One pass in terms of the bounds it combines. -/
theorem boundPass_eq {svd : SVD n K} (hv : svd.Valid) (L : LinSys n K) (err : Fin n → K) (a0 : Fin n → WithBot K) (b0 : Fin n → WithTop K)
    (hwc : svd.wellConditioned L.A = true) (p q : Fin n → K)
    (ha : ∀ j, max ((-∑ k, svd.ainv L.A j k * L.consts k - ∑ k, |svd.ainv L.A j k * err k| : K) : WithBot K) (a0 j)
      = ((p j / L.colScaler j : K) : WithBot K))
    (hb : ∀ j, min ((-∑ k, svd.ainv L.A j k * L.consts k + ∑ k, |svd.ainv L.A j k * err k| : K) : WithTop K) (b0 j)
      = ((q j / L.colScaler j : K) : WithTop K))
    (hc : ∀ j, L.colScaler j ≠ 0) :
    boundPass svd L err a0 b0 =
      { a := fun j => clampLo ((p j - 2 * macheps : K) : WithBot K)
        b := fun j => clampHi ((q j + 2 * macheps : K) : WithTop K)
        throwOut := decide (∃ j, q j + 2 * macheps < p j - 2 * macheps) || decide (∃ j, 1 < p j - 2 * macheps) ||
          decide (∃ j, q j + 2 * macheps < -1)
        newRatio := (∏ j, (clampHi ((q j + 2 * macheps : K) : WithTop K) - clampLo ((p j - 2 * macheps : K) : WithBot K))) / 2 ^ n } := by
  have hw := SVD.width_eq hv L.A
  have e1 : ∀ (j : Fin n) (x : K), x / L.colScaler j * L.colScaler j = x := fun j x => div_mul_cancel₀ _ (hc j)
  unfold boundPass
  simp only [hwc, if_true, ha, hb, hw, WithBot.map_coe, WithTop.map_coe, e1, WithBot.coe_lt_coe, WithTop.coe_lt_coe, decide_eq_true_eq,
    gt_iff_lt]

theorem clampLo_of_mem {x : K} (h1 : -1 ≤ x) (h2 : x ≤ 1) : clampLo (x : WithBot K) = x := by
  show (if x < -1 then -1 else if x > 1 then 1 else x) = x
  rw [if_neg (not_lt.2 h1), if_neg (not_lt.2 h2)]

theorem clampHi_of_mem {x : K} (h1 : -1 ≤ x) (h2 : x ≤ 1) : clampHi (x : WithTop K) = x := by
  show (if x < -1 then -1 else if x > 1 then 1 else x) = x
  rw [if_neg (not_lt.2 h1), if_neg (not_lt.2 h2)]

theorem clampLo_of_le {x : K} (h1 : x ≤ -1) : clampLo (x : WithBot K) = -1 := by
  show (if x < -1 then -1 else if x > 1 then 1 else x) = -1
  split_ifs with h2 h3
  · rfl
  · linarith
  · linarith

theorem clampHi_of_ge {x : K} (h1 : 1 ≤ x) : clampHi (x : WithTop K) = 1 := by
  show (if x < -1 then -1 else if x > 1 then 1 else x) = 1
  split_ifs with h2 h3
  · linarith
  · rfl
  · linarith

/-- The bounding step on an affine system whose region lies well inside the cube: the box around the region, enlarged a little. -/
theorem bounding_cut {svd : SVD n K} (hv : svd.Valid) {Ms : Fin n → Tensor n K} {A B : Matrix (Fin n) (Fin n) K} {c z e : Fin n → K}
    (h : AffSys Ms A c) (hB : B * A = 1) (hwc : svd.wellConditioned (equil A) = true) (hz : ∀ i, c i + ∑ j, A i j * z j = 0)
    (he : ∀ i, 0 ≤ e i) (hin : ∀ j, |z j| + halfWidth B e j + 2 * macheps ≤ 1)
    (hvol : ∏ j, (halfWidth B e j + 2 * macheps) < 99 / 100) :
    boundingIntervalLinearSystem svd Ms e false =
      ⟨⟨fun j => z j - halfWidth B e j - 2 * macheps, fun j => z j + halfWidth B e j + 2 * macheps⟩, true, false, false⟩ := by
  have hm : (0 : K) < macheps := macheps_pos
  have hL := linSys_affine h e
  have hhw : ∀ j, 0 ≤ halfWidth B e j := halfWidth_nonneg B he
  have hkey : ∀ x : Fin n → K, (∀ l, |x l| ≤ halfWidth B e l) → (∀ i, |∑ l, A i l * x l| ≤ e i) → ∀ j,
      (linearCheck1 (linSys Ms e false).totalErrs (linSys Ms e false).A (linSys Ms e false).consts).1 j ≤
        (((z j + x j) / colS A j : K) : WithBot K) ∧
      (((z j + x j) / colS A j : K) : WithTop K) ≤
        (linearCheck1 (linSys Ms e false).totalErrs (linSys Ms e false).A (linSys Ms e false).consts).2 j := by
    intro x hx1 hx2 j
    have hcube : InCube fun l => z l + x l := by
      intro l
      have := abs_add_le (z l) (x l)
      have := hx1 l
      have := hin l
      linarith
    have hs := linSys_holds Ms e (fun i => (h i).1.nonempty) _ hcube (fun i => by
      rw [(h i).1.absSum, (h i).2.1]
      simp only [(h i).2.2]
      have : c i + ∑ j, A i j * (z j + x j) = ∑ l, A i l * x l := by
        simp only [mul_add, sum_add_distrib]
        linarith [hz i]
      rw [this]
      have := hx2 i
      linarith)
    obtain ⟨h1, h2, h3⟩ := hs
    have := linearCheck1_sound (linSys Ms e false).totalErrs (linSys Ms e false).A (linSys Ms e false).consts _ h1
      (fun i => by rw [← h3 i]; exact h2 i) j
    have hcs : (linSys Ms e false).colScaler = colS A := by rw [hL]
    rw [hcs] at this
    exact this
  have hP : boundPass svd (linSys Ms e false) (linSys Ms e false).err
      (linearCheck1 (linSys Ms e false).totalErrs (linSys Ms e false).A (linSys Ms e false).consts).1
      (linearCheck1 (linSys Ms e false).totalErrs (linSys Ms e false).A (linSys Ms e false).consts).2 =
      { a := fun j => z j - halfWidth B e j - 2 * macheps
        b := fun j => z j + halfWidth B e j + 2 * macheps
        throwOut := false
        newRatio := ∏ j, (halfWidth B e j + 2 * macheps) } := by
    rw [boundPass_eq hv _ _ _ _ (by rw [hL]; exact hwc) (fun j => z j - halfWidth B e j) (fun j => z j + halfWidth B e j)]
    · have ha : ∀ j, -1 ≤ z j - halfWidth B e j - 2 * macheps ∧ z j - halfWidth B e j - 2 * macheps ≤ 1 ∧
          -1 ≤ z j + halfWidth B e j + 2 * macheps ∧ z j + halfWidth B e j + 2 * macheps ≤ 1 := by
        intro j
        have h1 := hin j
        have h2 := hhw j
        have h3 := le_abs_self (z j)
        have h4 := neg_abs_le (z j)
        refine ⟨?_, ?_, ?_, ?_⟩ <;> linarith
      congr 1
      · funext j
        exact clampLo_of_mem (ha j).1 (ha j).2.1
      · funext j
        exact clampHi_of_mem (ha j).2.2.1 (ha j).2.2.2
      · simp only [Bool.or_eq_false_iff, decide_eq_false_iff_not, not_exists, not_lt]
        refine ⟨⟨fun j => ?_, fun j => ?_⟩, fun j => ?_⟩
        · have := hhw j; linarith
        · exact (ha j).2.1
        · exact (ha j).2.2.1
      · have : ∀ j, clampHi ((z j + halfWidth B e j + 2 * macheps : K) : WithTop K) -
            clampLo ((z j - halfWidth B e j - 2 * macheps : K) : WithBot K) = 2 * (halfWidth B e j + 2 * macheps) := by
          intro j
          rw [clampLo_of_mem (ha j).1 (ha j).2.1, clampHi_of_mem (ha j).2.2.1 (ha j).2.2.2]
          ring
        simp only [this]
        rw [prod_mul_distrib, prod_const, card_univ, Fintype.card_fin, mul_div_cancel_left₀]
        positivity
    · intro j
      obtain ⟨x, hx1, hx2, hx3⟩ := exists_extreme hB he j
      have h1 := (hkey (fun l => -x l) (fun l => by rw [abs_neg]; exact hx2 l)
        (fun i => by simp only [mul_neg, sum_neg_distrib, abs_neg]; exact hx3 i) j).1
      rw [hx1] at h1
      rw [max_eq_left]
      · rw [hL]
        simp only
        rw [center_equil hv hB hwc hz, width_equil hv hB hwc he, sub_div]
      · refine h1.trans (le_of_eq ?_)
        rw [hL]
        simp only
        rw [center_equil hv hB hwc hz, width_equil hv hB hwc he, ← sub_eq_add_neg, sub_div]
    · intro j
      obtain ⟨x, hx1, hx2, hx3⟩ := exists_extreme hB he j
      have h1 := (hkey x hx2 hx3 j).2
      rw [hx1] at h1
      rw [min_eq_left]
      · rw [hL]
        simp only
        rw [center_equil hv hB hwc hz, width_equil hv hB hwc he, add_div]
      · refine le_trans (le_of_eq ?_) h1
        rw [hL]
        simp only
        rw [center_equil hv hB hwc hz, width_equil hv hB hwc he, add_div]
    · intro j
      rw [hL]
      exact (colS_pos A j).ne'
  unfold boundingIntervalLinearSystem
  simp only [hP, hvol, Bool.false_or, decide_true, if_true, Bool.false_and]

/-- The bounding step on an affine system that cannot be cut: it stops. -/
theorem bounding_stall {svd : SVD n K} (hv : svd.Valid) {Ms : Fin n → Tensor n K} {A B : Matrix (Fin n) (Fin n) K} {e : Fin n → K}
    (h : AffSys Ms A fun _ => 0) (hB : B * A = 1) (hwc : svd.wellConditioned (equil A) = true)
    (he : ∀ i, 0 ≤ e i) (hr : ∀ j, 1 ≤ halfWidth B e j) (hl : ∀ i j, |A i j| ≤ e i + ∑ l ∈ univ.erase j, |A i l|) :
    boundingIntervalLinearSystem svd Ms e false = ⟨Box.unit n K, false, true, false⟩ := by
  have hm : (0 : K) < macheps := macheps_pos
  have hL := linSys_affine h e
  have hlin : ∀ j t, |t| = 1 →
      (linearCheck1 (linSys Ms e false).totalErrs (linSys Ms e false).A (linSys Ms e false).consts).1 j ≤ ((t / colS A j : K) : WithBot K) ∧
      ((t / colS A j : K) : WithTop K) ≤
        (linearCheck1 (linSys Ms e false).totalErrs (linSys Ms e false).A (linSys Ms e false).consts).2 j := by
    intro j t ht
    rw [C11_linearCheck1_iff]
    intro i _
    rw [hL]
    simp only [equil, Matrix.of_apply]
    have hs := rowScale_pos (A i)
    have hcj := colS_pos A j
    rw [zero_div, abs_zero, zero_add, zero_add, sub_zero,
      show A i j / rowScale (A i) * colS A j * (t / colS A j) = A i j * t / rowScale (A i) by field_simp,
      abs_div, abs_mul, ht, mul_one, abs_of_pos hs, abs_mul, abs_div, abs_of_pos hs, abs_of_pos hcj]
    have e1 : ∑ l, |A i l / rowScale (A i)| * (colS A l - 1) =
        (∑ l, |A i l| * colS A l) / rowScale (A i) - (∑ l, |A i l|) / rowScale (A i) := by
      rw [← sub_div, ← sum_sub_distrib, sum_div]
      apply sum_congr rfl
      intro l _
      rw [abs_div, abs_of_pos hs]
      ring
    have e2 : ∑ l, |A i l| * colS A l = |A i j| * colS A j + ∑ l ∈ univ.erase j, |A i l| * colS A l :=
      (add_sum_erase _ _ (mem_univ j)).symm
    have e3 : ∑ l ∈ univ.erase j, |A i l| ≤ ∑ l ∈ univ.erase j, |A i l| * colS A l :=
      sum_le_sum fun l _ => le_mul_of_one_le_right (abs_nonneg _) (one_le_colS A l)
    rw [e1, e2]
    have e4 : ((∑ l, |A i l|) + e i) / rowScale (A i) +
        ((|A i j| * colS A j + ∑ l ∈ univ.erase j, |A i l| * colS A l) / rowScale (A i) - (∑ l, |A i l|) / rowScale (A i)) -
        |A i j| / rowScale (A i) * colS A j = (e i + ∑ l ∈ univ.erase j, |A i l| * colS A l) / rowScale (A i) := by
      field_simp
      ring
    rw [e4]
    exact div_le_div_of_nonneg_right ((hl i j).trans (by linarith)) hs.le
  have hex : ∀ (j : Fin n) (a : WithBot K), a ≤ ((-1 / colS A j : K) : WithBot K) → ∀ y : K, y ≤ -1 / colS A j →
      ∃ p : K, p ≤ -1 ∧ max (y : WithBot K) a = ((p / colS A j : K) : WithBot K) := by
    intro j a ha y hy
    have hc := colS_pos A j
    induction a using WithBot.recBotCoe with
    | bot => exact ⟨y * colS A j, by rwa [le_div_iff₀ hc] at hy, by simp [hc.ne']⟩
    | coe v =>
      have hv := WithBot.coe_le_coe.1 ha
      refine ⟨max y v * colS A j, ?_, ?_⟩
      · have := max_le hy hv
        rwa [le_div_iff₀ hc] at this
      · rw [mul_div_cancel_right₀ _ hc.ne']; rfl
  have hex' : ∀ (j : Fin n) (a : WithTop K), ((1 / colS A j : K) : WithTop K) ≤ a → ∀ y : K, 1 / colS A j ≤ y →
      ∃ p : K, 1 ≤ p ∧ min (y : WithTop K) a = ((p / colS A j : K) : WithTop K) := by
    intro j a ha y hy
    have hc := colS_pos A j
    induction a using WithTop.recTopCoe with
    | top => exact ⟨y * colS A j, by rwa [div_le_iff₀ hc] at hy, by simp [hc.ne']⟩
    | coe v =>
      have hv := WithTop.coe_le_coe.1 ha
      refine ⟨min y v * colS A j, ?_, ?_⟩
      · have := le_min hy hv
        rwa [div_le_iff₀ hc] at this
      · rw [mul_div_cancel_right₀ _ hc.ne']; rfl
  have hz0 : ∀ i, (fun _ : Fin n => (0 : K)) i + ∑ j, A i j * (fun _ : Fin n => (0 : K)) j = 0 := by intro i; simp
  have hcen : ∀ j, -∑ k, svd.ainv (linSys Ms e false).A j k * (linSys Ms e false).consts k = 0 := by
    intro j
    rw [hL]
    have := center_equil hv hB hwc hz0 j
    simp only at this ⊢
    rw [this, zero_div]
  have hwid : ∀ j, ∑ k, |svd.ainv (linSys Ms e false).A j k * (linSys Ms e false).err k| = halfWidth B e j / colS A j := by
    intro j
    rw [hL]
    exact width_equil hv hB hwc he j
  have hcol : (linSys Ms e false).colScaler = colS A := by rw [hL]
  have hpass : ∀ j, ∃ p q : K, p ≤ -1 ∧ 1 ≤ q ∧
      max ((-∑ k, svd.ainv (linSys Ms e false).A j k * (linSys Ms e false).consts k -
        ∑ k, |svd.ainv (linSys Ms e false).A j k * (linSys Ms e false).err k| : K) : WithBot K)
        ((linearCheck1 (linSys Ms e false).totalErrs (linSys Ms e false).A (linSys Ms e false).consts).1 j)
        = ((p / (linSys Ms e false).colScaler j : K) : WithBot K) ∧
      min ((-∑ k, svd.ainv (linSys Ms e false).A j k * (linSys Ms e false).consts k +
        ∑ k, |svd.ainv (linSys Ms e false).A j k * (linSys Ms e false).err k| : K) : WithTop K)
        ((linearCheck1 (linSys Ms e false).totalErrs (linSys Ms e false).A (linSys Ms e false).consts).2 j)
        = ((q / (linSys Ms e false).colScaler j : K) : WithTop K) := by
    intro j
    have hcj := colS_pos A j
    have h1 : 1 / colS A j ≤ halfWidth B e j / colS A j := div_le_div_of_nonneg_right (hr j) hcj.le
    obtain ⟨p, hp, hp'⟩ := hex j _ (hlin j (-1) (by simp)).1 (-(halfWidth B e j / colS A j)) (by rw [neg_div]; linarith)
    obtain ⟨q, hq, hq'⟩ := hex' j _ (hlin j 1 (by simp)).2 (halfWidth B e j / colS A j) h1
    refine ⟨p, q, hp, hq, ?_, ?_⟩
    · rw [hcen, hwid, zero_sub, hcol]; exact hp'
    · rw [hcen, hwid, zero_add, hcol]; exact hq'
  choose p q hp hq hp' hq' using hpass
  have hP : boundPass svd (linSys Ms e false) (linSys Ms e false).err
      (linearCheck1 (linSys Ms e false).totalErrs (linSys Ms e false).A (linSys Ms e false).consts).1
      (linearCheck1 (linSys Ms e false).totalErrs (linSys Ms e false).A (linSys Ms e false).consts).2 =
      { a := fun _ => -1, b := fun _ => 1, throwOut := false, newRatio := 1 } := by
    rw [boundPass_eq hv _ _ _ _ (by rw [hL]; exact hwc) p q hp' hq' (fun j => by rw [hcol]; exact (colS_pos A j).ne')]
    have ha : ∀ j, clampLo ((p j - 2 * macheps : K) : WithBot K) = -1 := fun j => clampLo_of_le (by have := hp j; linarith)
    have hb : ∀ j, clampHi ((q j + 2 * macheps : K) : WithTop K) = 1 := fun j => clampHi_of_ge (by have := hq j; linarith)
    simp only [ha, hb]
    congr 1
    · simp only [Bool.or_eq_false_iff, decide_eq_false_iff_not, not_exists, not_lt]
      refine ⟨⟨fun j => ?_, fun j => ?_⟩, fun j => ?_⟩ <;> have := hp j <;> have := hq j <;> linarith
    · rw [prod_const, card_univ, Fintype.card_fin, show (1 : K) - -1 = 2 by norm_num, div_self (by positivity)]
  have hee : (linSys Ms e false).errors = (linSys Ms e false).err := by rw [hL]
  have hwc' : svd.wellConditioned (linSys Ms e false).A = true := by rw [hL]; exact hwc
  have hpow : ¬ ((1 : K) < (4 / 10) ^ n) := not_lt.2 (pow_le_one₀ (by norm_num) (by norm_num))
  have h99 : ¬ ((1 : K) < 99 / 100) := by norm_num
  unfold boundingIntervalLinearSystem
  simp only [hee, hP, hwc', if_true, h99, hpow, decide_false, Bool.or_false, Bool.false_eq_true, if_false, Bool.not_true, Bool.and_false]
  rfl

/-- A system whose zero is clearly outside the cube is thrown out. -/
theorem bounding_out {svd : SVD n K} (hv : svd.Valid) {Ms : Fin n → Tensor n K} {A B : Matrix (Fin n) (Fin n) K} {c z e : Fin n → K}
    (h : AffSys Ms A c) (hB : B * A = 1) (hwc : svd.wellConditioned (equil A) = true) (hz : ∀ i, c i + ∑ j, A i j * z j = 0)
    (he : ∀ i, 0 ≤ e i) (hout : ∃ j, 1 + halfWidth B e j + 2 * macheps < |z j|) :
    (boundingIntervalLinearSystem svd Ms e false).throwOut = true := by
  have hm : (0 : K) < macheps := macheps_pos
  have hL := linSys_affine h e
  have hwc' : svd.wellConditioned (linSys Ms e false).A = true := by rw [hL]; exact hwc
  have hw := SVD.width_eq hv (linSys Ms e false).A
  obtain ⟨j, hj⟩ := hout
  have hcj := colS_pos A j
  have hcen : -∑ k, svd.ainv (linSys Ms e false).A j k * (linSys Ms e false).consts k = z j / colS A j := by
    rw [hL]
    exact center_equil hv hB hwc hz j
  have hwid : ∑ k, |svd.ainv (linSys Ms e false).A j k * (linSys Ms e false).err k| = halfWidth B e j / colS A j := by
    rw [hL]
    exact width_equil hv hB hwc he j
  have hcol : (linSys Ms e false).colScaler = colS A := by rw [hL]
  have hT : (boundPass svd (linSys Ms e false) (linSys Ms e false).err
      (linearCheck1 (linSys Ms e false).totalErrs (linSys Ms e false).A (linSys Ms e false).consts).1
      (linearCheck1 (linSys Ms e false).totalErrs (linSys Ms e false).A (linSys Ms e false).consts).2).throwOut = true := by
    unfold boundPass
    simp only [hwc', if_true, hw, hcol, Bool.or_eq_true, decide_eq_true_eq]
    rcases le_total 0 (z j) with h0 | h0
    · left; right
      refine ⟨j, ?_⟩
      rw [hcen, hwid]
      rw [abs_of_nonneg h0] at hj
      generalize (linearCheck1 (linSys Ms e false).totalErrs (linSys Ms e false).A (linSys Ms e false).consts).1 j = a
      have hv : (1 : K) < (z j / colS A j - halfWidth B e j / colS A j) * colS A j - 2 * macheps := by
        rw [← sub_div, div_mul_cancel₀ _ hcj.ne']; linarith
      induction a using WithBot.recBotCoe with
      | bot => rw [max_eq_left bot_le, WithBot.map_coe]; exact WithBot.coe_lt_coe.2 hv
      | coe v =>
        rw [← WithBot.coe_max, WithBot.map_coe]
        apply WithBot.coe_lt_coe.2
        refine lt_of_lt_of_le hv ?_
        have := mul_le_mul_of_nonneg_right (le_max_left (z j / colS A j - halfWidth B e j / colS A j) v) hcj.le
        linarith
    · right
      refine ⟨j, ?_⟩
      rw [hcen, hwid]
      rw [abs_of_nonpos h0] at hj
      generalize (linearCheck1 (linSys Ms e false).totalErrs (linSys Ms e false).A (linSys Ms e false).consts).2 j = a
      have hv : (z j / colS A j + halfWidth B e j / colS A j) * colS A j + 2 * macheps < -1 := by
        rw [← add_div, div_mul_cancel₀ _ hcj.ne']; linarith
      induction a using WithTop.recTopCoe with
      | top => rw [min_eq_left le_top, WithTop.map_coe]; exact WithTop.coe_lt_coe.2 hv
      | coe v =>
        rw [← WithTop.coe_min, WithTop.map_coe]
        apply WithTop.coe_lt_coe.2
        refine lt_of_le_of_lt ?_ hv
        have := mul_le_mul_of_nonneg_right (min_le_left (z j / colS A j + halfWidth B e j / colS A j) v) hcj.le
        linarith
  unfold boundingIntervalLinearSystem
  simp only [hT, Bool.true_or, if_true]

end YRoots
