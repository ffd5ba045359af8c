import Verif.Proofs.LinearTerms
import Verif.Proofs.Interval
import Mathlib.Algebra.Order.Field.Basic
import Mathlib.Algebra.BigOperators.Field
import Mathlib.LinearAlgebra.Matrix.NonsingularInverse

/-!
# Helper lemmas: soundness of the linear bounding step
-/

set_option linter.unusedSectionVars false
set_option linter.unusedSimpArgs false

namespace YRoots

open Finset

variable {n : ℕ} {K : Type*} [Field K] [LinearOrder K] [IsStrictOrderedRing K]

/-- A linear row with residual mass: `|c + Σ A_j x_j| ≤ err`. -/
def RowBound (A : Fin n → K) (c err : K) (x : Fin n → K) : Prop :=
  |c + ∑ j, A j * x j| ≤ err

/-- One entry of `linearCheck1`. -/
theorem linBounds_sound (A : Fin n → K) (c T : K) (x : Fin n → K) (hx : InCube x) (j : Fin n)
    (hA : A j ≠ 0) (h : |c + ∑ j, A j * x j| ≤ T - |c| - ∑ j, |A j|) :
    (linBounds T (A j) c).1 ≤ x j ∧ x j ≤ (linBounds T (A j) c).2 := by
  have hpos : 0 < |A j| := abs_pos.2 hA
  -- the other entries are bounded by their absolute values
  have h1 : |c + A j * x j| ≤ T - |c| - |A j| := by
    have e : c + ∑ j, A j * x j = (c + A j * x j) + ∑ k ∈ univ.erase j, A k * x k := by
      rw [← add_sum_erase _ _ (mem_univ j)]; ring
    have e2 : ∑ k, |A k| = |A j| + ∑ k ∈ univ.erase j, |A k| := by
      rw [← add_sum_erase _ _ (mem_univ j)]
    have e3 : |∑ k ∈ univ.erase j, A k * x k| ≤ ∑ k ∈ univ.erase j, |A k| := by
      refine (abs_sum_le_sum_abs _ _).trans (sum_le_sum fun k _ => ?_)
      rw [abs_mul]
      calc _ ≤ |A k| * 1 := mul_le_mul_of_nonneg_left (hx k) (abs_nonneg _)
        _ = _ := mul_one _
    have e4 : |c + A j * x j| ≤ |c + ∑ j, A j * x j| + |∑ k ∈ univ.erase j, A k * x k| := by
      have : c + A j * x j = (c + ∑ j, A j * x j) - ∑ k ∈ univ.erase j, A k * x k := by rw [e]; ring
      rw [this]; exact abs_sub _ _
    linarith
  -- divide by |A j|
  have h2 : |c / A j + x j| ≤ T / |A j| - |c / A j| - 1 := by
    have e : c / A j + x j = (c + A j * x j) / A j := by field_simp
    rw [e, abs_div, abs_div]
    have : T / |A j| - |c| / |A j| - 1 = (T - |c| - |A j|) / |A j| := by field_simp
    rw [this]
    exact div_le_div_of_nonneg_right h1 hpos.le
  unfold linBounds
  have e2 : 2 * c / A j = 2 * (c / A j) := by ring
  simp only [e2]
  generalize c / A j = t at h2
  generalize T / |A j| = v at h2
  have h3 := abs_le.1 h2
  split
  · rename_i ht
    have : 0 ≤ t := by linarith
    rw [abs_of_nonneg this] at h3
    constructor <;> simp only <;> linarith [h3.1, h3.2]
  · rename_i ht
    have : t < 0 := by
      by_contra hc; push Not at hc; exact ht (by linarith)
    rw [abs_of_neg this] at h3
    constructor <;> simp only <;> linarith [h3.1, h3.2]

theorem foldl_max_le {α : Type*} (l : List α) (p : α → Prop) [DecidablePred p] (f : α → K) (y : WithBot K)
    (h : ∀ r ∈ l, p r → ((f r : K) : WithBot K) ≤ y) (a : WithBot K) (ha : a ≤ y) :
    l.foldl (fun (a : WithBot K) r => if p r then max a ((f r : K) : WithBot K) else a) a ≤ y := by
  induction l generalizing a with
  | nil => exact ha
  | cons r l ih =>
    apply ih (fun r hr => h r (List.mem_cons_of_mem _ hr))
    dsimp only
    split
    · rename_i hp; exact max_le ha (h r List.mem_cons_self hp)
    · exact ha

theorem foldl_le_min {α : Type*} (l : List α) (p : α → Prop) [DecidablePred p] (f : α → K) (y : WithTop K)
    (h : ∀ r ∈ l, p r → y ≤ ((f r : K) : WithTop K)) (a : WithTop K) (ha : y ≤ a) :
    y ≤ l.foldl (fun (a : WithTop K) r => if p r then min a ((f r : K) : WithTop K) else a) a := by
  induction l generalizing a with
  | nil => exact ha
  | cons r l ih =>
    apply ih (fun r hr => h r (List.mem_cons_of_mem _ hr))
    dsimp only
    split
    · rename_i hp; exact le_min ha (h r List.mem_cons_self hp)
    · exact ha

theorem linearCheck1_sound (T : Fin n → K) (A : Matrix (Fin n) (Fin n) K) (c : Fin n → K)
    (x : Fin n → K) (hx : InCube x)
    (h : ∀ i, |c i + ∑ j, A i j * x j| ≤ T i - |c i| - ∑ j, |A i j|) (j : Fin n) :
    (linearCheck1 T A c).1 j ≤ (x j : WithBot K) ∧ (x j : WithTop K) ≤ (linearCheck1 T A c).2 j := by
  constructor
  · apply foldl_max_le
    · intro r _ hr
      exact WithBot.coe_le_coe.2 (linBounds_sound (A r) (c r) (T r) x hx j hr (h r)).1
    · exact bot_le
  · apply foldl_le_min
    · intro r _ hr
      exact WithTop.coe_le_coe.2 (linBounds_sound (A r) (c r) (T r) x hx j hr (h r)).2
    · exact le_top

/-! ### Scaling -/

theorem le_foldl_max (v : Fin n → K) (l : List (Fin n)) (m : K) :
    m ≤ l.foldl (fun m i => max m |v i|) m ∧ ∀ i ∈ l, |v i| ≤ l.foldl (fun m i => max m |v i|) m := by
  induction l generalizing m with
  | nil => simp
  | cons a l ih =>
    simp only [List.foldl_cons, List.mem_cons]
    obtain ⟨h1, h2⟩ := ih (max m |v a|)
    refine ⟨(le_max_left _ _).trans h1, ?_⟩
    rintro i (rfl | hi)
    · exact (le_max_right _ _).trans h1
    · exact h2 i hi

theorem foldl_max_lt (v : Fin n → K) (l : List (Fin n)) (m B : K) (hm : m < B) (h : ∀ i, |v i| < B) :
    l.foldl (fun m i => max m |v i|) m < B := by
  induction l generalizing m with
  | nil => exact hm
  | cons a l ih => exact ih _ (max_lt hm (h a))

theorem abs_le_maxAbs (v : Fin n → K) (i : Fin n) : |v i| ≤ maxAbs v :=
  (le_foldl_max v _ 0).2 i (List.mem_finRange i)

theorem maxAbs_nonneg (v : Fin n → K) : 0 ≤ maxAbs v := (le_foldl_max v _ 0).1

theorem maxAbs_lt (v : Fin n → K) {B : K} (hB : 0 < B) (h : ∀ i, |v i| < B) : maxAbs v < B :=
  foldl_max_lt v _ 0 B hB h

variable [FloorSemiring K]

theorem rowScale_pos (v : Fin n → K) : 0 < rowScale v := by
  unfold rowScale pow2Floor
  split
  · exact zpow_pos two_pos _
  · exact one_pos

theorem abs_div_rowScale_lt (v : Fin n → K) (i : Fin n) : |v i / rowScale v| < 2 := by
  rw [abs_div, abs_of_pos (rowScale_pos v), div_lt_iff₀ (rowScale_pos v)]
  have h := abs_le_maxAbs v i
  unfold rowScale pow2Floor
  split
  · rename_i hm
    have h2 := Int.lt_zpow_succ_log_self (b := 2) one_lt_two (maxAbs v)
    rw [Nat.cast_ofNat, zpow_add_one₀ (two_ne_zero)] at h2
    linarith
  · rename_i hm
    linarith

theorem one_le_colScale (v : Fin n → K) (h : ∀ i, |v i| < 2) : 1 ≤ colScale v := by
  unfold colScale
  split
  · rename_i hm
    have hlt : maxAbs v < 2 := maxAbs_lt v two_pos h
    have h1 : Int.log 2 (maxAbs v) ≤ 0 := by
      have h2 := Int.zpow_log_le_self (b := 2) one_lt_two hm
      rw [Nat.cast_ofNat] at h2
      by_contra hc
      push Not at hc
      have : (2 : K) ^ (1 : ℤ) ≤ 2 ^ Int.log 2 (maxAbs v) :=
        zpow_le_zpow_right₀ one_le_two (by omega)
      rw [zpow_one] at this
      linarith
    have := zpow_le_zpow_right₀ (one_le_two (α := K)) (show (0 : ℤ) ≤ -Int.log 2 (maxAbs v) by omega)
    simpa using this
  · exact le_rfl

/-! ### The scaled system -/

/-- The scaled system holds at a point `y` of the cube: every row bounds its residual, and the row masses
are consistent with `totalErrs`. -/
structure LinSys.Holds (L : LinSys n K) (err : Fin n → K) (y : Fin n → K) : Prop where
  cube : InCube y
  row : ∀ i, |L.consts i + ∑ j, L.A i j * y j| ≤ err i

theorem linSys_colScaler_ge (Ms : Fin n → Tensor n K) (errors : Fin n → K) (fs : Bool) (j : Fin n) :
    1 ≤ (linSys Ms errors fs).colScaler j :=
  one_le_colScale _ fun i => abs_div_rowScale_lt _ j

/-- Residual bounds in the original variables become residual bounds of the scaled system. -/
theorem linSys_holds (Ms : Fin n → Tensor n K) (errors : Fin n → K)
    (hM : ∀ i, (Ms i).Nonempty) (x : Fin n → K) (hx : InCube x)
    (h : ∀ i, |(Ms i).const + ∑ j, linCoef (Ms i) j * x j|
      ≤ (Ms i).absSum + errors i - |(Ms i).const| - ∑ j, |linCoef (Ms i) j|) :
    let L := linSys Ms errors false
    let y := fun j => x j / L.colScaler j
    InCube y ∧ (∀ i, |L.consts i + ∑ j, L.A i j * y j| ≤ L.err i) ∧
      ∀ i, L.err i = L.totalErrs i - |L.consts i| - ∑ j, |L.A i j| := by
  intro L y
  have hc : ∀ j, 1 ≤ L.colScaler j := linSys_colScaler_ge Ms errors false
  have hc0 : ∀ j, 0 < L.colScaler j := fun j => lt_of_lt_of_le one_pos (hc j)
  have hA : ∀ (i j : Fin n), (getLinearTerms (Ms i)).getD j 0 = linCoef (Ms i) j :=
    fun i j => getLinearTerms_getD (Ms i) (hM i) j
  set s : Fin n → K := fun i => rowScale fun j => linCoef (Ms i) j with hs
  have hspos : ∀ i, 0 < s i := fun i => rowScale_pos _
  have eS : ∀ i, rowScale ((Matrix.of fun i (j : Fin n) => (getLinearTerms (Ms i)).getD j 0) i) = s i := by
    intro i
    show rowScale (fun j : Fin n => (getLinearTerms (Ms i)).getD j 0) = _
    simp only [hA, hs]
  have eA : ∀ i j, L.A i j = linCoef (Ms i) j / s i * L.colScaler j := by
    intro i j
    show (getLinearTerms (Ms i)).getD j 0 / rowScale _ * _ = _
    rw [eS, hA]; rfl
  have eC : ∀ i, L.consts i = (Ms i).const / s i := by
    intro i
    show (Ms i).ravel 0 / rowScale _ = _
    rw [eS, ravel_zero]
  have eE : ∀ i, L.err i
      = ((Ms i).absSum + errors i - |(Ms i).const| - ∑ j, |linCoef (Ms i) j|) / s i := by
    intro i
    show (_ - |(Ms i).ravel 0| - ∑ j : Fin n, |(getLinearTerms (Ms i)).getD j 0|) / rowScale _ = _
    rw [eS, ravel_zero]
    simp only [hA]
    rfl
  have eT : ∀ i, L.totalErrs i
      = ((Ms i).absSum + errors i) / s i + ∑ j, |linCoef (Ms i) j / s i| * (L.colScaler j - 1) := by
    intro i
    show ((Ms i).absSum + errors i) / rowScale _ +
      ∑ j : Fin n, |(getLinearTerms (Ms i)).getD j 0 / rowScale _| * (L.colScaler j - 1) = _
    rw [eS]
    congr 1
    apply sum_congr rfl
    intro j _
    rw [hA]
  refine ⟨?_, ?_, ?_⟩
  · intro j
    show |x j / L.colScaler j| ≤ 1
    rw [abs_div, abs_of_pos (hc0 j), div_le_one (hc0 j)]
    exact (hx j).trans (hc j)
  · intro i
    rw [eE]
    have : L.consts i + ∑ j, L.A i j * y j = ((Ms i).const + ∑ j, linCoef (Ms i) j * x j) / s i := by
      rw [eC, add_div, sum_div]
      congr 1
      apply sum_congr rfl
      intro j _
      rw [eA]
      show _ * (x j / L.colScaler j) = _
      have := (hc0 j).ne'
      field_simp
    rw [this, abs_div, abs_of_pos (hspos i)]
    exact div_le_div_of_nonneg_right (h i) (hspos i).le
  · intro i
    rw [eE, eT, eC]
    have : ∑ j, |L.A i j| = ∑ j, |linCoef (Ms i) j / s i| * L.colScaler j := by
      apply sum_congr rfl
      intro j _
      rw [eA, abs_mul, abs_of_pos (hc0 j)]
    rw [this]
    have e2 : ∑ j, |linCoef (Ms i) j / s i| * (L.colScaler j - 1)
        = ∑ j, |linCoef (Ms i) j / s i| * L.colScaler j - ∑ j, |linCoef (Ms i) j / s i| := by
      rw [← sum_sub_distrib]
      apply sum_congr rfl; intros; ring
    have e3 : ∑ j, |linCoef (Ms i) j / s i| = (∑ j, |linCoef (Ms i) j|) / s i := by
      rw [sum_div]
      apply sum_congr rfl
      intros; rw [abs_div, abs_of_pos (hspos i)]
    rw [e2, e3, abs_div, abs_of_pos (hspos i)]
    ring

/-! ### The inverse bound -/

theorem SVD.S_pos_of_anti (svd : SVD n K) (anti : ∀ A i j, i ≤ j → svd.S A j ≤ svd.S A i)
    (A : Matrix (Fin n) (Fin n) K)
    (hwc : svd.wellConditioned A = true) (i : Fin n) : 0 < svd.S A i := by
  have hn : 0 < n := Fin.pos i
  unfold SVD.wellConditioned SVD.condNum at hwc
  simp only [hn, dif_pos, decide_eq_true_eq] at hwc
  obtain ⟨h0, hcn⟩ := hwc
  have h1 : 0 < svd.S A ⟨n - 1, by omega⟩ := by
    by_contra hc
    push Not at hc
    have h2 : svd.S A ⟨n - 1, by omega⟩ / svd.S A ⟨0, hn⟩ ≤ 0 := div_nonpos_of_nonpos_of_nonneg hc h0.le
    have h3 : (0 : K) < 1 / 10 ^ 10 := by positivity
    linarith
  exact lt_of_lt_of_le h1 (anti A i ⟨n - 1, by omega⟩ (Fin.le_def.2 (by have := i.2; simp; omega)))

theorem SVD.S_pos {svd : SVD n K} (hv : svd.Valid) (A : Matrix (Fin n) (Fin n) K)
    (hwc : svd.wellConditioned A = true) (i : Fin n) : 0 < svd.S A i :=
  svd.S_pos_of_anti hv.anti A hwc i

theorem SVD.ainv_mul {svd : SVD n K} (hv : svd.Valid) (A : Matrix (Fin n) (Fin n) K)
    (hwc : svd.wellConditioned A = true) : svd.ainv A * A = 1 := by
  have hS : ∀ i, svd.S A i ≠ 0 := fun i => (S_pos hv A hwc i).ne'
  have e : (Matrix.of fun i j => 1 / svd.S A j * (svd.Vh A).transpose i j)
      = (svd.Vh A).transpose * Matrix.diagonal (fun j => 1 / svd.S A j) := by
    ext i j
    rw [Matrix.mul_diagonal, Matrix.of_apply, mul_comm]
  have hd : Matrix.diagonal (fun j => 1 / svd.S A j) * Matrix.diagonal (svd.S A) = 1 := by
    rw [Matrix.diagonal_mul_diagonal, ← Matrix.diagonal_one]
    congr 1
    funext j
    field_simp [hS j]
  have hf := hv.factor A hwc
  unfold SVD.ainv
  rw [e]
  calc (svd.Vh A).transpose * Matrix.diagonal (fun j => 1 / svd.S A j) * (svd.U A).transpose * A
      = (svd.Vh A).transpose * Matrix.diagonal (fun j => 1 / svd.S A j) * (svd.U A).transpose *
          (svd.U A * Matrix.diagonal (svd.S A) * svd.Vh A) := by rw [← hf]
    _ = (svd.Vh A).transpose * (Matrix.diagonal (fun j => 1 / svd.S A j) *
          ((svd.U A).transpose * svd.U A) * Matrix.diagonal (svd.S A)) * svd.Vh A := by
        simp only [Matrix.mul_assoc]
    _ = 1 := by
        rw [hv.orthU A hwc, Matrix.mul_one, hd, Matrix.mul_one, hv.orthV A hwc]

theorem center_width_sound {B A : Matrix (Fin n) (Fin n) K} (hB : B * A = 1) (c err : Fin n → K)
    (y : Fin n → K) (h : ∀ i, |c i + ∑ j, A i j * y j| ≤ err i) (i : Fin n) :
    |y i - (-∑ k, B i k * c k)| ≤ ∑ k, |B i k * err k| := by
  have h1 : y i = ∑ k, B i k * ∑ j, A k j * y j := by
    have : (B * A).mulVec y i = y i := by rw [hB, Matrix.one_mulVec]
    rw [← Matrix.mulVec_mulVec] at this
    rw [← this]; rfl
  have h2 : y i - (-∑ k, B i k * c k) = ∑ k, B i k * (c k + ∑ j, A k j * y j) := by
    rw [sub_neg_eq_add]
    conv_lhs => rw [h1]
    rw [← sum_add_distrib]
    apply sum_congr rfl; intros; ring
  rw [h2]
  refine (abs_sum_le_sum_abs _ _).trans (sum_le_sum fun k _ => ?_)
  rw [abs_mul, abs_mul]
  exact mul_le_mul_of_nonneg_left ((h k).trans (le_abs_self _)) (abs_nonneg _)

/-! ### One pass -/

theorem clampLo_le {a : WithBot K} {x : K} (hx : -1 ≤ x) (h : a ≤ (x : WithBot K)) : clampLo a ≤ x := by
  induction a using WithBot.recBotCoe with
  | bot => exact hx
  | coe v =>
    have h := WithBot.coe_le_coe.1 h
    show (if v < -1 then -1 else if v > 1 then 1 else v) ≤ x
    split_ifs <;> linarith

theorem le_clampHi {b : WithTop K} {x : K} (hx : x ≤ 1) (h : (x : WithTop K) ≤ b) : x ≤ clampHi b := by
  induction b using WithTop.recTopCoe with
  | top => exact hx
  | coe v =>
    have h := WithTop.coe_le_coe.1 h
    show x ≤ (if v < -1 then -1 else if v > 1 then 1 else v)
    split_ifs <;> linarith

theorem clampLo_mem (a : WithBot K) : -1 ≤ clampLo a ∧ clampLo a ≤ 1 := by
  induction a using WithBot.recBotCoe with
  | bot => show (-1 : K) ≤ -1 ∧ (-1 : K) ≤ 1; constructor <;> linarith [(zero_le_one : (0:K) ≤ 1)]
  | coe v =>
    show -1 ≤ (if v < -1 then -1 else if v > 1 then 1 else v) ∧
      (if v < -1 then -1 else if v > 1 then 1 else v) ≤ 1
    split_ifs <;> constructor <;> linarith

theorem clampHi_mem (b : WithTop K) : -1 ≤ clampHi b ∧ clampHi b ≤ 1 := by
  induction b using WithTop.recTopCoe with
  | top => show (-1 : K) ≤ 1 ∧ (1 : K) ≤ 1; constructor <;> linarith [(zero_le_one : (0:K) ≤ 1)]
  | coe v =>
    show -1 ≤ (if v < -1 then -1 else if v > 1 then 1 else v) ∧
      (if v < -1 then -1 else if v > 1 then 1 else v) ≤ 1
    split_ifs <;> constructor <;> linarith

theorem clamp_ordered {a : WithBot K} {b : WithTop K}
    (h : ∀ x y : K, a = x → b = y → x ≤ y) : clampLo a ≤ clampHi b := by
  induction a using WithBot.recBotCoe with
  | bot => exact (clampHi_mem b).1
  | coe v =>
    induction b using WithTop.recTopCoe with
    | top => exact (clampLo_mem _).2
    | coe w =>
      have hvw := h v w rfl rfl
      show (if v < -1 then -1 else if v > 1 then 1 else v) ≤ (if w < -1 then -1 else if w > 1 then 1 else w)
      split_ifs <;> linarith

theorem macheps_pos : (0 : K) < macheps := by unfold macheps; positivity

theorem width_nonneg (svd : SVD n K) (A : Matrix (Fin n) (Fin n) K) :
    0 ≤ max (svd.condNum A) 2 * (macheps : K) :=
  mul_nonneg (le_trans two_pos.le (le_max_right _ _)) macheps_pos.le

/-- Bounds always end up in `[-1,1]`. -/
theorem boundPass_within (svd : SVD n K) (L : LinSys n K) (err : Fin n → K)
    (a0 : Fin n → WithBot K) (b0 : Fin n → WithTop K) (i : Fin n) :
    (-1 ≤ (boundPass svd L err a0 b0).a i ∧ (boundPass svd L err a0 b0).a i ≤ 1) ∧
    (-1 ≤ (boundPass svd L err a0 b0).b i ∧ (boundPass svd L err a0 b0).b i ≤ 1) :=
  ⟨clampLo_mem _, clampHi_mem _⟩

/-- If the pass does not throw out, the bounds are ordered. -/
theorem boundPass_ordered (svd : SVD n K) (L : LinSys n K) (err : Fin n → K)
    (a0 : Fin n → WithBot K) (b0 : Fin n → WithTop K)
    (h : (boundPass svd L err a0 b0).throwOut = false) (i : Fin n) :
    (boundPass svd L err a0 b0).a i ≤ (boundPass svd L err a0 b0).b i := by
  unfold boundPass at h ⊢
  simp only [Bool.or_eq_false_iff, decide_eq_false_iff_not, not_exists] at h ⊢
  obtain ⟨⟨h1, _⟩, _⟩ := h
  apply clamp_ordered
  intro x y hx hy
  have := h1 i
  rw [hx, hy] at this
  simpa using this

/-- Core of soundness of one pass.  `x` lies between the incoming bounds after the scaling, and the
residual bound holds with the error vector of the pass (only used when the inverse is used). -/
theorem boundPass_sound {svd : SVD n K} (L : LinSys n K)
    (hinv : svd.wellConditioned L.A = true → svd.ainv L.A * L.A = 1) (err : Fin n → K)
    (a0 : Fin n → WithBot K) (b0 : Fin n → WithTop K) (x : Fin n → K) (hx : InCube x)
    (hc : ∀ j, 1 ≤ L.colScaler j)
    (ha : ∀ j, (a0 j).map (fun v => v * L.colScaler j) ≤ (x j : WithBot K))
    (hb : ∀ j, (x j : WithTop K) ≤ (b0 j).map (fun v => v * L.colScaler j))
    (hrow : svd.wellConditioned L.A = true →
      ∀ i, |L.consts i + ∑ j, L.A i j * (x j / L.colScaler j)| ≤ err i) :
    (boundPass svd L err a0 b0).throwOut = false ∧
      ∀ i, (boundPass svd L err a0 b0).a i ≤ x i ∧ x i ≤ (boundPass svd L err a0 b0).b i := by
  have hc0 : ∀ j, 0 < L.colScaler j := fun j => lt_of_lt_of_le one_pos (hc j)
  have hw := width_nonneg svd L.A
  set w : K := max (svd.condNum L.A) 2 * macheps with hwdef
  -- combined bounds
  let a : Fin n → WithBot K := fun i =>
    if svd.wellConditioned L.A then
      max ((-∑ k, svd.ainv L.A i k * L.consts k - ∑ k, |svd.ainv L.A i k * err k| : K) : WithBot K) (a0 i)
    else a0 i
  let b : Fin n → WithTop K := fun i =>
    if svd.wellConditioned L.A then
      min ((-∑ k, svd.ainv L.A i k * L.consts k + ∑ k, |svd.ainv L.A i k * err k| : K) : WithTop K) (b0 i)
    else b0 i
  have hainv : svd.wellConditioned L.A = true → ∀ i,
      |x i / L.colScaler i - (-∑ k, svd.ainv L.A i k * L.consts k)| ≤ ∑ k, |svd.ainv L.A i k * err k| :=
    fun hwc i => center_width_sound (hinv hwc) L.consts err _ (hrow hwc) i
  have hA : ∀ i, (a i).map (fun v => v * L.colScaler i - w) ≤ (x i : WithBot K) := by
    intro i
    have key : ∀ z : WithBot K, z.map (fun v => v * L.colScaler i) ≤ (x i : WithBot K) →
        z.map (fun v => v * L.colScaler i - w) ≤ (x i : WithBot K) := by
      intro z hz
      induction z using WithBot.recBotCoe with
      | bot => exact bot_le
      | coe v =>
        have := WithBot.coe_le_coe.1 hz
        exact WithBot.coe_le_coe.2 (by simp only; linarith)
    by_cases hwc : svd.wellConditioned L.A = true
    · simp only [a, hwc, if_true]
      rcases le_total ((-∑ k, svd.ainv L.A i k * L.consts k - ∑ k, |svd.ainv L.A i k * err k| : K) : WithBot K)
        (a0 i) with h | h
      · rw [max_eq_right h]; exact key _ (ha i)
      · rw [max_eq_left h]
        apply key
        apply WithBot.coe_le_coe.2
        have h1 := (abs_le.1 (hainv hwc i)).1
        have h2 : -∑ k, svd.ainv L.A i k * L.consts k - ∑ k, |svd.ainv L.A i k * err k|
            ≤ x i / L.colScaler i := by linarith
        exact (le_div_iff₀ (hc0 i)).1 h2
    · simp only [a, hwc, Bool.false_eq_true, if_false]
      exact key _ (ha i)
  have hB : ∀ i, (x i : WithTop K) ≤ (b i).map (fun v => v * L.colScaler i + w) := by
    intro i
    have key : ∀ z : WithTop K, (x i : WithTop K) ≤ z.map (fun v => v * L.colScaler i) →
        (x i : WithTop K) ≤ z.map (fun v => v * L.colScaler i + w) := by
      intro z hz
      induction z using WithTop.recTopCoe with
      | top => exact le_top
      | coe v =>
        have := WithTop.coe_le_coe.1 hz
        exact WithTop.coe_le_coe.2 (by simp only; linarith)
    by_cases hwc : svd.wellConditioned L.A = true
    · simp only [b, hwc, if_true]
      rcases le_total (b0 i)
        ((-∑ k, svd.ainv L.A i k * L.consts k + ∑ k, |svd.ainv L.A i k * err k| : K) : WithTop K) with h | h
      · rw [min_eq_right h]; exact key _ (hb i)
      · rw [min_eq_left h]
        apply key
        apply WithTop.coe_le_coe.2
        have h1 := (abs_le.1 (hainv hwc i)).2
        have h2 : x i / L.colScaler i
            ≤ -∑ k, svd.ainv L.A i k * L.consts k + ∑ k, |svd.ainv L.A i k * err k| := by linarith
        exact (div_le_iff₀ (hc0 i)).1 h2
    · simp only [b, hwc, Bool.false_eq_true, if_false]
      exact key _ (hb i)
  constructor
  · show (decide _ || decide _ || decide _) = false
    simp only [Bool.or_eq_false_iff, decide_eq_false_iff_not, not_exists]
    refine ⟨⟨fun i => ?_, fun i => ?_⟩, fun i => ?_⟩
    · have h1 := hA i
      have h2 := hB i
      show ¬ ((match (a i).map (fun v => v * L.colScaler i - w), (b i).map (fun v => v * L.colScaler i + w) with
        | (x : K), (y : K) => decide (x > y)
        | _, _ => false) = true)
      generalize (a i).map (fun v => v * L.colScaler i - w) = p at h1
      generalize (b i).map (fun v => v * L.colScaler i + w) = q at h2
      induction p using WithBot.recBotCoe with
      | bot => simp
      | coe v =>
        induction q using WithTop.recTopCoe with
        | top => simp
        | coe u =>
          have h1 := WithBot.coe_le_coe.1 h1
          have h2 := WithTop.coe_le_coe.1 h2
          simp; linarith
    · intro h
      have h1 := WithBot.coe_lt_coe.1 (lt_of_lt_of_le h (hA i))
      have := (abs_le.1 (hx i)).2
      linarith
    · intro h
      have h1 := WithTop.coe_lt_coe.1 (lt_of_le_of_lt (hB i) h)
      have := (abs_le.1 (hx i)).1
      linarith
  · intro i
    exact ⟨clampLo_le (abs_le.1 (hx i)).1 (hA i), le_clampHi (abs_le.1 (hx i)).2 (hB i)⟩

/-- If the volume ratio of a box inside the unit box is at least `r`, every side is at least `2 r`. -/
theorem side_ge_of_ratio (d : Fin n → K) (hd0 : ∀ i, 0 ≤ d i) (hd2 : ∀ i, d i ≤ 2) {r : K}
    (h : r ≤ (∏ i, d i) / 2 ^ n) (i : Fin n) : 2 * r ≤ d i := by
  have h1 : ∏ k, d k ≤ d i * 2 ^ (n - 1) := by
    rw [← mul_prod_erase univ d (mem_univ i)]
    apply mul_le_mul_of_nonneg_left _ (hd0 i)
    calc ∏ k ∈ univ.erase i, d k ≤ ∏ _k ∈ univ.erase i, (2 : K) :=
          prod_le_prod (fun k _ => hd0 k) fun k _ => hd2 k
      _ = 2 ^ (n - 1) := by rw [prod_const, card_erase_of_mem (mem_univ i)]; simp
  have hn : 0 < n := Fin.pos i
  have h2 : (2 : K) ^ n = 2 * 2 ^ (n - 1) := by
    conv_lhs => rw [← Nat.succ_pred_eq_of_pos hn]
    rw [pow_succ, mul_comm]; rfl
  rw [le_div_iff₀ (by positivity), h2] at h
  have h3 : (0 : K) < 2 ^ (n - 1) := by positivity
  nlinarith

end YRoots
