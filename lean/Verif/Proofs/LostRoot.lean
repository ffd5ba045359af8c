import Verif.Proofs.AffineBounding
import Verif.Proofs.TransformExtra
import Verif.Proofs.Solver
import Mathlib.Data.Real.Basic
import Mathlib.Algebra.Order.Archimedean.Real.Basic

/-!
# Helper lemmas: a run of the default solver that loses a root

The first polynomial is `T_100(x) - 1 + 2^-52 T_3(y)`, the second one confines `x` to `[1 - 2/D, 1]`, `D = 10^10`.  On that
interval all rows above the linear one are dropped, and what is left of the first polynomial has no zero.
-/

set_option linter.unusedSectionVars false

namespace YRoots

open Finset

section general

variable {n : ℕ} {K : Type*} [Field K] [LinearOrder K] [IsStrictOrderedRing K] [FloorSemiring K]

theorem linSys_data (Ms : Fin n → Tensor n K) (hM : ∀ i, (Ms i).Nonempty) (e : Fin n → K) :
    let A : Matrix (Fin n) (Fin n) K := Matrix.of fun i j => linCoef (Ms i) j
    (linSys Ms e false).A = equil A ∧ (linSys Ms e false).consts = (fun i => (Ms i).const / rowScale (A i)) ∧
      (linSys Ms e false).totalErrs = (fun i => ((Ms i).absSum + e i) / rowScale (A i)
        + ∑ j, |A i j / rowScale (A i)| * (colS A j - 1)) ∧
      (linSys Ms e false).colScaler = colS A := by
  intro A
  have hA : (Matrix.of fun i (j : Fin n) => (getLinearTerms (Ms i)).getD j 0) = A := by
    ext i j
    rw [Matrix.of_apply, getLinearTerms_getD (Ms i) (hM i) j]
    rfl
  have hc' : ∀ i, (Ms i).ravel 0 = (Ms i).const := fun i => ravel_zero _
  unfold linSys
  simp only [Bool.false_eq_true, if_false, hA, hc']
  refine ⟨?_, ?_, ?_, ?_⟩ <;> trivial

/-- The scalings cancel in the bounds of one entry. -/
theorem linBounds_scaled (T a k s c : K) (ha : a ≠ 0) (hs : 0 < s) (hc : 0 < c) :
    (linBounds (T / s + |a / s| * (c - 1)) (a / s * c) (k / s)).1 * c = (linBounds T a k).1 ∧
      (linBounds (T / s + |a / s| * (c - 1)) (a / s * c) (k / s)).2 * c = (linBounds T a k).2 := by
  have ha' : |a| ≠ 0 := abs_ne_zero.2 ha
  have h1 : (T / s + |a / s| * (c - 1)) / |a / s * c| - 1 = (T / |a| - 1) / c := by
    rw [abs_mul, abs_div, abs_of_pos hs, abs_of_pos hc]
    field_simp
    ring
  have h2 : 2 * (k / s) / (a / s * c) = (2 * k / a) / c := by field_simp
  unfold linBounds
  simp only [h1, h2, ge_iff_le]
  have h3 : (0 ≤ 2 * k / a / c) ↔ 0 ≤ 2 * k / a := by
    constructor
    · intro h
      have := mul_nonneg h hc.le
      rwa [div_mul_cancel₀ _ hc.ne'] at this
    · intro h; exact div_nonneg h hc.le
  by_cases h : 0 ≤ 2 * k / a
  · rw [if_pos (h3.2 h), if_pos h]
    constructor <;> field_simp
  · rw [if_neg (fun h' => h (h3.1 h')), if_neg h]
    constructor <;> field_simp

theorem boundPass_of_not_wc {svd : SVD n K} (hv : svd.Valid) (L : LinSys n K) (err : Fin n → K) (a0 : Fin n → WithBot K)
    (b0 : Fin n → WithTop K) (hwc : svd.wellConditioned L.A = false) :
    let a : Fin n → WithBot K := fun i => (a0 i).map (fun v => v * L.colScaler i - 2 * macheps)
    let b : Fin n → WithTop K := fun i => (b0 i).map (fun v => v * L.colScaler i + 2 * macheps)
    (boundPass svd L err a0 b0).a = (fun i => clampLo (a i)) ∧ (boundPass svd L err a0 b0).b = (fun i => clampHi (b i)) ∧
      ((boundPass svd L err a0 b0).throwOut = true ↔
        (∃ i, ∃ x y : K, a i = x ∧ b i = y ∧ y < x) ∨ (∃ i, ((1 : K) : WithBot K) < a i) ∨
          ∃ i, b i < ((-1 : K) : WithTop K)) ∧
      (boundPass svd L err a0 b0).newRatio = (∏ i, (clampHi (b i) - clampLo (a i))) / 2 ^ n := by
  intro a b
  unfold boundPass
  simp only [hwc, Bool.false_eq_true, if_false, SVD.width_eq hv]
  refine ⟨rfl, rfl, ?_, rfl⟩
  rw [Bool.or_eq_true, Bool.or_eq_true, decide_eq_true_iff, decide_eq_true_iff, decide_eq_true_iff, or_assoc]
  refine or_congr ?_ Iff.rfl
  refine exists_congr fun i => ?_
  show (match a i, b i with
    | (x : K), (y : K) => decide (x > y)
    | _, _ => false) = true ↔ _
  cases ha : a i with
  | bot => simp
  | coe x =>
    cases hb : b i with
    | top => simp
    | coe y => simp

end general

section two

variable {K : Type*} [Field K] [LinearOrder K] [IsStrictOrderedRing K] [FloorSemiring K]

theorem wc_of_zero_col {svd : SVD 2 K} (hv : svd.Valid) (A : Matrix (Fin 2) (Fin 2) K) (h : ∀ i, A i 1 = 0) :
    svd.wellConditioned A = false := by
  by_contra hc
  rw [Bool.not_eq_false] at hc
  have h1 := congrFun (congrFun (SVD.ainv_mul hv A hc) 1) 1
  rw [Matrix.mul_apply] at h1
  simp [h] at h1

/-- The bounds of the first column, unscaled. -/
def rowB (Ms : Fin 2 → Tensor 2 K) (e : Fin 2 → K) (i : Fin 2) : K × K :=
  linBounds ((Ms i).absSum + e i) (linCoef (Ms i) 0) (Ms i).const

theorem scaled_rowB (Ms : Fin 2 → Tensor 2 K) (hM : ∀ i, (Ms i).Nonempty) (h1 : ∀ i, linCoef (Ms i) 1 = 0)
    (e : Fin 2 → K) (i : Fin 2) (hi : linCoef (Ms i) 0 ≠ 0) :
    let L := linSys Ms e false
    (linBounds (L.totalErrs i) (L.A i 0) (L.consts i)).1 * L.colScaler 0 = (rowB Ms e i).1 ∧
      (linBounds (L.totalErrs i) (L.A i 0) (L.consts i)).2 * L.colScaler 0 = (rowB Ms e i).2 := by
  intro L
  obtain ⟨hA, hC, hT, hS⟩ := linSys_data Ms hM e
  simp only [L, hA, hC, hT, hS]
  set A : Matrix (Fin 2) (Fin 2) K := Matrix.of fun i j => linCoef (Ms i) j with hAdef
  have hA1 : A i 1 = 0 := by simp [hAdef, h1]
  rw [Fin.sum_univ_two, hA1, zero_div, abs_zero, zero_mul, add_zero]
  exact linBounds_scaled _ _ _ _ _ hi (rowScale_pos _) (colS_pos A 0)

theorem linSys_A_zero (Ms : Fin 2 → Tensor 2 K) (hM : ∀ i, (Ms i).Nonempty) (h1 : ∀ i, linCoef (Ms i) 1 = 0)
    (e : Fin 2 → K) (i : Fin 2) : (linSys Ms e false).A i 1 = 0 := by
  rw [(linSys_data Ms hM e).1]
  simp [equil, h1]

theorem linSys_A_ne (Ms : Fin 2 → Tensor 2 K) (hM : ∀ i, (Ms i).Nonempty) (e : Fin 2 → K) (i : Fin 2) :
    (linSys Ms e false).A i 0 ≠ 0 ↔ linCoef (Ms i) 0 ≠ 0 := by
  rw [(linSys_data Ms hM e).1]
  simp only [equil, Matrix.of_apply]
  have := (rowScale_pos ((Matrix.of fun i j => linCoef (Ms i) j : Matrix (Fin 2) (Fin 2) K) i)).ne'
  have := (colS_pos (Matrix.of fun i j => linCoef (Ms i) j : Matrix (Fin 2) (Fin 2) K) 0).ne'
  simp [*]

/-- A first row whose lower bound is beyond the cube discards the box. -/
theorem bounding_throws {svd : SVD 2 K} (hv : svd.Valid) (Ms : Fin 2 → Tensor 2 K) (hM : ∀ i, (Ms i).Nonempty)
    (h1 : ∀ i, linCoef (Ms i) 1 = 0) (e : Fin 2 → K) (hq : linCoef (Ms 0) 0 ≠ 0)
    (hb : 1 + 2 * macheps < (rowB Ms e 0).1) : (boundingIntervalLinearSystem svd Ms e false).throwOut = true := by
  set L := linSys Ms e false with hL
  have hwc : svd.wellConditioned L.A = false := wc_of_zero_col hv _ (linSys_A_zero Ms hM h1 e)
  have key : (boundPass svd L L.err (linearCheck1 L.totalErrs L.A L.consts).1
      (linearCheck1 L.totalErrs L.A L.consts).2).throwOut = true := by
    refine (boundPass_of_not_wc hv L L.err _ _ hwc).2.2.1.2 (Or.inr (Or.inl ⟨0, ?_⟩))
    have h0 : L.A 0 0 ≠ 0 := (linSys_A_ne Ms hM e 0).2 hq
    have hs := (scaled_rowB Ms hM h1 e 0 hq).1
    obtain ⟨x, hx⟩ : ∃ x, x = (linBounds (L.totalErrs 0) (L.A 0 0) (L.consts 0)).1 := ⟨_, rfl⟩
    rw [← hL, ← hx] at hs
    have hc : 0 < L.colScaler 0 := lt_of_lt_of_le one_pos (linSys_colScaler_ge Ms e false 0)
    have : ∃ z : K, (linearCheck1 L.totalErrs L.A L.consts).1 0 = (z : WithBot K) ∧ x ≤ z := by
      simp only [linearCheck1, List.finRange_succ, List.finRange_zero, List.map_nil, List.map_cons, List.foldl_cons,
        List.foldl_nil, if_pos h0, ← hx, bot_sup_eq]
      split_ifs
      · exact ⟨_, (WithBot.coe_max _ _).symm, le_max_left _ _⟩
      · exact ⟨x, rfl, le_rfl⟩
    obtain ⟨z, hz, hxz⟩ := this
    show _ < WithBot.map _ _
    rw [hz, WithBot.map_coe, WithBot.coe_lt_coe]
    have := mul_le_mul_of_nonneg_right hxz hc.le
    linarith
  unfold boundingIntervalLinearSystem
  simp only [← hL, key, Bool.true_or, if_true]

/-- A system whose second polynomial alone confines `x`. -/
theorem bounding_zooms {svd : SVD 2 K} (hv : svd.Valid) (Ms : Fin 2 → Tensor 2 K) (hM : ∀ i, (Ms i).Nonempty)
    (h1 : ∀ i, linCoef (Ms i) 1 = 0) (e : Fin 2 → K) (h0 : linCoef (Ms 0) 0 = 0) (hq : linCoef (Ms 1) 0 ≠ 0) (lo : K)
    (hlo : lo = (rowB Ms e 1).1 - 2 * macheps) (hlo1 : -1 ≤ lo) (hlo2 : (1 - lo) / 2 < 99 / 100) (hlo3 : lo ≤ 1)
    (hhi : 1 ≤ (rowB Ms e 1).2 + 2 * macheps) :
    boundingIntervalLinearSystem svd Ms e false = ⟨⟨![lo, -1], ![1, 1]⟩, true, false, false⟩ := by
  set L := linSys Ms e false with hL
  have hA1 := linSys_A_zero Ms hM h1 e
  have hwc : svd.wellConditioned L.A = false := wc_of_zero_col hv _ hA1
  have hA0 : L.A 0 0 = 0 := by
    by_contra h; exact (linSys_A_ne Ms hM e 0).1 h h0
  have hA10 : L.A 1 0 ≠ 0 := (linSys_A_ne Ms hM e 1).2 hq
  obtain ⟨hs1, hs2⟩ := scaled_rowB Ms hM h1 e 1 hq
  rw [← hL] at hs1 hs2
  have i1 : (linearCheck1 L.totalErrs L.A L.consts).1 0
      = (((linBounds (L.totalErrs 1) (L.A 1 0) (L.consts 1)).1 : K) : WithBot K) := by
    simp [linearCheck1, List.finRange_succ, hA0, hA10]
  have i2 : (linearCheck1 L.totalErrs L.A L.consts).2 0
      = (((linBounds (L.totalErrs 1) (L.A 1 0) (L.consts 1)).2 : K) : WithTop K) := by
    simp [linearCheck1, List.finRange_succ, hA0, hA10]
  have i3 : (linearCheck1 L.totalErrs L.A L.consts).1 1 = ⊥ := by
    simp [linearCheck1, List.finRange_succ, hL, hA1]
  have i4 : (linearCheck1 L.totalErrs L.A L.consts).2 1 = ⊤ := by
    simp [linearCheck1, List.finRange_succ, hL, hA1]
  obtain ⟨ha, hb, ht, hr⟩ := boundPass_of_not_wc hv L L.err (linearCheck1 L.totalErrs L.A L.consts).1
    (linearCheck1 L.totalErrs L.A L.consts).2 hwc
  have a0 : ((linearCheck1 L.totalErrs L.A L.consts).1 0).map (fun v => v * L.colScaler 0 - 2 * macheps)
      = (lo : WithBot K) := by
    rw [i1, WithBot.map_coe, hs1, hlo]
  have b0 : ((linearCheck1 L.totalErrs L.A L.consts).2 0).map (fun v => v * L.colScaler 0 + 2 * macheps)
      = (((rowB Ms e 1).2 + 2 * macheps : K) : WithTop K) := by
    rw [i2, WithTop.map_coe, hs2]
  have a1 : ((linearCheck1 L.totalErrs L.A L.consts).1 1).map (fun v => v * L.colScaler 1 - 2 * macheps)
      = (⊥ : WithBot K) := by rw [i3]; rfl
  have b1 : ((linearCheck1 L.totalErrs L.A L.consts).2 1).map (fun v => v * L.colScaler 1 + 2 * macheps)
      = (⊤ : WithTop K) := by rw [i4]; rfl
  have c0 : clampLo (lo : WithBot K) = lo := by
    show (if lo < -1 then (-1 : K) else if lo > 1 then 1 else lo) = lo
    rw [if_neg (not_lt.2 hlo1), if_neg (not_lt.2 hlo3)]
  have c1 : clampHi (((rowB Ms e 1).2 + 2 * macheps : K) : WithTop K) = 1 := by
    show (if (rowB Ms e 1).2 + 2 * macheps < -1 then (-1 : K) else if (rowB Ms e 1).2 + 2 * macheps > 1 then 1 else _) = 1
    rw [if_neg (by linarith)]
    split_ifs with h
    · rfl
    · exact le_antisymm (not_lt.1 h) hhi
  have hthrow : (boundPass svd L L.err (linearCheck1 L.totalErrs L.A L.consts).1
      (linearCheck1 L.totalErrs L.A L.consts).2).throwOut = false := by
    rw [Bool.eq_false_iff]
    intro hc
    rcases ht.1 hc with ⟨i, x, y, hx, hy, hxy⟩ | ⟨i, hi⟩ | ⟨i, hi⟩
    · fin_cases i
      · have hx' := a0.symm.trans hx
        have hy' := b0.symm.trans hy
        rw [WithBot.coe_inj] at hx'
        rw [WithTop.coe_inj] at hy'
        linarith
      · have hx' := a1.symm.trans hx
        exact absurd hx' (by simp)
    · fin_cases i
      · have hi' : ((1 : K) : WithBot K) < (lo : WithBot K) := lt_of_lt_of_eq hi a0
        rw [WithBot.coe_lt_coe] at hi'
        linarith
      · have hi' : ((1 : K) : WithBot K) < ⊥ := lt_of_lt_of_eq hi a1
        exact absurd hi' (by simp)
    · fin_cases i
      · have hi' := lt_of_eq_of_lt b0.symm hi
        rw [WithTop.coe_lt_coe] at hi'
        linarith
      · have hi' : (⊤ : WithTop K) < ((-1 : K) : WithTop K) := lt_of_eq_of_lt b1.symm hi
        exact absurd hi' (by simp)
  have ha' : (boundPass svd L L.err (linearCheck1 L.totalErrs L.A L.consts).1
      (linearCheck1 L.totalErrs L.A L.consts).2).a = ![lo, -1] := by
    rw [ha]
    funext i
    fin_cases i
    · exact (congrArg clampLo a0).trans c0
    · exact congrArg clampLo a1
  have hb' : (boundPass svd L L.err (linearCheck1 L.totalErrs L.A L.consts).1
      (linearCheck1 L.totalErrs L.A L.consts).2).b = ![1, 1] := by
    rw [hb]
    funext i
    fin_cases i
    · exact (congrArg clampHi b0).trans c1
    · exact congrArg clampHi b1
  have hratio : (boundPass svd L L.err (linearCheck1 L.totalErrs L.A L.consts).1
      (linearCheck1 L.totalErrs L.A L.consts).2).newRatio < 99 / 100 := by
    rw [hr]
    have e1 := congrFun ha' 0
    have e2 := congrFun ha' 1
    have e3 := congrFun hb' 0
    have e4 := congrFun hb' 1
    rw [ha] at e1 e2
    rw [hb] at e3 e4
    rw [Fin.prod_univ_two]
    simp only [] at e1 e2 e3 e4
    rw [e1, e2, e3, e4]
    simp only [Matrix.cons_val_zero, Matrix.cons_val_one]
    calc (1 - lo) * (1 - -1) / 2 ^ 2 = (1 - lo) / 2 := by ring
      _ < _ := hlo2
  unfold boundingIntervalLinearSystem
  simp only [← hL, hthrow, hratio, ha', hb', decide_true, Bool.false_or, if_true, Bool.false_and]

end two

section concrete

theorem sum_idx_two {A : Type*} [AddCommMonoid A] (M : Tensor 2 ℝ) (f : (Fin 2 → ℕ) → A) :
    ∑ k ∈ M.idx, f k = ∑ j ∈ range (M.shape 0), ∑ l ∈ range (M.shape 1), f ![j, l] := by
  rw [← sum_product']
  refine sum_nbij' (fun k => (k 0, k 1)) (fun p => ![p.1, p.2]) ?_ ?_ ?_ ?_ ?_
  · intro k hm
    rw [mem_idx_iff] at hm
    exact mem_product.2 ⟨mem_range.2 (hm 0), mem_range.2 (hm 1)⟩
  · intro p hp
    obtain ⟨h0, h1⟩ := mem_product.1 hp
    rw [mem_idx_iff]
    intro i
    fin_cases i
    · exact mem_range.1 h0
    · exact mem_range.1 h1
  · intro k _
    funext i
    fin_cases i <;> rfl
  · intro p _; rfl
  · intro k _
    congr 1
    funext i
    fin_cases i <;> rfl

theorem tRun_out_const {K : Type*} [Field K] [LinearOrder K] [IsStrictOrderedRing K] {V : Type*} [AddCommGroup V] [Module K V]
    (thr : K) (coeffs : ℕ → V) (α β : K) (m : ℕ)
    (h : ∀ k, 1 ≤ k → k ≤ m + 1 → coeffs k = 0) (i : ℕ) :
    (tRun thr coeffs α β m).out i = if i = 0 then coeffs 0 else 0 := by
  induction m with
  | zero =>
    simp only [tRun_zero, tInit, h 1 le_rfl (by omega)]
    by_cases h1 : i = 1
    · subst h1; simp
    · by_cases h0 : i = 0
      · subst h0; simp
      · simp [h0, h1]
  | succ m ih =>
    rw [tRun_succ]
    obtain ⟨δ, -, -, ho⟩ := tStep_spec thr coeffs α β (tRun thr coeffs α β m) (m + 2)
      (tRun_supp thr coeffs α β m)
    rw [ho, ih fun k hk hk' => h k hk (by omega), h (m + 2) (by omega) (by omega)]; simp

/-- `T_100(x) - 1 + 2^-52 T_3(y)`. -/
noncomputable def lrM0 : Tensor 2 ℝ := ⟨![101, 4], fun k =>
  if k 1 = 0 then (if k 0 = 0 then -1 else if k 0 = 100 then 1 else 0) else if k 1 = 3 ∧ k 0 = 0 then 1 / 2 ^ 52 else 0⟩

/-- `2^-52 / (2/D - 2^-51)`. -/
noncomputable def lrS : ℝ := 1 / 2 ^ 52 / (2 / 10 ^ 10 - 1 / 2 ^ 51)

theorem lrS_pos : 0 < lrS := by unfold lrS; norm_num

/-- `lrS (x - 1)`. -/
noncomputable def lrM1 : Tensor 2 ℝ := ⟨![2, 1], fun k => if k 0 = 0 then -lrS else lrS⟩

/-- The two polynomials. -/
noncomputable def lrMs : Fin 2 → Tensor 2 ℝ := ![lrM0, lrM1]

/-- The two errors. -/
noncomputable def lrErr : Fin 2 → ℝ := fun _ => 1 / 2 ^ 52

/-- The box that the second polynomial leaves. -/
noncomputable def lrBox : Box 2 ℝ := ⟨![1 - 2 / 10 ^ 10, -1], ![1, 1]⟩

theorem lr_run {V : Type*} [AddCommGroup V] [Module ℝ V] (c : ℕ → V) :
    ∃ p q : ℝ, 300 / 2 ^ 52 < 1 - (p + q) ∧ 0 < q ∧ q ≤ 1 / 1000 ∧ 0 ≤ p ∧
      (tRun (K := ℝ) (1 / 10 ^ 16) c (1 / 10 ^ 10) (1 - 1 / 10 ^ 10) 99).maxRow = 2 ∧
      (tRun (K := ℝ) (1 / 10 ^ 16) c (1 / 10 ^ 10) (1 - 1 / 10 ^ 10) 99).arr2 0 = p ∧
      (tRun (K := ℝ) (1 / 10 ^ 16) c (1 / 10 ^ 10) (1 - 1 / 10 ^ 10) 99).arr2 1 = q := by
  have hD0 : ((10000000000 : ℤ) : ℝ) = 10 ^ 10 := by norm_num
  have hpq : ∀ k < 99, |(cexPQ 10000000000 k).2.2| * 10 ^ 16 ≤ 10000000000 ^ (k + 2) := by decide +kernel
  have hfin : 300 * 10000000000 ^ 100
      < 2 ^ 52 * (10000000000 ^ 100 - ((cexPQ 10000000000 99).2.1 + (cexPQ 10000000000 99).2.2)) ∧
      0 < (cexPQ 10000000000 99).2.2 ∧ 1000 * (cexPQ 10000000000 99).2.2 ≤ 10000000000 ^ 100 ∧
      0 ≤ (cexPQ 10000000000 99).2.1 := by
    decide +kernel
  have hthr : ∀ k < 99, |((cexPQ 10000000000 k).2.2 : ℝ) / ((10000000000 : ℤ) : ℝ) ^ (k + 2)|
      ≤ 1 / 10 ^ 16 := by
    intro k hk
    have := hpq k hk
    rw [abs_div, abs_of_pos (a := (((10000000000 : ℤ) : ℝ) ^ (k + 2))) (by positivity),
      div_le_div_iff₀ (by positivity) (by positivity), one_mul]
    exact_mod_cast this
  have hrun := tRun_two_rows 10000000000 (by norm_num) (1 / 10 ^ 16) c 99 hthr
  simp only [hD0] at hrun
  obtain ⟨h1, h2, h3, h4⟩ := hfin
  obtain ⟨P, hP⟩ : ∃ P, P = (cexPQ 10000000000 99).2.1 := ⟨_, rfl⟩
  obtain ⟨Q, hQ⟩ : ∃ Q, Q = (cexPQ 10000000000 99).2.2 := ⟨_, rfl⟩
  rw [← hP, ← hQ] at h1 hrun
  rw [← hQ] at h2 h3
  rw [← hP] at h4
  obtain ⟨E, hE⟩ : ∃ E : ℤ, E = 10000000000 ^ 100 := ⟨_, rfl⟩
  have hEpos : (0 : ℝ) < E := by rw [hE]; positivity
  have hE' : ((10 : ℝ) ^ 10) ^ (99 + 1) = E := by rw [hE]; norm_num
  rw [← hE] at h1 h3
  refine ⟨P / E, Q / E, ?_, ?_, ?_, ?_, hrun.1, ?_, ?_⟩
  · rw [← add_div, div_lt_iff₀ (by positivity), sub_mul, div_mul_eq_mul_div, one_mul]
    have h1' : (300 * E : ℝ) < 2 ^ 52 * (E - (P + Q)) := by exact_mod_cast h1
    rw [lt_sub_iff_add_lt, ← lt_sub_iff_add_lt', div_lt_iff₀ hEpos]
    have : (P + Q : ℝ) * 2 ^ 52 < 2 ^ 52 * E - 300 * E := by linarith
    linarith
  · exact div_pos (by exact_mod_cast h2) hEpos
  · rw [div_le_div_iff₀ hEpos (by norm_num)]
    have : (1000 * Q : ℝ) ≤ E := by exact_mod_cast h3
    linarith
  · exact div_nonneg (by exact_mod_cast h4) hEpos.le
  · rw [hrun.2.2.2.1, hE']
  · rw [hrun.2.2.2.2, hE']

theorem lrMs_nonempty (i : Fin 2) : (lrMs i).Nonempty := by
  intro j
  fin_cases i <;> fin_cases j <;> simp [lrMs, lrM0, lrM1]

theorem lrMs_fst : lrMs 0 = lrM0 := by
  unfold lrMs
  rw [Matrix.cons_val_zero]

theorem lrMs_snd : lrMs 1 = lrM1 := by
  unfold lrMs
  rw [Matrix.cons_val_one, Matrix.cons_val_zero]

theorem lrMs_lin : ∀ i : Fin 2, linCoef (lrMs i) 1 = 0 := by
  rw [Fin.forall_fin_two, lrMs_fst, lrMs_snd]
  constructor
  · simp [linCoef, lrM0]
  · simp [linCoef, lrM1]

theorem lrM0_absSum : lrM0.absSum = 2 + 1 / 2 ^ 52 := by
  unfold Tensor.absSum
  rw [sum_idx_two lrM0]
  have s0 : lrM0.shape 0 = 101 := rfl
  have s1 : lrM0.shape 1 = 4 := rfl
  rw [s0, s1]
  have : ∀ j ∈ range 101, ∑ l ∈ range 4, |lrM0.coef ![j, l]|
      = (if j = 0 then 1 + 1 / 2 ^ 52 else 0) + if j = 100 then 1 else 0 := by
    intro j _
    rw [sum_range_succ, sum_range_succ, sum_range_succ, sum_range_one]
    by_cases h0 : j = 0
    · simp [h0, lrM0]
    · by_cases h1 : j = 100
      · simp [h1, lrM0]
      · simp [h0, h1, lrM0]
  rw [sum_congr rfl this, sum_add_distrib, sum_ite_eq', sum_ite_eq']
  norm_num

theorem lrM1_absSum : lrM1.absSum = 2 * lrS := by
  unfold Tensor.absSum
  rw [sum_idx_two lrM1]
  have s0 : lrM1.shape 0 = 2 := rfl
  have s1 : lrM1.shape 1 = 1 := rfl
  rw [s0, s1, sum_range_succ, sum_range_one, sum_range_one, sum_range_one]
  simp [lrM1, abs_of_pos lrS_pos]
  ring

theorem lrM0_eval (x : Fin 2 → ℝ) : lrM0.eval x = chebT 100 (x 0) - 1 + 1 / 2 ^ 52 * chebT 3 (x 1) := by
  unfold Tensor.eval
  rw [sum_idx_two lrM0]
  have s0 : lrM0.shape 0 = 101 := rfl
  have s1 : lrM0.shape 1 = 4 := rfl
  rw [s0, s1]
  have : ∀ j ∈ range 101, ∑ l ∈ range 4, lrM0.coef ![j, l] * ∏ i, chebT ((![j, l] : Fin 2 → ℕ) i) (x i)
      = (if j = 0 then -1 + 1 / 2 ^ 52 * chebT 3 (x 1) else 0) + if j = 100 then chebT 100 (x 0) else 0 := by
    intro j _
    rw [sum_range_succ, sum_range_succ, sum_range_succ, sum_range_one]
    simp only [Fin.prod_univ_two]
    by_cases h0 : j = 0
    · simp [h0, lrM0]
    · by_cases h1 : j = 100
      · simp [h1, lrM0]
      · simp [h0, h1, lrM0]
  rw [sum_congr rfl this, sum_add_distrib, sum_ite_eq', sum_ite_eq', if_pos (by simp), if_pos (by simp)]
  ring

theorem lrM1_eval (x : Fin 2 → ℝ) : lrM1.eval x = lrS * (x 0 - 1) := by
  unfold Tensor.eval
  rw [sum_idx_two lrM1]
  have s0 : lrM1.shape 0 = 2 := rfl
  have s1 : lrM1.shape 1 = 1 := rfl
  rw [s0, s1, sum_range_succ, sum_range_one, sum_range_one, sum_range_one, Fin.prod_univ_two, Fin.prod_univ_two]
  simp [lrM1]
  ring

theorem lrMs_zero : ∀ i : Fin 2, (lrMs i).eval ![1, 0] = 0 := by
  rw [Fin.forall_fin_two, lrMs_fst, lrMs_snd]
  constructor
  · have h : chebT 100 (1 : ℝ) = 1 := by simp [chebT, Polynomial.Chebyshev.T_eval_one]
    have h3 : chebT 3 (0 : ℝ) = 0 := by rw [show 3 = 1 + 2 from rfl, chebT_add_two]; simp
    rw [lrM0_eval, Matrix.cons_val_zero, Matrix.cons_val_one, Matrix.cons_val_zero, h, h3, sub_self, mul_zero, add_zero]
  · rw [lrM1_eval, Matrix.cons_val_zero, sub_self, mul_zero]

theorem lr_transformND {α β : ℝ} (hα : α ≠ 1) :
    (transformND lrM0 0 α β false).shape = ![(tRun (1 / 10 ^ 16) (lrM0.rows 0) α β 99).maxRow, 4] ∧
    ∀ k, (transformND lrM0 0 α β false).coef k = (tRun (1 / 10 ^ 16) (lrM0.rows 0) α β 99).out (k 0) (Function.update k 0 0) := by
  have h : transformND lrM0 0 α β false = transformAxis false lrM0 0 α β := by
    unfold transformND
    rw [if_neg, if_pos (by rfl)]
    rintro (h | h)
    · exact hα h.1
    · norm_num [lrM0] at h
  have h2 : lrM0.shape 0 - 2 = 99 := by simp [lrM0]
  rw [h]
  unfold transformAxis Tensor.ofRows transformFunc
  simp only [Bool.false_eq_true, if_false, transform1D_eq, h2]
  refine ⟨?_, fun k => trivial⟩
  funext i
  fin_cases i
  · simp
  · simp [lrM0]

theorem lr_out (α β : ℝ) (j : ℕ) (k : Fin 2 → ℕ) (m : ℕ) (hm : m = 99) :
    (tRun (1 / 10 ^ 16) (lrM0.rows 0) α β m).out j k
      = (if j = 0 then (if k 1 = 0 then -1 else if k 1 = 3 then 1 / 2 ^ 52 else 0) else 0)
        + (tRun (1 / 10 ^ 16) (lrM0.rows 0) α β m).arr2 j * if k 1 = 0 then 1 else 0 := by
  obtain ⟨l, rfl⟩ : ∃ l, m = l + 1 := ⟨98, by omega⟩
  rw [tRun_succ]
  obtain ⟨δ, -, -, ho⟩ := tStep_spec ((1 : ℝ) / 10 ^ 16) (lrM0.rows 0) α β
    (tRun ((1 : ℝ) / 10 ^ 16) (lrM0.rows 0) α β l) (l + 2) (tRun_supp _ _ _ _ _)
  have h1 : lrM0.rows 0 (l + 2) = fun k => if k 1 = 0 then 1 else 0 := by
    funext k
    have : l + 2 = 100 := by omega
    simp [lrM0, Tensor.rows, this]
  have h0 : lrM0.rows 0 0 = fun k => if k 1 = 0 then -1 else if k 1 = 3 then 1 / 2 ^ 52 else 0 := by
    funext k
    simp [lrM0, Tensor.rows]
  rw [ho, tRun_out_const, h1, h0]
  · by_cases hj : j = 0
    · simp [hj]
    · simp [hj]
  · intro j hj1 hj2
    funext k
    have a1 : j ≠ 0 := by omega
    have a2 : j ≠ 100 := by omega
    simp [lrM0, Tensor.rows, a1, a2]

/-- What the transformation to the box leaves of the first polynomial. -/
theorem lr_transform : ∃ p q : ℝ, 300 / 2 ^ 52 < 1 - (p + q) ∧ 0 < q ∧ q ≤ 1 / 1000 ∧ 0 ≤ p ∧
    (transformND lrM0 0 (1 / 10 ^ 10) (1 - 1 / 10 ^ 10) false).shape = ![2, 4] ∧
    (∀ k, k 0 = 0 → (transformND lrM0 0 (1 / 10 ^ 10) (1 - 1 / 10 ^ 10) false).coef k
      = if k 1 = 0 then p - 1 else if k 1 = 3 then 1 / 2 ^ 52 else 0) ∧
    ∀ k, k 0 = 1 → (transformND lrM0 0 (1 / 10 ^ 10) (1 - 1 / 10 ^ 10) false).coef k = if k 1 = 0 then q else 0 := by
  obtain ⟨p, q, h1, h2, h3, h4, h5, h6, h7⟩ := lr_run (lrM0.rows 0)
  obtain ⟨hs, hc⟩ := lr_transformND (α := 1 / 10 ^ 10) (β := 1 - 1 / 10 ^ 10) (by norm_num)
  have hu : ∀ k : Fin 2 → ℕ, Function.update k 0 0 1 = k 1 := fun k => Function.update_of_ne (by decide) _ _
  refine ⟨p, q, h1, h2, h3, h4, ?_, ?_, ?_⟩
  · rw [hs, h5]
  · intro k hk
    rw [hc, lr_out _ _ _ _ _ rfl, hk, if_pos rfl, h6, hu]
    by_cases h : k 1 = 0
    · rw [if_pos h, if_pos h, if_pos h]; ring
    · rw [if_neg h, if_neg h, if_neg h, mul_zero, add_zero]
  · intro k hk
    rw [hc, lr_out _ _ _ _ _ rfl, hk, if_neg one_ne_zero, h7, zero_add, hu, mul_ite, mul_one, mul_zero]

theorem lr_bound1 {svd : SVD 2 ℝ} (hv : svd.Valid) :
    boundingIntervalLinearSystem svd lrMs lrErr false = ⟨lrBox, true, false, false⟩ := by
  have c0 : linCoef (lrMs 0) 0 = 0 := by rw [lrMs_fst]; simp [linCoef, lrM0]
  have c1 : linCoef (lrMs 1) 0 = lrS := by rw [lrMs_snd]; simp [linCoef, lrM1]
  have hk : (lrMs 1).const = -lrS := by rw [lrMs_snd]; simp [Tensor.const, lrM1]
  have he : lrErr 1 = lrS * (2 / 10 ^ 10 - 1 / 2 ^ 51) := by
    unfold lrErr lrS
    norm_num
  have hs := lrS_pos
  have hr : rowB lrMs lrErr 1 = (1 - 2 / 10 ^ 10 + 1 / 2 ^ 51, 1 + 2 / 10 ^ 10 - 1 / 2 ^ 51) := by
    have hv1 : (2 * lrS + lrS * (2 / 10 ^ 10 - 1 / 2 ^ 51)) / |lrS| - 1 = 1 + 2 / 10 ^ 10 - 1 / 2 ^ 51 := by
      rw [abs_of_pos hs]
      field_simp
      ring
    have hv2 : 2 * -lrS / lrS = -2 := by field_simp
    unfold rowB linBounds
    rw [c1, hk, he, lrMs_snd, lrM1_absSum, hv1, hv2]
    norm_num
  refine bounding_zooms hv lrMs lrMs_nonempty lrMs_lin lrErr c0 (by rw [c1]; exact hs.ne') (1 - 2 / 10 ^ 10) ?_ ?_ ?_ ?_ ?_
  · rw [hr]; unfold macheps; norm_num
  · norm_num
  · norm_num
  · norm_num
  · rw [hr]; unfold macheps; norm_num

/-- The tracked interval after the first zoom. -/
noncomputable def lrTi : TrackedInterval 2 ℝ := (TrackedInterval.new (Box.unit 2 ℝ)).applySub lrBox

/-- The arrays and errors after the first zoom. -/
noncomputable def lrNew : (Fin 2 → Tensor 2 ℝ) × (Fin 2 → ℝ) :=
  transformChebToInterval lrMs (fun i => (lrBox.hi i - lrBox.lo i) / 2) (fun i => (lrBox.hi i + lrBox.lo i) / 2) lrErr false

theorem lr_zoom1 {svd : SVD 2 ℝ} (hv : svd.Valid) :
    zoomInOnIntervalIter svd lrMs lrErr (TrackedInterval.new (Box.unit 2 ℝ)) false
      = .ok ⟨lrNew.1, lrNew.2, lrTi, true, false⟩ := by
  have hfs : (TrackedInterval.new (Box.unit 2 ℝ)).finalStep = false := rfl
  have hskip : skipPointDims (TrackedInterval.new (Box.unit 2 ℝ)).interval lrBox = lrBox := by
    unfold skipPointDims
    have : ∀ i, ¬ (TrackedInterval.new (Box.unit 2 ℝ)).interval.lo i = (TrackedInterval.new (Box.unit 2 ℝ)).interval.hi i := by
      intro i
      show ¬ (-1 : ℝ) = 1
      norm_num
    simp only [this, if_false]
  have hord : ¬ ∃ i, lrBox.lo i > lrBox.hi i := by
    rintro ⟨i, hi⟩
    fin_cases i <;> norm_num [lrBox] at hi
  have hadd : (TrackedInterval.new (Box.unit 2 ℝ)).addTransform lrBox = lrTi := by
    unfold TrackedInterval.addTransform
    rw [if_neg (fun h => hord h.1), if_neg hord]
    rfl
  unfold zoomInOnIntervalIter
  simp only [hfs, lr_bound1 hv, hskip, Bool.false_and, Bool.false_eq_true, if_false, Bool.or_false, Bool.not_true, hadd]
  have hl : lrTi.getLastTransform = some (fun i => (lrBox.hi i - lrBox.lo i) / 2, fun i => (lrBox.hi i + lrBox.lo i) / 2) := rfl
  have hf2 : lrTi.finalStep = false := rfl
  simp only [hl, hf2, Bool.false_and, Bool.false_eq_true, if_false]
  rfl

theorem lr_alpha : (lrBox.hi 0 - lrBox.lo 0) / 2 = 1 / 10 ^ 10 ∧ (lrBox.hi 0 + lrBox.lo 0) / 2 = 1 - 1 / 10 ^ 10 ∧
    (lrBox.hi 1 - lrBox.lo 1) / 2 = 1 ∧ (lrBox.hi 1 + lrBox.lo 1) / 2 = 0 := by
  refine ⟨?_, ?_, ?_, ?_⟩ <;> norm_num [lrBox]

theorem transformCheb_two (M : Tensor 2 ℝ) (α β : Fin 2 → ℝ) (h1 : α 1 = 1) (h2 : β 1 = 0) (e : ℝ) :
    transformCheb M α β e false = (transformND M 0 (α 0) (β 0) false,
      e + getTransformationError M 0 + getTransformationError (transformND M 0 (α 0) (β 0) false) 1) := by
  unfold transformCheb
  simp only [List.finRange_succ, List.finRange_zero, List.map_nil, List.map_cons, List.foldl_cons, List.foldl_nil]
  have : ∀ N : Tensor 2 ℝ, transformND N (Fin.succ 0) (α (Fin.succ 0)) (β (Fin.succ 0)) false = N := by
    intro N
    unfold transformND
    rw [if_pos]
    exact Or.inl ⟨h1, h2⟩
  rw [this]
  rfl

theorem lrNew_data : ∃ p q : ℝ, 300 / 2 ^ 52 < 1 - (p + q) ∧ 0 < q ∧ q ≤ 1 / 1000 ∧ 0 ≤ p ∧
    linCoef (lrNew.1 0) 1 = 0 ∧ (lrNew.1 0).const = p - 1 ∧ linCoef (lrNew.1 0) 0 = q ∧
    (lrNew.1 0).absSum = (1 - p) + q + 1 / 2 ^ 52 ∧ lrNew.2 0 ≤ 216 / 2 ^ 52 ∧
    ∀ x, (lrNew.1 0).eval x = p - 1 + q * x 0 + 1 / 2 ^ 52 * chebT 3 (x 1) := by
  obtain ⟨p, q, h1, h2, h3, h4, h5, h6, h7⟩ := lr_transform
  obtain ⟨a0, b0, a1, b1⟩ := lr_alpha
  have hT := transformCheb_two lrM0 (fun i => (lrBox.hi i - lrBox.lo i) / 2) (fun i => (lrBox.hi i + lrBox.lo i) / 2) a1 b1 (lrErr 0)
  simp only [a0, b0] at hT
  have e1 : lrNew.1 0 = transformND lrM0 0 (1 / 10 ^ 10) (1 - 1 / 10 ^ 10) false := by
    have : lrNew.1 0 = (transformCheb (lrMs 0) (fun i => (lrBox.hi i - lrBox.lo i) / 2) (fun i => (lrBox.hi i + lrBox.lo i) / 2)
      (lrErr 0) false).1 := rfl
    rw [this, lrMs_fst, hT]
  have e2 : lrNew.2 0 = lrErr 0 + getTransformationError lrM0 0
      + getTransformationError (transformND lrM0 0 (1 / 10 ^ 10) (1 - 1 / 10 ^ 10) false) 1 := by
    have : lrNew.2 0 = (transformCheb (lrMs 0) (fun i => (lrBox.hi i - lrBox.lo i) / 2) (fun i => (lrBox.hi i + lrBox.lo i) / 2)
      (lrErr 0) false).2 := rfl
    rw [this, lrMs_fst, hT]
  rw [e1, e2]
  obtain ⟨N, hN⟩ : ∃ N, N = transformND lrM0 0 (1 / 10 ^ 10) (1 - 1 / 10 ^ 10) false := ⟨_, rfl⟩
  rw [← hN] at h5 h6 h7 ⊢
  have s0 : N.shape 0 = 2 := by rw [h5]; rfl
  have s1 : N.shape 1 = 4 := by rw [h5]; rfl
  have hp : p < 1 := by
    have : (0 : ℝ) < 300 / 2 ^ 52 := by positivity
    linarith
  have habs : N.absSum = (1 - p) + q + 1 / 2 ^ 52 := by
    unfold Tensor.absSum
    rw [sum_idx_two N, s0, s1, sum_range_succ, sum_range_one]
    simp only [sum_range_succ, sum_range_zero]
    rw [h6 _ rfl, h6 _ rfl, h6 _ rfl, h6 _ rfl, h7 _ rfl, h7 _ rfl, h7 _ rfl, h7 _ rfl]
    simp [abs_of_pos h2, abs_of_neg (show p - 1 < 0 by linarith)]
    ring
  have herr : lrErr 0 = 1 / 2 ^ 52 := by simp [lrErr]
  have g0 : getTransformationError lrM0 0 ≤ 203 / 2 ^ 52 := by
    unfold getTransformationError macheps
    rw [lrM0_absSum]
    simp [lrM0]
    norm_num
  have g1 : getTransformationError N 1 = 4 / 2 ^ 52 * (1 - p + q + 1 / 2 ^ 52) := by
    unfold getTransformationError macheps
    rw [habs, s1]
    push_cast
    ring
  refine ⟨p, q, h1, h2, h3, h4, ?_, h6 _ rfl, ?_, habs, ?_, ?_⟩
  · unfold linCoef
    rw [if_neg (by rw [s1]; norm_num), h6 _ (by simp)]
    simp
  · unfold linCoef
    rw [if_neg (by rw [s0]; norm_num), h7 _ (by simp)]
    simp
  · rw [herr, g1]
    have h8 : (1 - p + q + 1 / 2 ^ 52) ≤ 3 := by
      have : (1 : ℝ) / 2 ^ 52 ≤ 1 := by norm_num
      linarith
    have h9 : 4 / 2 ^ 52 * (1 - p + q + 1 / 2 ^ 52) ≤ 4 / 2 ^ 52 * 3 := mul_le_mul_of_nonneg_left h8 (by positivity)
    have h10 : (216 : ℝ) / 2 ^ 52 = 1 / 2 ^ 52 + 203 / 2 ^ 52 + 4 / 2 ^ 52 * 3 := by norm_num
    linarith
  · intro x
    unfold Tensor.eval
    rw [sum_idx_two N, s0, s1, sum_range_succ, sum_range_one]
    simp only [sum_range_succ, sum_range_zero]
    rw [h6 _ rfl, h6 _ rfl, h6 _ rfl, h6 _ rfl, h7 _ rfl, h7 _ rfl, h7 _ rfl, h7 _ rfl]
    simp [Fin.prod_univ_two]
    ring

theorem lrNew_nonempty (i : Fin 2) : (lrNew.1 i).Nonempty := by
  have h := chebFold_shape false (fun i => (lrBox.hi i - lrBox.lo i) / 2) (fun i => (lrBox.hi i + lrBox.lo i) / 2)
    (List.finRange 2) (lrMs i, lrErr i) (lrMs_nonempty i)
  exact h.1

theorem lrNew_lin : ∀ i : Fin 2, linCoef (lrNew.1 i) 1 = 0 := by
  rw [Fin.forall_fin_two]
  constructor
  · obtain ⟨p, q, -, -, -, -, h, -⟩ := lrNew_data
    exact h
  · have h := (chebFold_shape false (fun i => (lrBox.hi i - lrBox.lo i) / 2) (fun i => (lrBox.hi i + lrBox.lo i) / 2)
      (List.finRange 2) (lrMs 1, lrErr 1) (lrMs_nonempty 1)).2 1
    have h1 : (lrNew.1 1).shape 1 ≤ (lrMs 1).shape 1 := h.1
    have h2 : (lrMs 1).shape 1 = 1 := by rw [lrMs_snd]; rfl
    have h3 := lrNew_nonempty 1 1
    rw [h2] at h1
    unfold linCoef
    rw [if_pos (by omega)]

theorem lr_zoom2 {svd : SVD 2 ℝ} (hv : svd.Valid) :
    zoomInOnIntervalIter svd lrNew.1 lrNew.2 lrTi false = .ok ⟨lrNew.1, lrNew.2, { lrTi with empty := true }, true, true⟩ := by
  obtain ⟨p, q, h1, h2, h3, h4, -, h6, h7, h8, h9, -⟩ := lrNew_data
  have hthrow : (boundingIntervalLinearSystem svd lrNew.1 lrNew.2 false).throwOut = true := by
    refine bounding_throws hv _ lrNew_nonempty lrNew_lin _ (by rw [h7]; exact h2.ne') ?_
    have hp : p < 1 := by
      have : (0 : ℝ) < 300 / 2 ^ 52 := by positivity
      linarith
    unfold rowB linBounds
    rw [h6, h7, h8, abs_of_pos h2]
    have hneg : ¬ (2 * (p - 1) / q ≥ 0) := by
      rw [ge_iff_le, not_le]
      exact div_neg_of_neg_of_pos (by linarith) h2
    simp only [if_neg hneg]
    have : -(2 * (p - 1) / q) - ((1 - p + q + 1 / 2 ^ 52 + lrNew.2 0) / q - 1) = (1 - p - 1 / 2 ^ 52 - lrNew.2 0) / q := by
      field_simp
      ring
    rw [this, lt_div_iff₀ h2]
    unfold macheps
    have : (1 + 2 * (1 / 2 ^ 52)) * q ≤ q + 1 / 2 ^ 52 := by
      have : 2 * (1 / 2 ^ 52) * q ≤ 1 / 2 ^ 52 := by nlinarith
      linarith
    have h10 : (300 : ℝ) / 2 ^ 52 = 216 / 2 ^ 52 + 84 / 2 ^ 52 := by norm_num
    have h11 : (1 : ℝ) / 2 ^ 52 + 1 / 2 ^ 52 < 84 / 2 ^ 52 := by norm_num
    linarith
  have hfs : lrTi.finalStep = false := rfl
  have hct : lrTi.canThrowOut = true := rfl
  unfold zoomInOnIntervalIter
  simp only [hfs, hthrow, hct, Bool.not_true, Bool.and_false, Bool.not_false, Bool.and_true, if_true]

theorem lr_zoomLoop {svd : SVD 2 ℝ} (hv : svd.Valid) (fuel maxZoom : ℕ) :
    zoomLoop svd false maxZoom (fuel + 2) lrMs lrErr (TrackedInterval.new (Box.unit 2 ℝ))
      (TrackedInterval.new (Box.unit 2 ℝ)).dimSize 0 = .ok ⟨lrNew.1, lrNew.2, { lrTi with empty := true }, true, true⟩ := by
  have hne : ¬ ∀ i, lrTi.dimSize i ≥ (TrackedInterval.new (Box.unit 2 ℝ)).dimSize i / 2 := by
    intro h
    have := h 0
    have e1 : lrTi.dimSize 0 = 2 / 10 ^ 10 := by
      norm_num [TrackedInterval.dimSize, lrTi, TrackedInterval.applySub, TrackedInterval.stepBounds, lrBox,
        TrackedInterval.new, Box.unit]
    have e2 : (TrackedInterval.new (Box.unit 2 ℝ)).dimSize 0 = 2 := by
      norm_num [TrackedInterval.dimSize, TrackedInterval.new, Box.unit]
    rw [e1, e2] at this
    norm_num at this
  have he : lrTi.empty = false := rfl
  simp only [zoomLoop, lr_zoom1 hv, he, Bool.false_eq_true, if_false, if_neg hne, true_and, Nat.zero_le, if_true, lr_zoom2 hv]

theorem le_lastSum {n : ℕ} (M : Tensor n ℝ) (d : Fin n) (k : Fin n → ℕ) (hk : ∀ j, k j < M.shape j) (hd : k d = M.shape d - 1) :
    |M.coef k| ≤ M.lastSum d := by
  unfold Tensor.lastSum
  exact single_le_sum (f := fun k => |M.coef k|) (fun k _ => abs_nonneg (M.coef k))
    (mem_filter.2 ⟨(mem_idx_iff M k).2 hk, hd⟩)

theorem lr_trim : trimMs lrMs lrErr (1 / 10 ^ 3) 0 = (lrMs, lrErr) := by
  have key : ∀ i : Fin 2, trimPoly (lrMs i) (lrErr i) (1 / 10 ^ 3) 0 = ⟨lrMs i, 0 + lrErr i * (1 / 10 ^ 3), lrErr i⟩ := by
    intro i
    have h1 : trimAxis 1 (⟨lrMs i, 0 + lrErr i * (1 / 10 ^ 3), lrErr i⟩ : TrimState 2 ℝ)
        = ⟨lrMs i, 0 + lrErr i * (1 / 10 ^ 3), lrErr i⟩ := by
      rw [trimAxis, dif_neg]
      rintro ⟨ha, hb⟩
      simp only [] at ha hb
      rcases (by fin_cases i <;> simp : i = 0 ∨ i = 1) with rfl | rfl
      · have herr : lrErr 0 = 1 / 2 ^ 52 := by simp [lrErr]
        rw [lrMs_fst, herr] at ha
        have : (1 : ℝ) / 2 ^ 52 ≤ lrM0.lastSum 1 := by
          have hm := le_lastSum lrM0 1 ![0, 3] (fun j => by fin_cases j <;> simp [lrM0]) (by simp [lrM0])
          have hc : |lrM0.coef ![0, 3]| = 1 / 2 ^ 52 := by simp [lrM0]
          rwa [hc] at hm
        norm_num at ha this
        linarith
      · rw [lrMs_snd] at hb
        simp [lrM1] at hb
    have h0 : trimAxis 0 (⟨lrMs i, 0 + lrErr i * (1 / 10 ^ 3), lrErr i⟩ : TrimState 2 ℝ)
        = ⟨lrMs i, 0 + lrErr i * (1 / 10 ^ 3), lrErr i⟩ := by
      rw [trimAxis, dif_neg]
      rintro ⟨ha, hb⟩
      simp only [] at ha hb
      rcases (by fin_cases i <;> simp : i = 0 ∨ i = 1) with rfl | rfl
      · have herr : lrErr 0 = 1 / 2 ^ 52 := by simp [lrErr]
        rw [lrMs_fst, herr] at ha
        have : (1 : ℝ) ≤ lrM0.lastSum 0 := by
          have hm := le_lastSum lrM0 0 ![100, 0] (fun j => by fin_cases j <;> simp [lrM0]) (by simp [lrM0])
          have hc : |lrM0.coef ![100, 0]| = 1 := by simp [lrM0]
          rwa [hc] at hm
        norm_num at ha
        linarith
      · rw [lrMs_snd] at hb
        simp [lrM1] at hb
    unfold trimPoly
    simp only [List.finRange_succ, List.finRange_zero, List.map_nil, List.map_cons, List.foldl_cons, List.foldl_nil]
    rw [h0]
    exact h1
  unfold trimMs
  simp only [key]

/-- The whole run: nothing is returned. -/
theorem lr_solve (env : Env 2 ℝ) (hv : env.svd.Valid) (opts : Opts) (hx : opts.exact = false) (fuel : ℕ) :
    solvePolyRecursive env (fuel + 3) opts lrMs (TrackedInterval.new (Box.unit 2 ℝ)) lrErr = .ok ([], []) := by
  have hpt : (TrackedInterval.new (Box.unit 2 ℝ)).isPoint = false := by
    unfold TrackedInterval.isPoint
    rw [decide_eq_false_iff_not]
    intro h
    have := h 0
    norm_num [TrackedInterval.new, Box.unit] at this
  have hcopy : (TrackedInterval.new (Box.unit 2 ℝ)).copy = TrackedInterval.new (Box.unit 2 ℝ) := rfl
  rw [solvePolyRecursive]
  simp only [hpt, Bool.false_eq_true, if_false, hcopy, lr_trim, hx, lr_zoomLoop hv, if_true, ite_self]

end concrete

end YRoots
