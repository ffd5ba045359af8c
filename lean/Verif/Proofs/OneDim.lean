import Verif.Model.OneDim
import Mathlib.LinearAlgebra.Matrix.Charpoly.Coeff
import Mathlib.RingTheory.Polynomial.Chebyshev
import Mathlib.Analysis.Complex.Polynomial.Basic
import Mathlib.Algebra.Polynomial.Roots
import Mathlib.Tactic.LinearCombination
import Mathlib.Tactic.Linarith
import Mathlib.Tactic.FieldSimp

/-!
# Lemmas on `OneDimension.py`
-/

set_option linter.unusedSectionVars false

namespace YRoots.OneD

open Polynomial

/-! ### Characteristic polynomials from a left eigenvector of polynomials -/

theorem vecMul_charmatrix {n : ℕ} (A : Matrix (Fin n) (Fin n) ℂ) (v : Fin n → ℂ[X]) (j : Fin n) :
    Matrix.vecMul v (Matrix.charmatrix A) j = X * v j - ∑ i, v i * C (A i j) := by
  rw [Matrix.vecMul, dotProduct]
  simp only [Matrix.charmatrix_apply, mul_sub, Finset.sum_sub_distrib, Matrix.diagonal_apply]
  congr 1
  simp [Finset.sum_ite_eq', mul_comm]

theorem charpoly_of_left {n : ℕ} (A : Matrix (Fin n) (Fin n) ℂ) (v w : Fin n → ℂ[X]) (q : ℂ[X]) (i0 : Fin n) (k : ℕ)
    (hv : v i0 = X ^ k) (h : ∀ j, X * v j - ∑ i, v i * C (A i j) = q * w j) (hq : q.natDegree = n)
    (hq0 : k = 0 ∨ q.coeff 0 ≠ 0) : A.charpoly.roots = q.roots := by
  have hn : 0 < n := i0.pos
  have hqne : q ≠ 0 := by rintro rfl; simp at hq; omega
  have h1 : Matrix.vecMul v (Matrix.charmatrix A) = q • w := by
    funext j; rw [vecMul_charmatrix, h j]; simp
  have h2 : Matrix.vecMul v (Matrix.charmatrix A * (Matrix.charmatrix A).adjugate) =
      q • Matrix.vecMul w (Matrix.charmatrix A).adjugate := by
    rw [← Matrix.vecMul_vecMul, h1, Matrix.smul_vecMul]
  rw [Matrix.mul_adjugate, Matrix.vecMul_smul, Matrix.vecMul_one] at h2
  have h3 := congrFun h2 i0
  simp only [Pi.smul_apply, smul_eq_mul, hv] at h3
  have hd : q ∣ A.charpoly := by
    have hd0 : q ∣ A.charpoly * X ^ k := ⟨_, h3⟩
    rcases hq0 with rfl | hq0
    · simpa using hd0
    · refine IsCoprime.dvd_of_dvd_mul_right ?_ hd0
      refine IsCoprime.pow_right ?_
      refine (((prime_X (R := ℂ)).irreducible.coprime_iff_not_dvd).2 ?_).symm
      rw [X_dvd_iff]; exact hq0
  have hl : q.leadingCoeff ≠ 0 := leadingCoeff_ne_zero.2 hqne
  have hm : (C q.leadingCoeff⁻¹ * q).Monic := monic_C_mul_of_mul_leadingCoeff_eq_one (inv_mul_cancel₀ hl)
  have he : A.charpoly = C q.leadingCoeff⁻¹ * q := by
    refine eq_of_monic_of_dvd_of_natDegree_le hm A.charpoly_monic ?_ ?_
    · exact (isUnit_C.2 (isUnit_iff_ne_zero.2 (inv_ne_zero hl))).mul_left_dvd.2 hd
    · rw [Matrix.charpoly_natDegree_eq_dim, natDegree_C_mul (inv_ne_zero hl), hq]; simp
  rw [he, roots_C_mul _ (inv_ne_zero hl)]

/-! ### Reversed polynomials -/

theorem eq_of_eval_ne_zero {p q : ℂ[X]} (h : ∀ y : ℂ, y ≠ 0 → p.eval y = q.eval y) : p = q := by
  refine eq_of_infinite_eval_eq p q (Set.Infinite.mono (s := {y : ℂ | y ≠ 0}) (fun y hy => h y hy) ?_)
  exact (Set.finite_singleton (0 : ℂ)).infinite_compl

theorem rev_factor (P q : ℂ[X]) (s : ℂ) (hs : s ≠ 0) (hP : P.eval 0 ≠ 0)
    (hq : ∀ y : ℂ, y ≠ 0 → q.eval y = y ^ P.natDegree * P.eval (s / y)) :
    q.natDegree = P.natDegree ∧ q.coeff 0 ≠ 0 ∧ q.roots = P.roots.map fun r => s / r := by
  have hP0 : P ≠ 0 := by rintro rfl; simp at hP
  have hsp := (IsAlgClosed.splits P)
  have hprod := hsp.eq_prod_roots
  have hcard : P.roots.card = P.natDegree := hsp.natDegree_eq_card_roots.symm
  have hr : ∀ r ∈ P.roots, r ≠ 0 := by
    rintro r hr rfl
    exact hP ((mem_roots hP0).1 hr)
  have hl : P.leadingCoeff ≠ 0 := leadingCoeff_ne_zero.2 hP0
  have hq1 : q = C P.leadingCoeff * (P.roots.map fun r => C s - C r * X).prod := by
    refine eq_of_eval_ne_zero fun y hy => ?_
    have he : P.eval (s / y) = P.leadingCoeff * (P.roots.map fun r => s / y - r).prod := by
      conv_lhs => rw [hprod]
      rw [eval_mul, eval_C, eval_multiset_prod, Multiset.map_map]
      simp [Function.comp_def]
    rw [hq y hy, eval_mul, eval_C, eval_multiset_prod, Multiset.map_map, he, ← hcard]
    rw [mul_left_comm]
    congr 1
    rw [← Multiset.prod_replicate, ← Multiset.map_const', ← Multiset.prod_map_mul]
    refine congrArg _ (Multiset.map_congr rfl fun r _ => ?_)
    simp only [Function.comp, eval_sub, eval_X, eval_C, eval_mul]
    rw [mul_sub, mul_div_cancel₀ _ hy, mul_comm y r]
  have hq2 : q = C (P.leadingCoeff * (P.roots.map fun r => -r).prod) *
      ((P.roots.map fun r => s / r).map fun a => X - C a).prod := by
    rw [hq1, C_mul, mul_assoc]
    congr 1
    rw [Multiset.map_map, ← Multiset.prod_hom _ (C : ℂ →+* ℂ[X]), Multiset.map_map, ← Multiset.prod_map_mul]
    refine congrArg _ (Multiset.map_congr rfl fun r hrr => ?_)
    have h := hr r hrr
    simp only [Function.comp]
    rw [mul_sub, ← C_mul, show -r * (s / r) = -s by field_simp, C_neg, C_neg]
    ring
  have hc : P.leadingCoeff * (P.roots.map fun r => -r).prod ≠ 0 := by
    refine mul_ne_zero hl (Multiset.prod_ne_zero fun h => ?_)
    obtain ⟨r, h1, h2⟩ := Multiset.mem_map.1 h
    exact hr r h1 (neg_eq_zero.1 h2)
  have hroots : q.roots = P.roots.map fun r => s / r := by
    rw [hq2, roots_C_mul _ hc, roots_multiset_prod_X_sub_C]
  refine ⟨?_, ?_, hroots⟩
  · rw [← hcard, (IsAlgClosed.splits q).natDegree_eq_card_roots, hroots, Multiset.card_map]
  · intro h0
    have hq0 : q ≠ 0 := by
      rw [hq2]
      exact mul_ne_zero (C_ne_zero.2 hc) (monic_multiset_prod_of_monic _ _ fun a _ => monic_X_sub_C a).ne_zero
    have : (0 : ℂ) ∈ q.roots := by
      rw [mem_roots hq0, IsRoot, ← coeff_zero_eq_eval_zero, h0]
    rw [hroots] at this
    obtain ⟨r, h1, h2⟩ := Multiset.mem_map.1 this
    exact div_ne_zero hs (hr r h1) h2

/-! ### Flat writes -/

theorem stride_iff {n i j start : ℕ} (e q : ℤ) (hs : (start : ℤ) = e + q * (n + 1)) (hle : start ≤ i * n + j)
    (hb : |(j : ℤ) - i - e| < n + 1) : (i * n + j - start) % (n + 1) = 0 ↔ (j : ℤ) = i + e := by
  rw [← Nat.dvd_iff_mod_eq_zero, ← Int.natCast_dvd_natCast]
  have h1 : ((i * n + j - start : ℕ) : ℤ) = (n + 1) * (i - q) + (j - i - e) := by
    rw [Nat.cast_sub hle]; push_cast; rw [hs]; ring
  rw [h1, Nat.cast_add, Nat.cast_one, Int.dvd_add_right (dvd_mul_right _ _)]
  constructor
  · intro h
    have := Int.eq_zero_of_abs_lt_dvd h hb
    omega
  · intro h
    rw [h]; simp

theorem writeFlat_apply {n : ℕ} (A : Matrix (Fin n) (Fin n) ℝ) (start stop step : ℕ) (v : ℝ) (i j : Fin n) :
    writeFlat A start stop step v i j =
      if start ≤ i.val * n + j.val ∧ i.val * n + j.val < stop ∧ (i.val * n + j.val - start) % step = 0 then v
      else A i j := rfl

theorem flat_lt {n : ℕ} (i j : Fin n) : i.val * n + j.val < n * n := by
  have h1 : (i.val + 1) * n ≤ n * n := Nat.mul_le_mul_right _ i.isLt
  have := j.isLt
  rw [Nat.succ_mul] at h1
  omega

/-- Writing from position `n` with stride `n+1` hits the lower diagonal. -/
theorem writeFlat_lower {n : ℕ} (A : Matrix (Fin n) (Fin n) ℝ) (v : ℝ) (i j : Fin n) :
    writeFlat A n (n * n) (n + 1) v i j = if i.val = j.val + 1 then v else A i j := by
  rw [writeFlat_apply]
  have hi := i.isLt
  have hj := j.isLt
  refine if_congr ⟨fun h => ?_, fun h => ?_⟩ rfl rfl
  · have := (stride_iff (-1) 1 (by ring) h.1 (by rw [abs_lt]; omega)).1 h.2.2
    omega
  · have h0 : n ≤ i.val * n + j.val := by rw [h, Nat.succ_mul]; omega
    exact ⟨h0, flat_lt i j, (stride_iff (-1) 1 (by ring) h0 (by rw [abs_lt]; omega)).2 (by omega)⟩

/-- Writing from position `2n+1` with stride `n+1` hits the lower diagonal except its first entry. -/
theorem writeFlat_lower2 {n : ℕ} (A : Matrix (Fin n) (Fin n) ℝ) (v : ℝ) (i j : Fin n) :
    writeFlat A (2 * n + 1) (n * n) (n + 1) v i j = if i.val = j.val + 1 ∧ j.val ≠ 0 then v else A i j := by
  rw [writeFlat_apply]
  have hi := i.isLt
  have hj := j.isLt
  refine if_congr ⟨fun h => ?_, fun h => ?_⟩ rfl rfl
  · have := (stride_iff (-1) 2 (by push_cast; ring) h.1 (by rw [abs_lt]; omega)).1 h.2.2
    refine ⟨by omega, fun h0 => ?_⟩
    have h1 : i.val = 1 := by omega
    have := h.1
    rw [h1, h0] at this
    omega
  · have h0 : 2 * n + 1 ≤ i.val * n + j.val := by
      obtain ⟨m, hm⟩ : ∃ m, j.val = m + 1 := ⟨j.val - 1, by omega⟩
      rw [h.1, hm]
      have : (m + 1 + 1) * n + (m + 1) = m * n + (2 * n + 1) + m := by ring
      omega
    exact ⟨h0, flat_lt i j, (stride_iff (-1) 2 (by push_cast; ring) h0 (by rw [abs_lt]; omega)).2 (by omega)⟩

/-- Writing from position `col` up to row `n-col` with stride `n+1` hits the `col`-th upper diagonal. -/
theorem writeFlat_upper {n : ℕ} (A : Matrix (Fin n) (Fin n) ℝ) (v : ℝ) (col : ℕ) (hcol : col < n) (i j : Fin n) :
    writeFlat A col (min ((n - col) * n) (n * n)) (n + 1) v i j = if j.val = i.val + col then v else A i j := by
  rw [writeFlat_apply]
  have hi := i.isLt
  have hj := j.isLt
  have hmin : min ((n - col) * n) (n * n) = (n - col) * n := min_eq_left (Nat.mul_le_mul_right _ (by omega))
  rw [hmin]
  refine if_congr ⟨fun h => ?_, fun h => ?_⟩ rfl rfl
  · have hlt : i.val < n - col := by
      by_contra hc
      have : (n - col) * n ≤ i.val * n := Nat.mul_le_mul_right _ (by omega)
      omega
    have := (stride_iff (col : ℤ) 0 (by ring) h.1 (by rw [abs_lt]; omega)).1 h.2.2
    omega
  · have h0 : col ≤ i.val * n + j.val := by omega
    refine ⟨h0, ?_, (stride_iff (col : ℤ) 0 (by ring) h0 (by rw [abs_lt]; omega)).2 (by omega)⟩
    have h1 : (i.val + 1) * n ≤ (n - col) * n := Nat.mul_le_mul_right _ (by omega)
    rw [Nat.succ_mul] at h1
    omega

theorem writeFlat_upper1 {n : ℕ} (A : Matrix (Fin n) (Fin n) ℝ) (v : ℝ) (i j : Fin n) :
    writeFlat A 1 (n * n) (n + 1) v i j = if j.val = i.val + 1 then v else A i j := by
  rw [writeFlat_apply]
  have hi := i.isLt
  have hj := j.isLt
  refine if_congr ⟨fun h => ?_, fun h => ?_⟩ rfl rfl
  · have := (stride_iff 1 0 (by ring) h.1 (by rw [abs_lt]; omega)).1 h.2.2
    omega
  · have h0 : 1 ≤ i.val * n + j.val := by omega
    exact ⟨h0, flat_lt i j, (stride_iff 1 0 (by ring) h0 (by rw [abs_lt]; omega)).2 (by omega)⟩

/-! ### Column sums -/

section Columns

variable {R : Type*} [CommRing R] (φ : ℝ →+* R) (v : ℕ → R)

/-- The companion matrix before the rotation. -/
noncomputable def companion0 (coeff : List ℝ) : Matrix (Fin (coeff.length - 1)) (Fin (coeff.length - 1)) ℝ :=
  Matrix.of fun i j =>
    if j.val = coeff.length - 1 - 1 then
      writeFlat (0 : Matrix _ _ ℝ) (coeff.length - 1) ((coeff.length - 1) * (coeff.length - 1)) (coeff.length - 1 + 1) 1 i j
        - coeff.getD i.val 0 / coeff.getD (coeff.length - 1) 0
    else
      writeFlat (0 : Matrix _ _ ℝ) (coeff.length - 1) ((coeff.length - 1) * (coeff.length - 1)) (coeff.length - 1 + 1) 1 i j

theorem companion_eq (coeff : List ℝ) : companion coeff = (companion0 coeff).submatrix Fin.rev Fin.rev := rfl

theorem sum_single {n : ℕ} (k : ℕ) (hk : k < n) (f : ℕ → R) :
    ∑ i : Fin n, (if i.val = k then f i.val else 0) = f k := by
  rw [Finset.sum_eq_single (⟨k, hk⟩ : Fin n)]
  · simp
  · intro b _ hb
    rw [if_neg]
    intro h; exact hb (Fin.ext h)
  · simp

theorem companion0_col (coeff : List ℝ) (j : Fin (coeff.length - 1)) :
    ∑ i : Fin (coeff.length - 1), v i.val * φ (companion0 coeff i j) =
      if j.val + 1 < coeff.length - 1 then v (j.val + 1)
      else -∑ i : Fin (coeff.length - 1), v i.val * φ (coeff.getD i.val 0 / coeff.getD (coeff.length - 1) 0) := by
  have hj := j.isLt
  split_ifs with h
  · rw [← sum_single (j.val + 1) h v]
    refine Finset.sum_congr rfl fun i _ => ?_
    rw [companion0, Matrix.of_apply, if_neg (by omega), writeFlat_lower]
    split_ifs <;> simp
  · rw [← Finset.sum_neg_distrib]
    refine Finset.sum_congr rfl fun i _ => ?_
    have hi := i.isLt
    rw [companion0, Matrix.of_apply, if_pos (by omega), writeFlat_lower, if_neg (by omega)]
    simp

theorem divisionPower_col (coeff : List ℝ) (j : Fin (coeff.length - 1)) :
    ∑ i : Fin (coeff.length - 1), v i.val * φ (divisionPower coeff i j) =
      if j.val = 0 then -∑ i : Fin (coeff.length - 1), v i.val * φ (coeff.getD (i.val + 1) 0 / coeff.getD 0 0)
      else v (j.val - 1) := by
  have hj := j.isLt
  split_ifs with h
  · rw [← Finset.sum_neg_distrib]
    refine Finset.sum_congr rfl fun i _ => ?_
    simp only [divisionPower, Matrix.of_apply]
    rw [if_pos h, writeFlat_upper1, if_neg (by omega)]
    simp
  · rw [← sum_single (n := coeff.length - 1) (j.val - 1) (by omega) v]
    refine Finset.sum_congr rfl fun i _ => ?_
    simp only [divisionPower, Matrix.of_apply]
    rw [if_neg h, writeFlat_upper1]
    by_cases hi : i.val = j.val - 1
    · rw [if_pos hi, if_pos (by omega)]; simp
    · rw [if_neg hi, if_neg (by omega)]; simp

theorem colleague_col_zero (coeff : List ℝ) (j : Fin (coeff.length - 1)) (hj : j.val = 0) (hn : 2 ≤ coeff.length - 1) :
    ∑ i : Fin (coeff.length - 1), v i.val * φ (colleague coeff i j) = v 1 := by
  rw [← sum_single (n := coeff.length - 1) 1 (by omega) v]
  refine Finset.sum_congr rfl fun i _ => ?_
  simp only [colleague, Matrix.of_apply]
  rw [if_neg (by omega), writeFlat_lower2, if_neg (by omega), writeFlat_upper1, if_neg (by omega), Matrix.of_apply]
  by_cases hi : i.val = 1
  · rw [if_pos hi, if_pos ⟨hi, hj⟩]; simp
  · rw [if_neg hi, if_neg (by tauto)]; simp

theorem colleague_col_mid (coeff : List ℝ) (j : Fin (coeff.length - 1)) (hj : j.val ≠ 0)
    (hn : j.val + 1 < coeff.length - 1) :
    ∑ i : Fin (coeff.length - 1), v i.val * φ (colleague coeff i j) = (v (j.val - 1) + v (j.val + 1)) * φ (1 / 2) := by
  rw [← sum_single (n := coeff.length - 1) (j.val + 1) hn v,
    ← sum_single (n := coeff.length - 1) (j.val - 1) (by omega) v, ← Finset.sum_add_distrib, Finset.sum_mul]
  refine Finset.sum_congr rfl fun i _ => ?_
  simp only [colleague, Matrix.of_apply]
  rw [if_neg (by omega), writeFlat_lower2, writeFlat_upper1, Matrix.of_apply]
  by_cases hi : i.val = j.val - 1
  · rw [if_pos hi, if_neg (by omega), if_pos (by omega), if_neg (by omega)]; simp
  · rw [if_neg hi]
    by_cases hi2 : i.val = j.val + 1
    · rw [if_pos hi2, if_pos ⟨hi2, hj⟩]; simp
    · rw [if_neg hi2, if_neg (by tauto), if_neg (by omega), if_neg (by omega)]; simp

theorem colleague_col_last (coeff : List ℝ) (j : Fin (coeff.length - 1)) (hj : j.val ≠ 0)
    (hn : j.val + 1 = coeff.length - 1) :
    ∑ i : Fin (coeff.length - 1), v i.val * φ (colleague coeff i j) = v (j.val - 1) * φ (1 / 2) -
      φ (1 / 2) * ∑ i : Fin (coeff.length - 1), v i.val * φ (coeff.getD i.val 0 / coeff.getD (coeff.length - 1) 0) := by
  rw [← sum_single (n := coeff.length - 1) (j.val - 1) (by omega) v, Finset.sum_mul, Finset.mul_sum,
    ← Finset.sum_sub_distrib]
  refine Finset.sum_congr rfl fun i _ => ?_
  have hil := i.isLt
  simp only [colleague, Matrix.of_apply]
  rw [if_pos (by omega), writeFlat_lower2, writeFlat_upper1, Matrix.of_apply, if_neg (by omega), mul_div_assoc, map_sub,
    map_mul]
  by_cases hi : i.val = j.val - 1
  · rw [if_pos hi, if_pos (by omega)]; ring
  · rw [if_neg hi, if_neg (by omega), if_neg (by omega), map_zero]; ring

end Columns

/-! ### The division matrix in the Chebyshev basis -/

theorem base_fold (n : ℕ) : ∀ m, m ≤ n →
    ((List.range m).filter fun col => col % 2 = 1).foldl
      (fun (s : Matrix (Fin n) (Fin n) ℝ × ℝ) col =>
        (writeFlat s.1 col (min ((n - col) * n) (n * n)) (n + 1) (2 * s.2), -s.2))
      ((0 : Matrix (Fin n) (Fin n) ℝ), 1) =
    (Matrix.of fun i j =>
      if i.val < j.val ∧ (j.val - i.val) % 2 = 1 ∧ j.val - i.val < m then 2 * (-1) ^ ((j.val - i.val) / 2) else 0,
      (-1) ^ (m / 2)) := by
  intro m
  induction m with
  | zero => intro _; ext <;> simp
  | succ m ih =>
    intro hm
    rw [List.range_succ, List.filter_append, List.foldl_append, ih (by omega)]
    by_cases hodd : m % 2 = 1
    · rw [List.filter_cons_of_pos (by simpa using hodd), List.filter_nil]
      simp only [List.foldl_cons, List.foldl_nil]
      refine Prod.ext ?_ ?_
      · ext i j
        change writeFlat _ m (min ((n - m) * n) (n * n)) (n + 1) _ i j = _
        rw [writeFlat_upper _ _ _ (by omega), Matrix.of_apply]
        simp only [Matrix.of_apply]
        by_cases h : j.val = i.val + m
        · have h1 : j.val - i.val = m := by omega
          rw [if_pos h, h1, if_pos ⟨by omega, hodd, by omega⟩]
        · rw [if_neg h]
          exact if_congr ⟨fun c => ⟨c.1, c.2.1, by omega⟩, fun c => ⟨c.1, c.2.1, by omega⟩⟩ rfl rfl
      · have : (m + 1) / 2 = m / 2 + 1 := by omega
        simp only [this, pow_succ]; ring
    · rw [List.filter_cons_of_neg (by simpa using hodd), List.filter_nil]
      simp only [List.foldl_nil]
      refine Prod.ext ?_ ?_
      · ext i j
        simp only [Matrix.of_apply]
        exact if_congr ⟨fun c => ⟨c.1, c.2.1, by omega⟩, fun c => ⟨c.1, c.2.1, by omega⟩⟩ rfl rfl
      · have : (m + 1) / 2 = m / 2 := by omega
        simp only [this]

theorem chebDivBase_apply (n : ℕ) (i j : Fin n) : chebDivBase n i j =
    if i.val < j.val ∧ (j.val - i.val) % 2 = 1 then (if i.val = 0 then 1 else 2) * (-1) ^ ((j.val - i.val) / 2) else 0 := by
  simp only [chebDivBase, base_fold n n le_rfl, Matrix.of_apply]
  have hj := j.isLt
  by_cases c : i.val < j.val ∧ (j.val - i.val) % 2 = 1
  · have c' : i.val < j.val ∧ (j.val - i.val) % 2 = 1 ∧ j.val - i.val < n := ⟨c.1, c.2, by omega⟩
    simp only [if_pos c, if_pos c']
    split_ifs <;> ring
  · have c' : ¬(i.val < j.val ∧ (j.val - i.val) % 2 = 1 ∧ j.val - i.val < n) := by tauto
    simp only [if_neg c, if_neg c']; simp

theorem addXinv_fold {n : ℕ} (xinv : ℕ → ℝ) (A : Matrix (Fin n) (Fin n) ℝ) : ∀ m,
    ((List.range m).filter fun col => col % 2 = 0).foldl
      (fun (s : Matrix (Fin n) (Fin n) ℝ × ℝ) col =>
        (Matrix.of fun i j => if j.val = col then s.1 i j + xinv i.val * s.2 else s.1 i j, -s.2)) (A, 1) =
    (Matrix.of fun i j => A i j + if j.val % 2 = 0 ∧ j.val < m then xinv i.val * (-1) ^ (j.val / 2) else 0,
      (-1) ^ ((m + 1) / 2)) := by
  intro m
  induction m with
  | zero => ext <;> simp
  | succ m ih =>
    rw [List.range_succ, List.filter_append, List.foldl_append, ih]
    by_cases hev : m % 2 = 0
    · rw [List.filter_cons_of_pos (by simpa using hev), List.filter_nil]
      simp only [List.foldl_cons, List.foldl_nil]
      refine Prod.ext ?_ ?_
      · ext i j
        simp only [Matrix.of_apply]
        by_cases h : j.val = m
        · rw [if_pos h, if_neg (by omega), if_pos ⟨by omega, by omega⟩, add_zero, h,
            show (m + 1) / 2 = m / 2 by omega]
        · rw [if_neg h]
          congr 1
          exact if_congr ⟨fun c => ⟨c.1, by omega⟩, fun c => ⟨c.1, by omega⟩⟩ rfl rfl
      · have : (m + 1 + 1) / 2 = (m + 1) / 2 + 1 := by omega
        simp only [this, pow_succ]; ring
    · rw [List.filter_cons_of_neg (by simpa using hev), List.filter_nil]
      simp only [List.foldl_nil]
      refine Prod.ext ?_ ?_
      · ext i j
        simp only [Matrix.of_apply]
        congr 1
        exact if_congr ⟨fun c => ⟨c.1, by omega⟩, fun c => ⟨c.1, by omega⟩⟩ rfl rfl
      · have : (m + 1 + 1) / 2 = (m + 1) / 2 := by omega
        simp only [this]

theorem addXinv_apply {n : ℕ} (xinv : ℕ → ℝ) (A : Matrix (Fin n) (Fin n) ℝ) (i j : Fin n) :
    addXinv xinv A i j = A i j + if j.val % 2 = 0 then xinv i.val * (-1) ^ (j.val / 2) else 0 := by
  rw [addXinv, addXinv_fold]
  have hj := j.isLt
  simp only [Matrix.of_apply]
  simp [hj]

/-- The scaling of the matrix: its eigenvalues are `scale/x`. -/
noncomputable def scale (d : ℝ) : ℝ := if |d| > 1 then 1 else d

/-- The factor of `xinv` in the matrix. -/
noncomputable def xscale (d : ℝ) : ℝ := if |d| > 1 then d⁻¹ else 1

theorem scale_eq {d : ℝ} : d * xscale d = scale d := by
  unfold scale xscale
  split_ifs with h
  · have : d ≠ 0 := by rintro rfl; simp at h; linarith
    field_simp
  · simp

theorem scale_ne_zero {d : ℝ} (hd : d ≠ 0) : scale d ≠ 0 := by
  unfold scale; split_ifs <;> simp [hd]

theorem divisionCheb_apply (n : ℕ) (xinv : ℕ → ℝ) (d : ℝ) (i j : Fin n) :
    divisionCheb n xinv d i j = scale d * chebDivBase n i j +
      if j.val % 2 = 0 then xinv i.val * xscale d * (-1) ^ (j.val / 2) else 0 := by
  unfold divisionCheb scale xscale
  by_cases h : |d| > 1
  · simp only [if_pos h, addXinv_apply]
    by_cases h2 : j.val % 2 = 0 <;> simp [h2, div_eq_mul_inv]
  · simp only [if_neg h, addXinv_apply]
    by_cases h2 : j.val % 2 = 0 <;> simp [h2]

section Columns

variable {R : Type*} [CommRing R] (φ : ℝ →+* R) (v : ℕ → R)

theorem divisionCheb_col0 (n : ℕ) (xinv : ℕ → ℝ) (d : ℝ) (j : Fin n) (hj : j.val = 0) :
    ∑ i : Fin n, v i.val * φ (divisionCheb n xinv d i j) = ∑ i : Fin n, v i.val * φ (xinv i.val * xscale d) := by
  refine Finset.sum_congr rfl fun i _ => ?_
  rw [divisionCheb_apply, chebDivBase_apply, if_neg (by omega), hj]
  simp

theorem divisionCheb_col1 (n : ℕ) (xinv : ℕ → ℝ) (d : ℝ) (j : Fin n) (hj : j.val = 1) :
    ∑ i : Fin n, v i.val * φ (divisionCheb n xinv d i j) = v 0 * φ (scale d) := by
  have hjl := j.isLt
  rw [← sum_single (n := n) 0 (by omega) v, Finset.sum_mul]
  refine Finset.sum_congr rfl fun i _ => ?_
  rw [divisionCheb_apply, chebDivBase_apply, hj]
  by_cases hi : i.val = 0
  · simp [hi]
  · rw [if_neg (by omega), if_neg hi, if_neg (by omega)]; simp

theorem divisionCheb_col_pair (n : ℕ) (xinv : ℕ → ℝ) (d : ℝ) (a b : Fin n) (j : ℕ) (hj : 1 ≤ j) (ha : a.val = j - 1)
    (hb : b.val = j + 1) :
    ∑ i : Fin n, v i.val * φ (divisionCheb n xinv d i a) + ∑ i : Fin n, v i.val * φ (divisionCheb n xinv d i b) =
      2 * (v j * φ (scale d)) := by
  have hbl := b.isLt
  rw [← sum_single (n := n) j (by omega) v, Finset.sum_mul, Finset.mul_sum, ← Finset.sum_add_distrib]
  refine Finset.sum_congr rfl fun i _ => ?_
  rw [← mul_add, ← map_add, divisionCheb_apply, divisionCheb_apply]
  have hx : (if a.val % 2 = 0 then xinv i.val * xscale d * (-1) ^ (a.val / 2) else 0) +
      (if b.val % 2 = 0 then xinv i.val * xscale d * (-1) ^ (b.val / 2) else 0) = 0 := by
    by_cases c : a.val % 2 = 0
    · rw [if_pos c, if_pos (by omega), show b.val / 2 = a.val / 2 + 1 by omega, pow_succ]; ring
    · rw [if_neg c, if_neg (by omega), add_zero]
  have hbase : chebDivBase n i a + chebDivBase n i b = if i.val = j then 2 else 0 := by
    rw [chebDivBase_apply, chebDivBase_apply]
    by_cases hi : i.val = j
    · rw [if_neg (by omega), if_pos (by omega), if_neg (by omega), if_pos hi, show b.val - i.val = 1 by omega]
      norm_num
    · rw [if_neg hi]
      by_cases c : i.val < a.val ∧ (a.val - i.val) % 2 = 1
      · have c' : i.val < b.val ∧ (b.val - i.val) % 2 = 1 := by omega
        rw [if_pos c, if_pos c', show (b.val - i.val) / 2 = (a.val - i.val) / 2 + 1 by omega, pow_succ]
        ring
      · rw [if_neg c, if_neg (by omega), add_zero]
  have : scale d * chebDivBase n i a + (if a.val % 2 = 0 then xinv i.val * xscale d * (-1) ^ (a.val / 2) else 0) +
      (scale d * chebDivBase n i b + (if b.val % 2 = 0 then xinv i.val * xscale d * (-1) ^ (b.val / 2) else 0)) =
      scale d * if i.val = j then 2 else 0 := by
    rw [← hbase]; linear_combination hx
  rw [this, map_mul]
  split_ifs
  · rw [map_ofNat]; ring
  · simp

end Columns

/-! ### `getXinv` -/

section Xinv

variable {R : Type*} [CommRing R] (φ : ℝ →+* R) (v : ℕ → R) (x s : R) (n : ℕ)

theorem xinv_fold (h2 : ∀ j, 1 ≤ j → j + 1 ≤ n → 2 * (v j * s) = x * (v (j - 1) + v (j + 1)))
    (c : ℕ → ℝ) : ∀ k, k + 1 ≤ n →
    let st := ((List.range' (n - k) k).reverse).foldl xinvStep (c, fun _ => 0)
    (∀ i, i < n - k → st.2 i = 0) ∧
    ∑ i ∈ Finset.range (n - k + 1), φ (st.1 i) * (x * v i) - s * ∑ i ∈ Finset.range n, v i * φ (st.2 i) =
      ∑ i ∈ Finset.range (n + 1), φ (c i) * (x * v i) := by
  intro k
  induction k with
  | zero => intro _; simp
  | succ k ih =>
    intro hk
    obtain ⟨ih1, ih2⟩ := ih (by omega)
    have hl : List.range' (n - (k + 1)) (k + 1) = (n - (k + 1)) :: List.range' (n - k) k := by
      rw [List.range'_succ, show n - (k + 1) + 1 = n - k by omega]
    rw [hl, List.reverse_cons, List.foldl_append]
    generalize ((List.range' (n - k) k).reverse).foldl xinvStep (c, fun _ => 0) = st at ih1 ih2 ⊢
    obtain ⟨m, hm⟩ : ∃ m, n - k = m + 2 := ⟨n - k - 2, by omega⟩
    rw [hm] at ih1 ih2
    rw [show n - (k + 1) = m + 1 by omega]
    simp only [List.foldl_cons, List.foldl_nil, xinvStep, Nat.add_sub_cancel]
    refine ⟨fun i hi => ?_, ?_⟩
    · rw [Function.update_of_ne (by omega)]; exact ih1 i (by omega)
    · rw [← ih2]
      have hsum : ∑ i ∈ Finset.range n, v i * φ (Function.update st.2 (m + 1) (st.2 (m + 1) + 2 * -st.1 (m + 1 + 1)) i) =
          ∑ i ∈ Finset.range n, v i * φ (st.2 i) + v (m + 1) * φ (2 * -st.1 (m + 1 + 1)) := by
        rw [← Finset.sum_erase_add (Finset.range n)
            (fun i => v i * φ (Function.update st.2 (m + 1) (st.2 (m + 1) + 2 * -st.1 (m + 1 + 1)) i))
            (Finset.mem_range.2 (show m + 1 < n by omega)), ← Finset.sum_erase_add (Finset.range n) (fun i => v i * φ (st.2 i))
            (Finset.mem_range.2 (show m + 1 < n by omega)), Function.update_self, map_add, mul_add, ← add_assoc]
        refine congrArg₂ _ (congrArg₂ _ (Finset.sum_congr rfl fun i hi => ?_) rfl) rfl
        rw [Function.update_of_ne (Finset.ne_of_mem_erase hi)]
      rw [hsum]
      have hr := h2 (m + 1) (by omega) (by omega)
      simp only [Nat.add_sub_cancel] at hr
      rw [Finset.sum_range_succ, Finset.sum_range_succ, Finset.sum_range_succ (n := m + 2),
        Finset.sum_range_succ (n := m + 1), Finset.sum_range_succ (n := m), Function.update_self,
        Function.update_of_ne (show m + 1 ≠ m by omega)]
      have hlow : ∑ i ∈ Finset.range m, φ (Function.update st.1 m (st.1 m + -st.1 (m + 1 + 1)) i) * (x * v i) =
          ∑ i ∈ Finset.range m, φ (st.1 i) * (x * v i) := by
        refine Finset.sum_congr rfl fun i hi => ?_
        rw [Function.update_of_ne (Finset.mem_range.1 hi).ne]
      rw [hlow]
      simp only [map_add, map_neg, map_mul, map_ofNat]
      linear_combination φ (st.1 (m + 2)) * hr

theorem getXinv_spec (coeff : List ℝ) (hn : n = coeff.length - 1) (hlen : 2 ≤ coeff.length)
    (h1 : v 0 * s = x * v 1) (h2 : ∀ j, 1 ≤ j → j + 1 ≤ n → 2 * (v j * s) = x * (v (j - 1) + v (j + 1)))
    (xinv : ℕ → ℝ) (d : ℝ) (h : getXinv coeff = .ok (xinv, d)) :
    φ d * (x * v 0) - s * ∑ i ∈ Finset.range n, v i * φ (xinv i) =
      ∑ i ∈ Finset.range (n + 1), φ (coeff.getD i 0) * (x * v i) := by
  obtain ⟨k, hk⟩ : ∃ k, n = k + 1 := ⟨n - 1, by omega⟩
  have hfold := xinv_fold φ v x s n h2 (fun i => coeff.getD i 0) k (by omega)
  rw [getXinv, if_neg (by omega), ← hn] at h
  simp only [hk, Nat.add_sub_cancel, Except.ok.injEq, Prod.mk.injEq] at h
  simp only [hk, Nat.add_sub_cancel_left] at hfold
  generalize ((List.range' 1 k).reverse).foldl xinvStep (fun i => coeff.getD i 0, fun _ => 0) = st at h hfold
  obtain ⟨f1, f2⟩ := hfold
  rw [hk, ← f2, ← h.1, ← h.2]
  have h0 := f1 0 (by omega)
  rw [Finset.sum_range_succ' (n := k), Finset.sum_range_succ' (n := k) (f := fun i => v i * φ (st.2 i)), Function.update_self,
    h0, Finset.sum_range_succ, Finset.sum_range_one]
  have : ∑ i ∈ Finset.range k, v (i + 1) * φ (Function.update st.2 0 (0 + -st.1 1) (i + 1)) =
      ∑ i ∈ Finset.range k, v (i + 1) * φ (st.2 (i + 1)) := by
    refine Finset.sum_congr rfl fun i _ => ?_
    rw [Function.update_of_ne (by omega)]
  rw [this]
  simp only [map_add, map_neg, map_zero]
  linear_combination φ (st.1 1) * h1

end Xinv

end YRoots.OneD
