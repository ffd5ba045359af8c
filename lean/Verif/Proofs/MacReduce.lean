import Verif.Model.Macaulay
import Verif.Proofs.PivotQR
import Mathlib.LinearAlgebra.Matrix.Rank
import Mathlib.LinearAlgebra.Matrix.ToLinearEquiv

/-! # Helper lemmas: the reduction of the Macaulay matrix -/

namespace YRoots.Legacy

open Matrix Finset

/-- A real matrix read as a complex one. -/
noncomputable abbrev cm {p q : Type*} (A : Matrix p q ℝ) : Matrix p q ℂ := A.map Complex.ofRealHom

theorem cm_apply {p q : Type*} (A : Matrix p q ℝ) (i : p) (j : q) : cm A i j = (A i j : ℂ) := rfl

theorem cm_mul {p q r : Type*} [Fintype q] (A : Matrix p q ℝ) (B : Matrix q r ℝ) : cm (A * B) = cm A * cm B := Matrix.map_mul

theorem rank_rows_le {c b : ℕ} {J : Type*} [Fintype J] (M : Matrix (Fin (c + b)) J ℝ) :
    M.rank ≤ c + (M.submatrix (Fin.natAdd c) id).rank := by
  rw [rank_eq_finrank_span_row, rank_eq_finrank_span_row]
  have h1 : Submodule.span ℝ (Set.range M.row) ≤
      Submodule.span ℝ (Set.range (M.submatrix (Fin.castAdd b) id).row) ⊔ Submodule.span ℝ (Set.range (M.submatrix (Fin.natAdd c) id).row) := by
    rw [Submodule.span_le]
    rintro _ ⟨i, rfl⟩
    refine Fin.addCases (fun i => ?_) (fun i => ?_) i
    · exact Submodule.mem_sup_left (Submodule.subset_span ⟨i, rfl⟩)
    · exact Submodule.mem_sup_right (Submodule.subset_span ⟨i, rfl⟩)
  have h2 := Submodule.finrank_mono h1
  have h3 := Submodule.finrank_add_le_finrank_add_finrank (Submodule.span ℝ (Set.range (M.submatrix (Fin.castAdd b) id).row))
    (Submodule.span ℝ (Set.range (M.submatrix (Fin.natAdd c) id).row))
  have h4 : Module.finrank ℝ (Submodule.span ℝ (Set.range (M.submatrix (Fin.castAdd b) id).row)) ≤ c := by
    have := finrank_range_le_card (R := ℝ) (M.submatrix (Fin.castAdd b) id).row
    simpa [Set.finrank] using this
  omega

/-- A triangular matrix with trivial kernel has no zero on the diagonal. -/
theorem diag_ne_zero {p : ℕ} (R : Matrix (Fin p) (Fin p) ℝ) (hu : ∀ i j, j < i → R i j = 0) (hk : ∀ x, R *ᵥ x = 0 → x = 0) (i : Fin p) : R i i ≠ 0 := by
  have hdet : R.det ≠ 0 := by
    intro h
    obtain ⟨v, hv, h0⟩ := exists_mulVec_eq_zero_iff.2 h
    exact hv (hk v h0)
  rw [det_of_isUpperTriangular (fun i j h => hu i j h)] at hdet
  exact (Finset.prod_ne_zero_iff.1 hdet) i (mem_univ i)

theorem cm_kernel {p : ℕ} (R : Matrix (Fin p) (Fin p) ℝ) (hu : ∀ i j, j < i → R i j = 0) (hd : ∀ i, R i i ≠ 0) (x : Fin p → ℂ)
    (h : cm R *ᵥ x = 0) : x = 0 := by
  have hdet : (cm R).det ≠ 0 := by
    rw [det_of_isUpperTriangular (fun i j h => by rw [cm_apply, hu i j h, Complex.ofReal_zero])]
    exact Finset.prod_ne_zero_iff.2 fun i _ => by simpa using hd i
  by_contra hx
  exact hdet (exists_mulVec_eq_zero_iff.1 ⟨x, hx, h⟩)

/-- The singular vectors: the first `k` coordinates of a null vector vanish. -/
theorem svd_coords {b l k : ℕ} (B : Matrix (Fin b) (Fin l) ℝ) (V : Matrix (Fin l) (Fin l) ℝ) (hV : Vᵀ * V = 1) (s : Fin l → ℝ) (hs : Antitone s)
    (h0 : ∀ j, 0 ≤ s j) (hd : (B * V)ᵀ * (B * V) = diagonal s) (hr : k ≤ B.rank) (w : Fin l → ℂ) (hw : cm B *ᵥ w = 0) (j : Fin l) (hj : j.1 < k) :
    (cm Vᵀ *ᵥ w) j = 0 := by
  have hV' : V * Vᵀ = 1 := mul_eq_one_comm.1 hV
  have hrank : (diagonal s).rank = B.rank := by
    rw [← hd, rank_transpose_mul_self, rank_mul_eq_left_of_isUnit_det]
    exact (isUnit_iff_isUnit_det V).1 (IsUnit.of_mul_eq_one _ hV')
  have hsj : s j ≠ 0 := by
    intro hz
    have hz' : ∀ i, j ≤ i → s i = 0 := fun i hi => le_antisymm (hz ▸ hs hi) (h0 i)
    rw [rank_diagonal] at hrank
    have hle : Fintype.card {i // s i ≠ 0} ≤ j.1 := by
      have : Fintype.card {i // s i ≠ 0} ≤ Fintype.card (Fin j.1) := by
        refine Fintype.card_le_of_injective (fun i => ⟨i.1.1, ?_⟩) ?_
        · by_contra h
          exact i.2 (hz' i.1 (by show j.1 ≤ i.1.1; omega))
        · intro a a' h
          exact Subtype.ext (Fin.ext (by simpa using h))
      simpa using this
    omega
  have h1 : cm (diagonal s) *ᵥ (cm Vᵀ *ᵥ w) = 0 := by
    rw [← hd, mulVec_mulVec, ← cm_mul, Matrix.mul_assoc, Matrix.mul_assoc, hV', Matrix.mul_one, cm_mul, ← mulVec_mulVec, hw, mulVec_zero]
  have h2 := congrFun h1 j
  rw [show cm (diagonal s) = diagonal fun i => ((s i : ℝ) : ℂ) from by rw [cm, diagonal_map (by simp)]; rfl, mulVec_diagonal] at h2
  simpa [hsj] using h2

/-- The diagonal of a pivoted triangular factor. -/
theorem pivot_diag {b l k : ℕ} (R : Matrix (Fin l) (Fin b) ℝ) (hu : ∀ i j, j.1 < i.1 → R i j = 0)
    (hp : ∀ (i : Fin l) (i' j : Fin b), i.1 = i'.1 → i' ≤ j → ∑ a ∈ univ.filter (i ≤ ·), R a j ^ 2 ≤ R i i' ^ 2)
    (hr : k ≤ R.rank) : ∀ i : Fin l, i.1 < k → ∃ h : i.1 < b, R i ⟨i.1, h⟩ ≠ 0 := by
  intro i hi
  have hb : i.1 < b := by
    have := rank_le_width R
    omega
  refine ⟨hb, fun hz => ?_⟩
  have hzero : ∀ a j, i ≤ a → R a j = 0 := by
    intro a j ha
    by_cases hja : j.1 < a.1
    · exact hu a j hja
    · have h1 := hp i ⟨i.1, hb⟩ j rfl (by show i.1 ≤ j.1; have : i.1 ≤ a.1 := ha; omega)
      rw [hz] at h1
      have h2 := Finset.single_le_sum (f := fun a => R a j ^ 2) (fun a _ => sq_nonneg _) (mem_filter.2 ⟨mem_univ a, ha⟩)
      have h3 : R a j ^ 2 ≤ 0 := h2.trans (by simpa using h1)
      exact pow_eq_zero_iff (two_ne_zero) |>.1 (le_antisymm h3 (sq_nonneg _))
  have hle : R.rank ≤ i.1 := by
    have : R = (Matrix.of fun (a : Fin l) (t : Fin i.1) => if a.1 = t.1 then (1 : ℝ) else 0) *
        R.submatrix (fun t : Fin i.1 => (⟨t.1, t.2.trans i.2⟩ : Fin l)) id := by
      ext a j
      rw [mul_apply]
      by_cases ha : a.1 < i.1
      · rw [Finset.sum_eq_single ⟨a.1, ha⟩]
        · simp
        · intro t _ ht
          rw [of_apply, if_neg (fun h => ht (Fin.ext h.symm)), zero_mul]
        · simp
      · rw [hzero a j (by show i.1 ≤ a.1; omega), Finset.sum_eq_zero]
        intro t _
        rw [of_apply, if_neg (by have := t.2; omega), zero_mul]
    rw [this]
    exact (rank_mul_le_left _ _).trans (rank_le_width _)
  omega

/-- The pivoted factorisation of the transpose: the first `k` coordinates of a null vector vanish. -/
theorem qrp_coords {b l k : ℕ} (B : Matrix (Fin b) (Fin l) ℝ) (Q : Matrix (Fin l) (Fin l) ℝ) (R : Matrix (Fin l) (Fin b) ℝ) (σ : Equiv.Perm (Fin b))
    (hQ : Qᵀ * Q = 1) (hf : Q * R = Bᵀ.submatrix id σ) (hu : ∀ i j, j.1 < i.1 → R i j = 0)
    (hp : ∀ (i : Fin l) (i' j : Fin b), i.1 = i'.1 → i' ≤ j → ∑ a ∈ univ.filter (i ≤ ·), R a j ^ 2 ≤ R i i' ^ 2)
    (hr : k ≤ B.rank) (w : Fin l → ℂ) (hw : cm B *ᵥ w = 0) (j : Fin l) (hj : j.1 < k) :
    (cm Qᵀ *ᵥ w) j = 0 := by
  have hQ' : Q * Qᵀ = 1 := mul_eq_one_comm.1 hQ
  have hR : R = Qᵀ * Bᵀ.submatrix id σ := by rw [← hf, ← Matrix.mul_assoc, hQ, Matrix.one_mul]
  have hrank : R.rank = B.rank := by
    rw [hR, rank_mul_eq_right_of_isUnit_det, ← rank_transpose B]
    · exact rank_submatrix Bᵀ (Equiv.refl _) σ
    · exact (isUnit_iff_isUnit_det _).1 (IsUnit.of_mul_eq_one _ hQ)
  have hdiag := pivot_diag R hu hp (hr.trans hrank.ge)
  -- forward substitution
  have h1 : cm Rᵀ *ᵥ (cm Qᵀ *ᵥ w) = 0 := by
    rw [mulVec_mulVec, ← cm_mul, ← transpose_mul, hf]
    funext i
    have := congrFun hw (σ i)
    simpa [mulVec, dotProduct] using this
  have key : ∀ t, ∀ j : Fin l, j.1 = t → j.1 < k → (cm Qᵀ *ᵥ w) j = 0 := by
    intro t
    induction t using Nat.strong_induction_on with
    | _ t ih =>
      intro j hjt hjk
      obtain ⟨hb, hne⟩ := hdiag j hjk
      have h2 := congrFun h1 ⟨j.1, hb⟩
      rw [mulVec, dotProduct, Finset.sum_eq_single j] at h2
      · simpa [hne] using h2
      · intro a _ ha
        rcases lt_or_gt_of_ne (fun h => ha (Fin.ext h) : a.1 ≠ j.1) with h | h
        · rw [ih a.1 (by omega) a rfl (by omega), mul_zero]
        · rw [cm_apply, transpose_apply, hu a _ h, Complex.ofReal_zero, zero_mul]
      · simp
  exact key j.1 j rfl hj

end YRoots.Legacy
