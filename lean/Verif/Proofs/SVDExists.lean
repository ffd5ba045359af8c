import Verif.Proofs.Bounding
import Mathlib.Analysis.Matrix.Spectrum
import Mathlib.Analysis.Matrix.PosDef
import Mathlib.Data.Fin.Tuple.Sort
import Mathlib.Algebra.Order.Star.Real

/-!
# The contract assumed of `np.linalg.svd` is satisfiable for every size
-/

namespace YRoots

open Matrix

variable {n : ℕ}

theorem exists_sorted_eigen (A : Matrix (Fin n) (Fin n) ℝ) :
    ∃ (S : Fin n → ℝ) (V : Matrix (Fin n) (Fin n) ℝ),
      (∀ i, 0 ≤ S i) ∧ (∀ i j, i ≤ j → S j ≤ S i) ∧ Vᵀ * V = 1 ∧ V * Vᵀ = 1 ∧
      Vᵀ * (Aᵀ * A) * V = diagonal (fun i => S i * S i) := by
  have hps : (Aᵀ * A).PosSemidef := by
    have := Matrix.posSemidef_conjTranspose_mul_self A
    simpa [Matrix.conjTranspose_eq_transpose_of_trivial] using this
  have hH := hps.1
  let e := hH.eigenvalues
  let σ := Tuple.sort (fun i => - e i)
  let W : Matrix (Fin n) (Fin n) ℝ := hH.eigenvectorUnitary
  have hW : Wᵀ * W = 1 := by
    have := Unitary.coe_star_mul_self hH.eigenvectorUnitary
    rwa [Matrix.star_eq_conjTranspose, Matrix.conjTranspose_eq_transpose_of_trivial] at this
  have hd : Wᵀ * (Aᵀ * A) * W = diagonal e := by
    have := hH.conjStarAlgAut_star_eigenvectorUnitary
    rw [Unitary.conjStarAlgAut_star_apply, Matrix.star_eq_conjTranspose,
      Matrix.conjTranspose_eq_transpose_of_trivial] at this
    exact this
  refine ⟨fun i => Real.sqrt (e (σ i)), W.submatrix id σ, fun i => Real.sqrt_nonneg _, ?_, ?_, ?_, ?_⟩
  · intro i j hij
    apply Real.sqrt_le_sqrt
    have := Tuple.monotone_sort (fun i => - e i) hij
    simp only [Function.comp] at this
    linarith
  · have : (W.submatrix id σ)ᵀ * W.submatrix id σ = (Wᵀ * W).submatrix σ σ := by
      rw [Matrix.transpose_submatrix, Matrix.submatrix_mul _ _ _ id _ Function.bijective_id]
    rw [this, hW]; simp
  · have : (W.submatrix id σ)ᵀ * W.submatrix id σ = (Wᵀ * W).submatrix σ σ := by
      rw [Matrix.transpose_submatrix, Matrix.submatrix_mul _ _ _ id _ Function.bijective_id]
    apply mul_eq_one_comm.1
    rw [this, hW]; simp
  · have : (W.submatrix id σ)ᵀ * (Aᵀ * A) * W.submatrix id σ = (Wᵀ * (Aᵀ * A) * W).submatrix σ σ := by
      rw [Matrix.transpose_submatrix, Matrix.submatrix_mul _ _ _ id _ Function.bijective_id,
        Matrix.submatrix_mul _ _ _ id _ Function.bijective_id]
      simp
    rw [this, hd]
    ext i j
    simp only [submatrix_apply, diagonal_apply, EmbeddingLike.apply_eq_iff_eq]
    split
    · rw [Real.mul_self_sqrt (hps.eigenvalues_nonneg _)]
    · rfl

/-- A singular value decomposition meeting the contract exists over `ℝ` for every size. -/
theorem SVD.exists_valid (n : ℕ) : ∃ svd : SVD n ℝ, svd.Valid := by
  choose S V h0 h1 h2 h3 h4 using fun A => exists_sorted_eigen (n := n) A
  let svd : SVD n ℝ :=
    ⟨fun A => A * V A * diagonal (fun j => 1 / S A j), S, fun A => (V A)ᵀ⟩
  have hpos : ∀ A, svd.wellConditioned A = true → ∀ i, 0 < svd.S A i := fun A hwc i =>
    SVD.S_pos_of_anti svd (fun A i j h => h1 A i j h) A hwc i
  refine ⟨svd, fun A i => h0 A i, fun A i j h => h1 A i j h, ?_, ?_, ?_⟩
  · intro A hwc
    have hp := hpos A hwc
    show (A * V A * diagonal (fun j => 1 / S A j))ᵀ * (A * V A * diagonal (fun j => 1 / S A j)) = 1
    rw [transpose_mul, transpose_mul, diagonal_transpose]
    calc _ = diagonal (fun j => 1 / S A j) * ((V A)ᵀ * (Aᵀ * A) * V A) * diagonal (fun j => 1 / S A j) := by
          simp only [Matrix.mul_assoc]
      _ = 1 := by
          rw [h4, diagonal_mul_diagonal, diagonal_mul_diagonal, ← diagonal_one]
          congr 1
          funext j
          have := (hp j).ne'
          change S A j ≠ 0 at this
          field_simp
  · intro A _
    show ((V A)ᵀ)ᵀ * (V A)ᵀ = 1
    rw [transpose_transpose, h3]
  · intro A hwc
    have hp := hpos A hwc
    show A = A * V A * diagonal (fun j => 1 / S A j) * diagonal (S A) * (V A)ᵀ
    have hd : diagonal (fun j => 1 / S A j) * diagonal (S A) = 1 := by
      rw [diagonal_mul_diagonal, ← diagonal_one]
      congr 1
      funext j
      have := (hp j).ne'
      change S A j ≠ 0 at this
      field_simp
    rw [Matrix.mul_assoc (A * V A), hd, Matrix.mul_one, Matrix.mul_assoc, h3, Matrix.mul_one]

end YRoots
