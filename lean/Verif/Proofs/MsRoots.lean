import Verif.Props.MacMatrix
import Mathlib.LinearAlgebra.Matrix.Charpoly.Basic
import Mathlib.LinearAlgebra.Eigenspace.Basic
import Mathlib.LinearAlgebra.Matrix.ToLin
import Mathlib.LinearAlgebra.Lagrange

/-! # Helper lemmas: sorting the eigenvalues, joint triangularisation -/

namespace YRoots.Legacy

open Matrix Finset Polynomial

/-! ### The matching -/

theorem matchLoop_perm (diag : ℕ → ℂ) (es : List ℂ) (lst : List ℕ) (h : es.length = lst.length) : (matchLoop diag es lst).Perm lst := by
  induction es generalizing lst with
  | nil =>
    rw [List.eq_nil_of_length_eq_zero (l := lst) h.symm]
    exact List.Perm.refl _
  | cons e es ih =>
    rw [matchLoop]
    rcases hm : lst.argmin (fun j => ‖diag j - e‖) with _ | i
    · rw [List.argmin_eq_none] at hm
      rw [hm] at h; simp at h
    · have hi := List.argmin_mem hm
      have h1 := List.length_erase_of_mem hi
      refine (List.Perm.cons i (ih _ ?_)).trans (List.perm_cons_erase hi).symm
      rw [h1, ← h]; simp

theorem matchLoop_exact (diag : ℕ → ℂ) (es : List ℂ) (lst : List ℕ) (h : es.Perm (lst.map diag)) :
    List.Forall₂ (fun e i => diag i = e) es (matchLoop diag es lst) := by
  induction es generalizing lst with
  | nil => exact List.Forall₂.nil
  | cons e es ih =>
    rw [matchLoop]
    have he := h.mem_iff.1 List.mem_cons_self
    obtain ⟨j, hj, hje⟩ := List.mem_map.1 he
    rcases hm : lst.argmin (fun j => ‖diag j - e‖) with _ | i
    · rw [List.argmin_eq_none] at hm
      rw [hm] at hj; simp at hj
    · have h1 := List.le_of_mem_argmin hj hm
      rw [hje, sub_self, norm_zero] at h1
      have h2 : diag i = e := sub_eq_zero.1 (norm_eq_zero.1 (le_antisymm h1 (norm_nonneg _)))
      refine List.Forall₂.cons h2 (ih _ ?_)
      have h3 := h.trans ((List.perm_cons_erase (List.argmin_mem hm)).map diag)
      rw [List.map_cons, h2] at h3
      exact h3.cons_inv

theorem matchLoop_close (diag : ℕ → ℂ) (ε : ℝ) (es : List ℂ) (p lst : List ℕ) (hp : p.Perm lst)
    (hc : List.Forall₂ (fun e i => ‖diag i - e‖ < ε) es p)
    (hs : ∀ i ∈ lst, ∀ j ∈ lst, i ≠ j → 2 * ε ≤ ‖diag i - diag j‖) : matchLoop diag es lst = p := by
  induction hc generalizing lst with
  | nil => rfl
  | @cons e i es p h1 h2 ih =>
    rw [matchLoop]
    have hi := hp.mem_iff.1 List.mem_cons_self
    rcases hm : lst.argmin (fun j => ‖diag j - e‖) with _ | j
    · rw [List.argmin_eq_none] at hm
      rw [hm] at hi; simp at hi
    · have h3 := List.le_of_mem_argmin hi hm
      have hj := List.argmin_mem hm
      have hji : j = i := by
        by_contra hne
        have h4 := hs j hj i hi hne
        have h5 : ‖diag j - diag i‖ ≤ ‖diag j - e‖ + ‖diag i - e‖ := by
          rw [← norm_neg (diag i - e)]
          refine le_trans (le_of_eq (congrArg _ ?_)) (norm_add_le _ _)
          ring
        linarith
      subst hji
      dsimp only
      rw [ih (lst.erase j) _ fun a ha b hb => hs a (List.mem_of_mem_erase ha) b (List.mem_of_mem_erase hb)]
      exact (hp.trans (List.perm_cons_erase hj)).cons_inv

theorem argsort_inverse {argsort : List ℕ → List ℕ} (hsort : IsArgsort argsort) (n : ℕ) (p : List ℕ) (hp : p.Perm (List.range n)) :
    (argsort p).map (fun i => p.getD i 0) = List.range n := by
  obtain ⟨h1, h2⟩ := hsort p
  refine List.Perm.eq_of_pairwise (le := (· ≤ ·)) (fun a b _ _ h h' => le_antisymm h h') h2 ?_ ((perm_getD p 0 _ h1).trans hp)
  exact List.pairwise_lt_range.imp fun h => h.le

theorem forall₂_getD {α β : Type*} {R : α → β → Prop} {l : List α} {l' : List β} (h : List.Forall₂ R l l') (a : α) (b : β) (i : ℕ) (hi : i < l'.length) :
    R (l.getD i a) (l'.getD i b) := by
  induction h generalizing i with
  | nil => simp at hi
  | cons h1 _ ih =>
    cases i with
    | zero => exact h1
    | succ i => exact ih i (by simpa using hi)

/-! ### Matrices -/

variable {n : ℕ}

theorem intertwine (X S R : Matrix (Fin n) (Fin n) ℂ) (h : X * S = R * X) (p : ℂ[X]) : X * aeval S p = aeval R p * X := by
  induction p using Polynomial.induction_on' with
  | add p q hp hq => rw [map_add, map_add, mul_add, add_mul, hp, hq]
  | monomial k a =>
    have hk : X * S ^ k = R ^ k * X := by
      induction k with
      | zero => simp
      | succ k ih => rw [pow_succ, ← mul_assoc, ih, mul_assoc, h, ← mul_assoc, ← pow_succ]
    rw [aeval_monomial, aeval_monomial, ← mul_assoc, ← Algebra.commutes, mul_assoc, hk, mul_assoc]

theorem aeval_triangular (T : Matrix (Fin n) (Fin n) ℂ) (hT : ∀ i j, j < i → T i j = 0) (p : ℂ[X]) :
    (∀ i j, j < i → aeval T p i j = 0) ∧ ∀ i, aeval T p i i = p.eval (T i i) := by
  induction p using Polynomial.induction_on' with
  | add p q hp hq =>
    rw [map_add]
    refine ⟨fun i j h => ?_, fun i => ?_⟩
    · rw [Matrix.add_apply, hp.1 i j h, hq.1 i j h, add_zero]
    · rw [Matrix.add_apply, hp.2, hq.2, eval_add]
  | monomial k a =>
    have hk : (∀ i j, j < i → (T ^ k) i j = 0) ∧ ∀ i, (T ^ k) i i = T i i ^ k := by
      induction k with
      | zero => exact ⟨fun i j h => by rw [pow_zero, one_apply_ne h.ne'], fun i => by simp⟩
      | succ k ih =>
        refine ⟨fun i j h => ?_, fun i => ?_⟩
        · rw [pow_succ, mul_apply]
          refine Finset.sum_eq_zero fun t _ => ?_
          rcases lt_or_ge t i with h1 | h1
          · rw [ih.1 i t h1, zero_mul]
          · rw [hT t j (lt_of_lt_of_le h h1), mul_zero]
        · rw [pow_succ, mul_apply, Finset.sum_eq_single i, ih.2, pow_succ]
          · intro t _ ht
            rcases lt_or_gt_of_ne ht with h1 | h1
            · rw [ih.1 i t h1, zero_mul]
            · rw [hT t i h1, mul_zero]
          · simp
    rw [aeval_monomial, Algebra.algebraMap_eq_smul_one, smul_mul_assoc, one_mul]
    refine ⟨fun i j h => ?_, fun i => ?_⟩
    · rw [Matrix.smul_apply, hk.1 i j h, smul_zero]
    · rw [Matrix.smul_apply, hk.2, eval_monomial, smul_eq_mul]

theorem roots_triangular (T : Matrix (Fin n) (Fin n) ℂ) (hT : ∀ i j, j < i → T i j = 0) :
    T.charpoly.roots = univ.val.map fun i => T i i := by
  rw [charpoly_of_isUpperTriangular T fun i j h => hT i j h]
  have : (∏ i, (X - C (T i i)) : ℂ[X]) = ((univ.val.map fun i => T i i).map fun a => X - C a).prod := by
    rw [Multiset.map_map]; rfl
  rw [this, roots_multiset_prod_X_sub_C]

theorem charpoly_conj (X S R : Matrix (Fin n) (Fin n) ℂ) (hX : IsUnit X) (h : X * S = R * X) : S.charpoly = R.charpoly := by
  obtain ⟨Y, rfl⟩ := hX
  have h1 := charpoly_units_conj Y S
  rw [h, mul_assoc, ← coe_units_inv, Units.mul_inv, mul_one] at h1
  exact h1.symm

/-- Left eigenvectors for different eigenvalues are independent. -/
theorem left_independent (A : Matrix (Fin n) (Fin n) ℂ) (u : Fin n → Fin n → ℂ) (μ : Fin n → ℂ) (hμ : Function.Injective μ) (h0 : ∀ r, u r ≠ 0)
    (h : ∀ r, u r ᵥ* A = μ r • u r) : IsUnit (Matrix.of u) := by
  rw [← linearIndependent_rows_iff_isUnit]
  have := Module.End.eigenvectors_linearIndependent' (toLin' Aᵀ) μ hμ u fun r => ?_
  · exact this
  · rw [Module.End.hasEigenvector_iff, Module.End.mem_eigenspace_iff, toLin'_apply, mulVec_transpose]
    exact ⟨h r, h0 r⟩

/-- Joint triangularisation: matrices with `n` joint left eigenvectors, for which a combination has different eigenvalues, are triangularised by any
matrix that triangularises the combination, and the joint eigenvalues are the tuples of diagonal entries. -/
theorem joint_diag {ι : Type*} (A : Matrix (Fin n) (Fin n) ℂ) (B : ι → Matrix (Fin n) (Fin n) ℂ) (u : Fin n → Fin n → ℂ) (μ : Fin n → ℂ)
    (w : Fin n → ι → ℂ) (hμ : Function.Injective μ) (h0 : ∀ r, u r ≠ 0) (hA : ∀ r, u r ᵥ* A = μ r • u r) (hB : ∀ r i, u r ᵥ* B i = w r i • u r)
    (U : Matrix (Fin n) (Fin n) ℂ) (hU : Uᴴ * U = 1) (hT : ∀ i j, j < i → (Uᴴ * A * U) i j = 0) :
    ∃ σ : Equiv.Perm (Fin n), ∀ i, (Uᴴ * B i * U).charpoly = (B i).charpoly ∧ (∀ r s, s < r → (Uᴴ * B i * U) r s = 0) ∧
      ∀ r, (Uᴴ * B i * U) r r = w (σ r) i := by
  have hU' : U * Uᴴ = 1 := mul_eq_one_comm.1 hU
  have hconj : ∀ S : Matrix (Fin n) (Fin n) ℂ, U * (Uᴴ * S * U) = S * U := fun S => by
    rw [← mul_assoc, ← mul_assoc, hU', one_mul]
  have hUu : IsUnit U := IsUnit.of_mul_eq_one _ hU'
  have hV := left_independent A u μ hμ h0 hA
  set V := Matrix.of u with hVdef
  have hrow : ∀ (S : Matrix (Fin n) (Fin n) ℂ) (x : Fin n → ℂ), (∀ r, u r ᵥ* S = x r • u r) → V * S = diagonal x * V := by
    intro S x hx
    ext r s
    rw [diagonal_mul]
    exact congrFun (hx r) s
  have hVA := hrow A μ hA
  -- the diagonal of the triangular combination
  set T := Uᴴ * A * U with hTdef
  have hroots : (univ.val.map fun i => T i i) = univ.val.map μ := by
    rw [← roots_triangular T hT, charpoly_conj U T A hUu (hconj A), charpoly_conj V A _ hV hVA, roots_triangular _ fun i j h => diagonal_apply_ne _ h.ne']
    simp only [diagonal_apply_eq]
  have hex : ∀ r, ∃ s, T r r = μ s := fun r => by
    have h1 : T r r ∈ univ.val.map μ := by
      rw [← hroots]; exact Multiset.mem_map_of_mem _ (mem_univ r)
    obtain ⟨s, -, hs⟩ := Multiset.mem_map.1 h1
    exact ⟨s, hs.symm⟩
  choose f hf using hex
  have hinj : Function.Injective f := by
    have h1 : (univ.val.map fun i => T i i).Nodup := by
      rw [hroots]; exact (Multiset.nodup_map_iff_of_injective hμ).2 univ.nodup
    intro r s hrs
    have h2 := (Finset.nodup_map_iff_injOn.1 h1)
    exact h2 (by simp) (by simp) (by beta_reduce; rw [hf r, hf s, hrs])
  refine ⟨Equiv.ofBijective f (Finite.injective_iff_bijective.1 hinj), fun i => ⟨charpoly_conj U _ _ hUu (hconj _), ?_⟩⟩
  -- the matrix is a polynomial in the combination
  set p := Lagrange.interpolate univ μ fun r => w r i with hp
  have hpe : ∀ r, p.eval (μ r) = w r i := fun r => Lagrange.eval_interpolate_at_node _ (hμ.injOn) (mem_univ r)
  have hBp : B i = aeval A p := by
    have h1 := intertwine V A _ hVA p
    have h2 : aeval (diagonal μ) p = diagonal fun r => w r i := by
      have h3 := aeval_algHom_apply (diagonalAlgHom ℂ : (Fin n → ℂ) →ₐ[ℂ] Matrix (Fin n) (Fin n) ℂ) μ p
      simp only [diagonalAlgHom_apply] at h3
      rw [h3]
      congr 1
      funext r
      rw [← hpe r, Polynomial.aeval_pi_apply]
      simp
    rw [h2, ← hrow (B i) (fun r => w r i) fun r => hB r i] at h1
    exact (hV.mul_left_cancel h1).symm
  have hTi : Uᴴ * B i * U = aeval T p := by
    have h1 := intertwine U T A (hconj A) p
    rw [← hBp] at h1
    have h2 : Uᴴ * (U * aeval T p) = Uᴴ * (B i * U) := by rw [h1]
    rw [← mul_assoc, hU, one_mul] at h2
    rw [h2, mul_assoc]
  obtain ⟨h1, h2⟩ := aeval_triangular T hT p
  rw [hTi]
  refine ⟨h1, fun r => ?_⟩
  rw [h2, hf r, hpe]
  rfl

end YRoots.Legacy
