import Verif.Props.MsRoots
import Mathlib.Analysis.InnerProductSpace.PiL2
import Mathlib.LinearAlgebra.Eigenspace.Triangularizable
import Mathlib.Analysis.Complex.Polynomial.Basic

/-! # Existence of the Schur decomposition (used in the examples only) -/

namespace YRoots.Legacy

open Matrix Finset

theorem exists_schur : ∀ {n : ℕ} (A : Matrix (Fin n) (Fin n) ℂ), ∃ U : Matrix (Fin n) (Fin n) ℂ, Uᴴ * U = 1 ∧ ∀ i j, j < i → (Uᴴ * A * U) i j = 0
  | 0, _ => ⟨1, by simp, fun i => i.elim0⟩
  | n + 1, A => by
    obtain ⟨lam, hlam⟩ := Module.End.exists_eigenvalue (toLin' A)
    obtain ⟨v, hv⟩ := hlam.exists_hasEigenvector
    have hv0 := hv.2
    have hAv : A *ᵥ v = lam • v := by simpa using Module.End.mem_eigenspace_iff.1 hv.1
    set x : EuclideanSpace ℂ (Fin (n + 1)) := WithLp.toLp 2 v with hx
    have hx0 : ‖x‖ ≠ 0 := by
      rw [norm_ne_zero_iff]
      intro h
      exact hv0 ((WithLp.toLp_eq_zero 2).1 h)
    have horth : Orthonormal ℂ (({0} : Set (Fin (n + 1))).restrict fun _ => ((‖x‖⁻¹ : ℝ) : ℂ) • x) := by
      constructor
      · intro i
        show ‖((‖x‖⁻¹ : ℝ) : ℂ) • x‖ = 1
        rw [norm_smul, Complex.norm_real, norm_inv, norm_norm, inv_mul_cancel₀ hx0]
      · intro i j hij
        exact absurd (Subtype.ext (by rw [Set.mem_singleton_iff.1 i.2, Set.mem_singleton_iff.1 j.2])) hij
    obtain ⟨b, hb⟩ := horth.exists_orthonormalBasis_extension_of_card_eq (by simp)
    have hb0 := hb 0 rfl
    set W : Matrix (Fin (n + 1)) (Fin (n + 1)) ℂ := fun i j => b j i with hW
    have hWW : ∀ i j, ∑ k, star (W k i) * W k j = if i = j then 1 else 0 := by
      intro i j
      rw [← (orthonormal_iff_ite.1 b.orthonormal) i j, PiLp.inner_apply]
      refine Finset.sum_congr rfl fun k _ => ?_
      simp [hW, mul_comm]
    have hW1 : Wᴴ * W = 1 := by
      ext i j
      rw [mul_apply, one_apply]
      exact hWW i j
    set B := Wᴴ * A * W with hB
    have hcol : ∀ k, (A * W) k 0 = lam * W k 0 := by
      intro k
      have e : ∀ t, W t 0 = ((‖x‖⁻¹ : ℝ) : ℂ) * v t := fun t => by
        simp only [hW]; rw [hb0]; simp [hx]
      rw [mul_apply, e]
      simp only [e]
      have := congrFun hAv k
      simp only [mulVec, dotProduct, Pi.smul_apply, smul_eq_mul] at this
      rw [mul_left_comm, ← this, Finset.mul_sum]
      exact Finset.sum_congr rfl fun t _ => by ring
    have hB0 : ∀ i : Fin n, B i.succ 0 = 0 := by
      intro i
      rw [hB, Matrix.mul_assoc, mul_apply]
      simp only [hcol, conjTranspose_apply]
      have := hWW i.succ 0
      rw [if_neg (Fin.succ_ne_zero i)] at this
      rw [← mul_zero lam, ← this, Finset.mul_sum]
      exact Finset.sum_congr rfl fun t _ => by ring
    obtain ⟨U, hU, hT⟩ := exists_schur (B.submatrix Fin.succ Fin.succ)
    set G : Matrix (Fin (n + 1)) (Fin (n + 1)) ℂ :=
      fun i j => Fin.cases (motive := fun _ => ℂ) (Fin.cases (motive := fun _ => ℂ) 1 (fun _ => 0) j) (fun i' => Fin.cases (motive := fun _ => ℂ) 0 (fun j' => U i' j') j) i with hG
    have g00 : G 0 0 = 1 := rfl
    have g0s : ∀ j : Fin n, G 0 j.succ = 0 := fun j => rfl
    have gs0 : ∀ i : Fin n, G i.succ 0 = 0 := fun j => rfl
    have gss : ∀ i j : Fin n, G i.succ j.succ = U i j := fun i j => rfl
    have hGG : Gᴴ * G = 1 := by
      ext i j
      rw [mul_apply, Fin.sum_univ_succ]
      simp only [conjTranspose_apply]
      refine Fin.cases ?_ (fun i => ?_) i <;> refine Fin.cases ?_ (fun j => ?_) j
      · simp [g00, gs0]
      · rw [one_apply_ne (Fin.succ_ne_zero j).symm]; simp [g00, g0s, gs0]
      · rw [one_apply_ne (Fin.succ_ne_zero i)]; simp [g00, g0s, gs0]
      · have := congrFun (congrFun hU i) j
        rw [mul_apply] at this
        simp only [conjTranspose_apply] at this
        simp only [g0s, gss, this]
        simp [one_apply]
    refine ⟨W * G, ?_, fun i j h => ?_⟩
    · rw [conjTranspose_mul, Matrix.mul_assoc, ← Matrix.mul_assoc Wᴴ, hW1, Matrix.one_mul, hGG]
    · have e : (W * G)ᴴ * A * (W * G) = Gᴴ * (B * G) := by
        rw [conjTranspose_mul, hB]; simp only [Matrix.mul_assoc]
      rw [e]
      revert h
      refine Fin.cases ?_ (fun i => ?_) i <;> refine Fin.cases ?_ (fun j => ?_) j
      · intro h; exact absurd h (lt_irrefl _)
      · intro h; exact absurd h (Fin.not_lt_zero _)
      · intro _
        rw [mul_apply, Fin.sum_univ_succ]
        simp only [conjTranspose_apply, g0s, star_zero, zero_mul, zero_add]
        refine Finset.sum_eq_zero fun k _ => ?_
        rw [mul_apply, Fin.sum_univ_succ, hB0]
        simp [gs0]
      · intro h
        have h1 := hT i j (Fin.succ_lt_succ_iff.1 h)
        rw [Matrix.mul_assoc, mul_apply] at h1
        rw [mul_apply, Fin.sum_univ_succ]
        simp only [conjTranspose_apply, g0s, star_zero, zero_mul, zero_add]
        rw [← h1]
        refine Finset.sum_congr rfl fun k _ => ?_
        rw [gss, conjTranspose_apply, mul_apply, mul_apply, Fin.sum_univ_succ, g0s, mul_zero, zero_add]
        rfl

/-- Exact routines. -/
noncomputable def exactMsLib : MsLib where
  schurU A := (exists_schur A).choose
  eigvals A i := ((exists_schur A).chooseᴴ * A * (exists_schur A).choose) i i

theorem exactMsLib_correct : exactMsLib.Correct where
  schur_unitary A := (exists_schur A).choose_spec.1
  schur_upper A := (exists_schur A).choose_spec.2
  eig A := by
    have hU := (exists_schur A).choose_spec.1
    rw [show exactMsLib.eigvals A = fun i => ((exists_schur A).chooseᴴ * A * (exists_schur A).choose) i i from rfl,
      ← roots_triangular _ (exists_schur A).choose_spec.2]
    generalize (exists_schur A).choose = U at *
    have hU' : U * Uᴴ = 1 := mul_eq_one_comm.1 hU
    rw [charpoly_conj U (Uᴴ * A * U) A (IsUnit.of_mul_eq_one _ hU')]
    rw [← Matrix.mul_assoc, ← Matrix.mul_assoc, hU', Matrix.one_mul]

/-! ### Examples for C80 -/

/-- Non-vacuity of `C80_sort`: a repeated eigenvalue. -/
example : (sortEigs argsortIns [2, 1, 1] 3 fun j => if j = 1 then 2 else 1).map (fun j => ([2, 1, 1] : List ℂ).getD j 0) = [1, 2, 1] :=
  C80_sort argsortIns_ok [2, 1, 1] 3 (fun j => if j = 1 then 2 else 1) (List.Perm.swap _ _ _)

/-- Non-vacuity of `C80_sort_close`: perturbed eigenvalues. -/
example : List.Forall₂ (fun e i => ‖(if i = 1 then (2 : ℂ) else 0) - e‖ < 1)
    ((sortEigs argsortIns [3 / 2, 1 / 2] 2 fun j => if j = 1 then 2 else 0).map fun j => ([3 / 2, 1 / 2] : List ℂ).getD j 0) (List.range 2) := by
  refine C80_sort_close argsortIns_ok _ 2 (fun j => if j = 1 then 2 else 0) 1 [1, 0] (List.Perm.swap _ _ _) ?_ ?_
  · refine List.Forall₂.cons ?_ (List.Forall₂.cons ?_ List.Forall₂.nil)
    · rw [if_pos rfl, show (2 : ℂ) - 3 / 2 = ((1 / 2 : ℝ) : ℂ) by push_cast; norm_num, Complex.norm_real]; norm_num
    · rw [if_neg (by norm_num), show (0 : ℂ) - 1 / 2 = ((-1 / 2 : ℝ) : ℂ) by push_cast; norm_num, Complex.norm_real]; norm_num
  · intro i hi j hj hij
    interval_cases i <;> interval_cases j <;> simp at hij ⊢

/-- Non-vacuity of `C80_msroots`: the matrices `[[1,1],[0,2]]` and its square, with the joint eigenvalues `(1,1)` and `(2,4)`. -/
example : (msroots exactMsLib argsortIns !![0, 1; -1, 0] ![1, 2] ![!![1, 1; 0, 2], !![1, 3; 0, 4]]).Perm [![1, 1], ![2, 4]] := by
  refine (C80_msroots exactMsLib_correct argsortIns_ok !![0, 1; -1, 0] ?_ ![1, 2] ![!![1, 1; 0, 2], !![1, 3; 0, 4]] ![![1, 1], ![2, 4]]
    ![![1, -1], ![0, 1]] ?_ ?_ ?_).trans (List.Perm.of_eq (by simp [List.ofFn_succ]))
  · ext i j; fin_cases i <;> fin_cases j <;> simp [mul_apply, Fin.sum_univ_two]
  · intro r h
    fin_cases r
    · have := congrFun h 0; simp at this
    · have := congrFun h 1; simp at this
  · intro r i s
    fin_cases r <;> fin_cases i <;> fin_cases s <;> simp [Fin.sum_univ_two] <;> norm_num
  · intro r s h
    fin_cases r <;> fin_cases s <;> simp [Fin.sum_univ_two] at h ⊢
    · norm_num at h
    · norm_num at h

end YRoots.Legacy
