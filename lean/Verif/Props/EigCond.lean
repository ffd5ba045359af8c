import Verif.Model.EigCond
import Mathlib.LinearAlgebra.Matrix.Charpoly.Basic
import Mathlib.LinearAlgebra.Matrix.Charpoly.Coeff
import Mathlib.LinearAlgebra.Matrix.NonsingularInverse
import Mathlib.LinearAlgebra.Matrix.ToLinearEquiv
import Mathlib.LinearAlgebra.UnitaryGroup
import Mathlib.Algebra.Polynomial.Roots
import Mathlib.LinearAlgebra.Matrix.Notation
import Mathlib.Tactic.LinearCombination
import Mathlib.Tactic.FieldSimp

/-!
# C69: Householder reflectors and the condition numbers of eigenvalues
-/

namespace YRoots.Legacy

open Matrix

variable {m : ℕ}

/-! ### Specification -/

/-- What is assumed of the routines of scipy: `M = U R` with unitary `U`; `Rᴴ v = b` is solved, with an error for singular `R`;
the smallest singular value is the least length of `R w` for unit vectors `w`. -/
structure EigLib.Correct (L : EigLib m) : Prop where
  qr : ∀ M, ∃ U : Matrix (Fin m) (Fin m) ℂ, Uᴴ * U = 1 ∧ U * L.qrR M = M
  solve : ∀ M b v, L.solveAdj (L.qrR M) b = some v → (L.qrR M)ᴴ *ᵥ v = b
  singular : ∀ M b, L.solveAdj (L.qrR M) b = none ↔ (L.qrR M).det = 0
  sigma : ∀ M, 0 < m → IsLeast {t | ∃ w : Fin m → ℂ, vnorm w = 1 ∧ t = vnorm (L.qrR M *ᵥ w)} (L.sigmaMin (L.qrR M))

/-! ### Helper lemmas -/

theorem vnorm_sq {n : ℕ} (x : Fin n → ℂ) : ((vnorm x : ℝ) : ℂ) ^ 2 = star x ⬝ᵥ x := by
  rw [← Complex.ofReal_pow, vnorm, Real.sq_sqrt (Finset.sum_nonneg fun i _ => by positivity)]
  simp only [dotProduct, Complex.ofReal_sum, Pi.star_apply]
  apply Finset.sum_congr rfl
  intro i _
  rw [Complex.star_def, mul_comm, Complex.mul_conj, Complex.normSq_eq_norm_sq]

theorem vnorm_sq_real {n : ℕ} (x : Fin n → ℂ) : vnorm x ^ 2 = ∑ i, ‖x i‖ ^ 2 := by
  rw [vnorm, Real.sq_sqrt (Finset.sum_nonneg fun i _ => by positivity)]

theorem vnorm_nonneg {n : ℕ} (x : Fin n → ℂ) : 0 ≤ vnorm x := Real.sqrt_nonneg _

theorem vnorm_pos {n : ℕ} {x : Fin n → ℂ} (h : x ≠ 0) : 0 < vnorm x := by
  obtain ⟨i, hi⟩ := Function.ne_iff.1 h
  apply Real.sqrt_pos.2
  apply Finset.sum_pos' (fun i _ => by positivity)
  exact ⟨i, Finset.mem_univ _, by have := norm_pos_iff.2 hi; positivity⟩

theorem vnorm_eq_of_dot {n k : ℕ} {x : Fin n → ℂ} {y : Fin k → ℂ} (h : star x ⬝ᵥ x = star y ⬝ᵥ y) : vnorm x = vnorm y := by
  rw [← vnorm_sq, ← vnorm_sq, ← Complex.ofReal_pow, ← Complex.ofReal_pow, Complex.ofReal_inj] at h
  exact (sq_eq_sq₀ (vnorm_nonneg _) (vnorm_nonneg _)).1 h

theorem vnorm_unitary {n : ℕ} {U : Matrix (Fin n) (Fin n) ℂ} (hU : Uᴴ * U = 1) (x : Fin n → ℂ) : vnorm (U *ᵥ x) = vnorm x := by
  apply vnorm_eq_of_dot
  rw [Matrix.star_mulVec, ← Matrix.dotProduct_mulVec, Matrix.mulVec_mulVec, hU, Matrix.one_mulVec]

/-- The phase of the first entry. -/
noncomputable def phase (z : ℂ) : ℂ := Complex.exp (Complex.I * Complex.arg z)

theorem phase_norm (z : ℂ) : ‖phase z‖ = 1 := by
  rw [phase, mul_comm, Complex.norm_exp_ofReal_mul_I]

theorem phase_star (z : ℂ) : star (phase z) * phase z = 1 := by
  rw [Complex.star_def, mul_comm, Complex.mul_conj, Complex.normSq_eq_norm_sq, phase_norm]
  simp

theorem phase_mul (z : ℂ) : (‖z‖ : ℂ) * phase z = z := by
  rw [phase, mul_comm Complex.I]
  exact Complex.norm_mul_exp_arg_mul_I z

theorem householderVec_eq (x : Fin (m + 1) → ℂ) : householderVec x = x + (phase (x 0) * vnorm x) • Pi.single 0 1 := by
  funext i
  by_cases h : i = 0
  · subst h
    simp [householderVec, phase]
  · simp [householderVec, h]

theorem star_phase_mul (z : ℂ) : star (phase z) * z = (‖z‖ : ℂ) := by
  conv_lhs => rw [← phase_mul z]
  rw [mul_left_comm]
  have : phase ((‖z‖ : ℂ) * phase z) = phase z := by rw [phase_mul]
  rw [this, phase_star, mul_one]

theorem householder_dot_x (x : Fin (m + 1) → ℂ) :
    star (householderVec x) ⬝ᵥ x = (vnorm x : ℂ) * (vnorm x + ‖x 0‖) := by
  rw [householderVec_eq, star_add, add_dotProduct, ← vnorm_sq, star_smul, smul_dotProduct]
  have : star (Pi.single 0 (1 : ℂ) : Fin (m + 1) → ℂ) ⬝ᵥ x = x 0 := by
    rw [Pi.star_single]
    simp
  rw [this, star_mul', smul_eq_mul]
  have h2 : star ((vnorm x : ℝ) : ℂ) = (vnorm x : ℂ) := Complex.conj_ofReal _
  rw [h2]
  linear_combination (vnorm x : ℂ) * star_phase_mul (x 0)

theorem householder_dot_self (x : Fin (m + 1) → ℂ) :
    star (householderVec x) ⬝ᵥ householderVec x = 2 * (vnorm x : ℂ) * (vnorm x + ‖x 0‖) := by
  conv_lhs => rw [show householderVec x = householderVec x from rfl]
  have h0 := householder_dot_x x
  have : star (householderVec x) ⬝ᵥ householderVec x =
      star (householderVec x) ⬝ᵥ x + star (householderVec x) ⬝ᵥ ((phase (x 0) * vnorm x) • Pi.single 0 1) := by
    conv_lhs => rhs; rw [householderVec_eq]
    rw [dotProduct_add]
  rw [this, h0, dotProduct_smul]
  have h3 : star (householderVec x) ⬝ᵥ (Pi.single 0 (1 : ℂ)) = star (householderVec x 0) := by simp
  rw [h3, householderVec_eq]
  simp only [Pi.add_apply, Pi.smul_apply, Pi.single_eq_same, smul_eq_mul, mul_one, star_add, star_mul']
  have h2 : star ((vnorm x : ℝ) : ℂ) = (vnorm x : ℂ) := Complex.conj_ofReal _
  have h4 : star (x 0) * phase (x 0) = (‖x 0‖ : ℂ) := by
    have := congrArg star (star_phase_mul (x 0))
    rw [star_mul', star_star] at this
    rw [mul_comm, this]
    exact Complex.conj_ofReal _
  rw [h2]
  linear_combination (vnorm x : ℂ) * h4 + (vnorm x : ℂ) ^ 2 * phase_star (x 0)

theorem householder_apply (x : Fin (m + 1) → ℂ) (i j : Fin (m + 1)) : householder x i j =
    (if i = j then 1 else 0) - 2 / (star (householderVec x) ⬝ᵥ householderVec x) * (householderVec x i * star (householderVec x j)) := by
  unfold householder
  simp only
  rw [← vnorm_sq]
  congr 1
  have h2 : star ((vnorm (householderVec x) : ℝ) : ℂ) = (vnorm (householderVec x) : ℂ) := Complex.conj_ofReal _
  rw [star_div₀, h2, div_mul_div_comm, ← sq]
  ring

theorem householder_eq (x : Fin (m + 1) → ℂ) : householder x =
    1 - (2 / (star (householderVec x) ⬝ᵥ householderVec x)) • Matrix.vecMulVec (householderVec x) (star (householderVec x)) := by
  ext i j
  rw [householder_apply, Matrix.sub_apply, Matrix.smul_apply, Matrix.vecMulVec_apply, Matrix.one_apply]
  rfl

theorem householder_dot_ne {x : Fin (m + 1) → ℂ} (hx : x ≠ 0) : star (householderVec x) ⬝ᵥ householderVec x ≠ 0 := by
  rw [householder_dot_self]
  have h := vnorm_pos hx
  have : (2 * (vnorm x : ℂ) * (vnorm x + ‖x 0‖)) = ((2 * vnorm x * (vnorm x + ‖x 0‖) : ℝ) : ℂ) := by push_cast; ring
  rw [this, Ne, Complex.ofReal_eq_zero]
  have := norm_nonneg (x 0)
  positivity

theorem householder_herm (x : Fin (m + 1) → ℂ) : (householder x)ᴴ = householder x := by
  ext i j
  rw [Matrix.conjTranspose_apply, householder_apply, householder_apply]
  have hr : star (star (householderVec x) ⬝ᵥ householderVec x) = star (householderVec x) ⬝ᵥ householderVec x := by
    rw [← vnorm_sq, star_pow]
    congr 1
    exact Complex.conj_ofReal _
  rw [star_sub, star_mul', star_mul', star_star, star_div₀, hr]
  have h1 : star (if j = i then (1 : ℂ) else 0) = if i = j then 1 else 0 := by
    by_cases h : i = j
    · rw [if_pos h, if_pos h.symm, star_one]
    · rw [if_neg h, if_neg (Ne.symm h), star_zero]
  have h2 : star (2 : ℂ) = 2 := Complex.conj_ofNat 2
  rw [h1, h2]
  ring

theorem householder_sq {x : Fin (m + 1) → ℂ} (hx : x ≠ 0) : householder x * householder x = 1 := by
  rw [householder_eq]
  set u := householderVec x
  set c := star u ⬝ᵥ u with hc
  have hne : c ≠ 0 := householder_dot_ne hx
  have h1 : Matrix.vecMulVec u (star u) * Matrix.vecMulVec u (star u) = c • Matrix.vecMulVec u (star u) := by
    rw [Matrix.vecMulVec_mul_vecMulVec, ← hc]
    ext i j
    simp only [Matrix.vecMulVec_apply, Matrix.smul_apply, Pi.smul_apply, smul_eq_mul]
    ring
  have h3 : (2 / c) • Matrix.vecMulVec u (star u) * (2 / c) • Matrix.vecMulVec u (star u) =
      (2 / c) • Matrix.vecMulVec u (star u) + (2 / c) • Matrix.vecMulVec u (star u) := by
    rw [Matrix.smul_mul, Matrix.mul_smul, h1, smul_smul, smul_smul, ← add_smul]
    congr 1
    field_simp
    ring
  rw [sub_mul, mul_sub, mul_sub, h3, one_mul, one_mul, mul_one]
  abel

theorem householder_unitary {x : Fin (m + 1) → ℂ} (hx : x ≠ 0) : (householder x)ᴴ * householder x = 1 := by
  rw [householder_herm, householder_sq hx]

theorem householder_mulVec {x : Fin (m + 1) → ℂ} (hx : x ≠ 0) :
    householder x *ᵥ x = (-(phase (x 0) * vnorm x)) • Pi.single 0 1 := by
  have hne := householder_dot_ne hx
  have hfac : 2 / (star (householderVec x) ⬝ᵥ householderVec x) * (star (householderVec x) ⬝ᵥ x) = 1 := by
    rw [div_mul_eq_mul_div, div_eq_one_iff_eq hne, householder_dot_self, householder_dot_x]
    ring
  rw [householder_eq, Matrix.sub_mulVec, Matrix.one_mulVec, Matrix.smul_mulVec, Matrix.vecMulVec_mulVec, op_smul_eq_smul, smul_smul,
    hfac, one_smul]
  conv_lhs => rw [householderVec_eq]
  rw [neg_smul]
  abel

theorem phase_vnorm_ne {x : Fin (m + 1) → ℂ} (hx : x ≠ 0) : phase (x 0) * (vnorm x : ℂ) ≠ 0 := by
  apply mul_ne_zero
  · intro h
    have := phase_norm (x 0)
    rw [h, norm_zero] at this
    exact zero_ne_one this
  · exact_mod_cast (vnorm_pos hx).ne'

theorem householder_e0 {x : Fin (m + 1) → ℂ} (hx : x ≠ 0) :
    householder x *ᵥ Pi.single 0 1 = (-(phase (x 0) * vnorm x)⁻¹) • x := by
  have h := congrArg (fun v => householder x *ᵥ v) (householder_mulVec hx)
  simp only [Matrix.mulVec_mulVec, householder_sq hx, Matrix.one_mulVec, Matrix.mulVec_smul] at h
  have hne := phase_vnorm_ne hx
  have hone : -(phase (x 0) * (vnorm x : ℂ))⁻¹ * -(phase (x 0) * (vnorm x : ℂ)) = 1 := by
    rw [neg_mul_neg, inv_mul_cancel₀ hne]
  calc householder x *ᵥ Pi.single 0 1 = (1 : ℂ) • (householder x *ᵥ Pi.single 0 1) := (one_smul _ _).symm
    _ = (-(phase (x 0) * (vnorm x : ℂ))⁻¹) • ((-(phase (x 0) * (vnorm x : ℂ))) • (householder x *ᵥ Pi.single 0 1)) := by
      rw [smul_smul, hone]
    _ = _ := congrArg _ h.symm

theorem condB_col {A : Matrix (Fin (m + 1)) (Fin (m + 1)) ℂ} {eig : ℂ} {x : Fin (m + 1) → ℂ} (hx : x ≠ 0) (hA : A *ᵥ x = eig • x) :
    condB A x *ᵥ Pi.single 0 1 = eig • Pi.single 0 1 := by
  have hne := phase_vnorm_ne hx
  rw [condB, ← Matrix.mulVec_mulVec, ← Matrix.mulVec_mulVec, householder_herm, householder_e0 hx, Matrix.mulVec_smul, hA,
    Matrix.mulVec_smul, Matrix.mulVec_smul, householder_mulVec hx, smul_smul, smul_smul]
  congr 1
  rw [mul_neg, neg_mul, neg_mul, neg_neg, mul_right_comm, inv_mul_cancel₀ hne, one_mul]

theorem condB_col_apply {A : Matrix (Fin (m + 1)) (Fin (m + 1)) ℂ} {eig : ℂ} {x : Fin (m + 1) → ℂ} (hx : x ≠ 0)
    (hA : A *ᵥ x = eig • x) (i : Fin (m + 1)) : condB A x i 0 = if i = 0 then eig else 0 := by
  have h := congrFun (condB_col hx hA) i
  rw [Matrix.mulVec_single_one] at h
  have h' : condB A x i 0 = (eig • (Pi.single 0 1 : Fin (m + 1) → ℂ)) i := h
  rw [h']
  by_cases hi : i = 0
  · subst hi
    simp
  · simp [hi]

theorem vnorm_succ (z : Fin (m + 1) → ℂ) : vnorm z ^ 2 = ‖z 0‖ ^ 2 + vnorm (fun i : Fin m => z i.succ) ^ 2 := by
  rw [vnorm_sq_real, vnorm_sq_real, Fin.sum_univ_succ]

theorem dot_householder {x : Fin (m + 1) → ℂ} (hx : x ≠ 0) (y : Fin (m + 1) → ℂ) :
    star y ⬝ᵥ x = star ((householder x *ᵥ y) 0) * -(phase (x 0) * vnorm x) := by
  have h : star (householder x *ᵥ y) ⬝ᵥ (householder x *ᵥ x) = star y ⬝ᵥ x := by
    rw [Matrix.star_mulVec, ← Matrix.dotProduct_mulVec, Matrix.mulVec_mulVec, householder_unitary hx, Matrix.one_mulVec]
  rw [← h, householder_mulVec hx, dotProduct_smul, smul_eq_mul, mul_comm]
  congr 1
  simp

theorem dot_swap {n : ℕ} {a b : Fin n → ℂ} (h : star a ⬝ᵥ b = 0) : star b ⬝ᵥ a = 0 := by
  rw [Matrix.star_dotProduct, h, star_zero]

theorem det_qr {L : EigLib m} (hL : L.Correct) (M : Matrix (Fin m) (Fin m) ℂ) : (L.qrR M).det = 0 ↔ M.det = 0 := by
  obtain ⟨U, hU, hM⟩ := hL.qr M
  have hdet : U.det ≠ 0 := by
    intro h
    have := congrArg Matrix.det hU
    rw [Matrix.det_mul, h, mul_zero, Matrix.det_one] at this
    exact zero_ne_one this
  conv_rhs => rw [← hM]
  rw [Matrix.det_mul]
  simp [hdet]

theorem condM_mulVec (A : Matrix (Fin (m + 1)) (Fin (m + 1)) ℂ) (eig : ℂ) (x : Fin (m + 1) → ℂ) (w : Fin m → ℂ) (i : Fin m) :
    (condM A eig x *ᵥ w) i = (condB A x *ᵥ (Fin.cons 0 w : Fin (m + 1) → ℂ)) i.succ - eig * w i := by
  simp only [Matrix.mulVec, dotProduct, condM, sub_mul]
  rw [Finset.sum_sub_distrib, Fin.sum_univ_succ]
  simp

/-! ### The theorems -/

/-- **C69.**  The reflector is Hermitian and unitary, and if `x` is an eigenvector of `A` for the eigenvalue `eig`, then the first
column of `Qᴴ A Q` is `eig` times the first unit vector. -/
theorem C69_householder (A : Matrix (Fin (m + 1)) (Fin (m + 1)) ℂ) (eig : ℂ) (x : Fin (m + 1) → ℂ) (hx : x ≠ 0)
    (hA : A *ᵥ x = eig • x) :
    (householder x)ᴴ = householder x ∧ (householder x)ᴴ * householder x = 1 ∧
      ∀ i, ((householder x)ᴴ * A * householder x) i 0 = if i = 0 then eig else 0 :=
  ⟨householder_herm x, householder_unitary hx, condB_col_apply hx hA⟩

/-- **C69.**  What `condeig` returns is the condition number of the eigenvalue: the product of the lengths of a right and a left
eigenvector divided by the absolute value of their inner product. -/
theorem C69_condeig (L : EigLib m) (hL : L.Correct) (A : Matrix (Fin (m + 1)) (Fin (m + 1)) ℂ) (eig : ℂ) (x y : Fin (m + 1) → ℂ)
    (hx : x ≠ 0) (hy : y ≠ 0) (hyA : star y ᵥ* A = eig • star y) (c : ℝ) (hc : condeig L A eig x = some c) :
    star y ⬝ᵥ x ≠ 0 ∧ c = vnorm x * vnorm y / ‖star y ⬝ᵥ x‖ := by
  set Q := householder x with hQ
  set B := condB A x with hB
  set M := condM A eig x with hM
  have hQQ : Q * Q = 1 := householder_sq hx
  have hQh : Qᴴ = Q := householder_herm x
  set z := Q *ᵥ y with hz
  have hzn : vnorm z = vnorm y := vnorm_unitary (householder_unitary hx) y
  have hzB : star z ᵥ* B = eig • star z := by
    rw [hz, Matrix.star_mulVec, hQh, hB, condB, ← hQ, hQh, Matrix.vecMul_vecMul, ← Matrix.mul_assoc, ← Matrix.mul_assoc, hQQ,
      Matrix.one_mul, ← Matrix.vecMul_vecMul, hyA, Matrix.smul_vecMul]
  obtain ⟨v, hv, hcv⟩ := Option.map_eq_some_iff.1 hc
  set R := L.qrR M with hR
  have hRdet : R.det ≠ 0 := fun h => by
    rw [(hL.singular M _).2 h] at hv
    cases hv
  have hsol := hL.solve M _ v hv
  obtain ⟨U, hU, hUM⟩ := hL.qr M
  have hUU : U * Uᴴ = 1 := mul_eq_one_comm.1 hU
  set z' : Fin m → ℂ := fun i => z i.succ with hz'
  -- the equations of the left eigenvector for the remaining columns
  have hcol : star z' ᵥ* M = -(star (z 0)) • fun j => B 0 j.succ := by
    funext j
    have h := congrFun hzB j.succ
    simp only [Matrix.vecMul, dotProduct, Pi.smul_apply, smul_eq_mul] at h ⊢
    rw [Fin.sum_univ_succ] at h
    simp only [hM, condM, mul_sub, Finset.sum_sub_distrib, ← hB]
    have hs : ∑ i, star z' i * (eig * if i = j then 1 else 0) = eig * star z j.succ := by
      simp [hz', mul_comm]
    rw [hs]
    simp only [Pi.star_apply, hz'] at h ⊢
    linear_combination h
  have hM0 : M.det ≠ 0 := fun h => hRdet ((det_qr hL M).2 h)
  have hz0 : z 0 ≠ 0 := by
    intro h0
    rw [h0, star_zero, neg_zero, zero_smul] at hcol
    have hz'0 : star z' = 0 := Matrix.eq_zero_of_vecMul_eq_zero hM0 hcol
    have hz0 : z = 0 := by
      funext i
      refine Fin.cases ?_ (fun i => ?_) i
      · exact h0
      · have := congrFun hz'0 i
        simpa [hz'] using this
    have : vnorm y = 0 := by
      rw [← hzn, hz0]
      simp [vnorm]
    exact (vnorm_pos hy).ne' this
  -- the solution of the triangular system
  have hvz : v = (z 0)⁻¹ • (Uᴴ *ᵥ z') := by
    have h1 : Rᴴ *ᵥ ((z 0)⁻¹ • (Uᴴ *ᵥ z')) = fun j => -star (B 0 j.succ) := by
      rw [Matrix.mulVec_smul, Matrix.mulVec_mulVec, ← Matrix.conjTranspose_mul, hUM]
      have h2 := congrArg star hcol
      rw [Matrix.star_vecMul, star_star] at h2
      rw [h2]
      funext j
      simp only [Pi.smul_apply, Pi.star_apply, smul_eq_mul, star_mul', star_neg, star_star]
      field_simp
    have h3 : Rᴴ *ᵥ (v - (z 0)⁻¹ • (Uᴴ *ᵥ z')) = 0 := by
      rw [Matrix.mulVec_sub, hsol, h1, sub_self]
    have h4 : (Rᴴ).det ≠ 0 := by
      rw [Matrix.det_conjTranspose]
      exact fun h => hRdet (star_eq_zero.1 h)
    exact sub_eq_zero.1 (Matrix.eq_zero_of_mulVec_eq_zero h4 h3)
  have hvn : vnorm v = vnorm z' / ‖z 0‖ := by
    have h1 : vnorm ((z 0)⁻¹ • (Uᴴ *ᵥ z')) ^ 2 = (vnorm z' / ‖z 0‖) ^ 2 := by
      rw [div_pow, ← vnorm_unitary (U := Uᴴ) (by rw [Matrix.conjTranspose_conjTranspose, hUU]) z', vnorm_sq_real, vnorm_sq_real,
        div_eq_mul_inv, Finset.sum_mul]
      apply Finset.sum_congr rfl
      intro i _
      rw [Pi.smul_apply, smul_eq_mul, norm_mul, norm_inv, mul_pow, inv_pow]
      ring
    rw [hvz]
    exact (sq_eq_sq₀ (vnorm_nonneg _) (div_nonneg (vnorm_nonneg _) (norm_nonneg _))).1 h1
  have hdot := dot_householder hx y
  have hdotn : ‖star y ⬝ᵥ x‖ = ‖z 0‖ * vnorm x := by
    rw [hdot, norm_mul, norm_star, norm_neg, norm_mul, phase_norm, one_mul, Complex.norm_real, Real.norm_of_nonneg (vnorm_nonneg x)]
  have hz0n : 0 < ‖z 0‖ := norm_pos_iff.2 hz0
  have hxn := vnorm_pos hx
  refine ⟨fun h => ?_, ?_⟩
  · rw [h, norm_zero] at hdotn
    have := mul_pos hz0n hxn
    linarith
  · rw [← hcv, hvn, hdotn]
    have h1 : 1 + (vnorm z' / ‖z 0‖) ^ 2 = (vnorm y / ‖z 0‖) ^ 2 := by
      rw [← hzn, div_pow, div_pow, vnorm_succ z, add_div, div_self (by positivity)]
    rw [h1, Real.sqrt_sq (div_nonneg (vnorm_nonneg _) (norm_nonneg _))]
    field_simp

/-- **C69.**  `condeig` raises no `LinAlgError` exactly if the eigenvalue is simple. -/
theorem C69_defined (L : EigLib m) (hL : L.Correct) (A : Matrix (Fin (m + 1)) (Fin (m + 1)) ℂ) (eig : ℂ) (x : Fin (m + 1) → ℂ)
    (hx : x ≠ 0) (hA : A *ᵥ x = eig • x) :
    (condeig L A eig x).isSome ↔ A.charpoly.rootMultiplicity eig = 1 := by
  set B := condB A x with hB
  set B' : Matrix (Fin m) (Fin m) ℂ := B.submatrix Fin.succ Fin.succ with hB'
  have hcp : A.charpoly = (Polynomial.X - Polynomial.C eig) * B'.charpoly := by
    have h1 : B.charpoly = A.charpoly := by
      rw [hB, condB, householder_herm, Matrix.charpoly_mul_comm, ← Matrix.mul_assoc, householder_sq hx, Matrix.one_mul]
    rw [← h1, Matrix.charpoly, Matrix.det_succ_column_zero, Fin.sum_univ_succ]
    have h2 : ∀ i : Fin m, B.charmatrix i.succ 0 = 0 := fun i => by
      rw [Matrix.charmatrix_apply_ne _ _ _ (Fin.succ_ne_zero i), hB, condB_col_apply hx hA, if_neg (Fin.succ_ne_zero i)]
      simp
    rw [Finset.sum_eq_zero fun i _ => by rw [h2]; simp]
    have h3 : B.charmatrix 0 0 = Polynomial.X - Polynomial.C eig := by
      rw [Matrix.charmatrix_apply_eq, hB, condB_col_apply hx hA, if_pos rfl]
    have h4 : B.charmatrix.submatrix (Fin.succAbove 0) Fin.succ = B'.charmatrix := by
      ext i j : 2
      simp only [Matrix.submatrix_apply, Fin.zero_succAbove, Matrix.charmatrix_apply, hB', Matrix.diagonal_apply, Fin.succ_inj]
    rw [h3, h4, Matrix.charpoly]
    simp
  have hne : (Polynomial.X - Polynomial.C eig) * B'.charpoly ≠ 0 :=
    mul_ne_zero (Polynomial.X_sub_C_ne_zero eig) (Matrix.charpoly_monic B').ne_zero
  have hM : condM A eig x = -(Matrix.scalar (Fin m) eig - B') := by
    ext i j
    simp only [condM, Matrix.neg_apply, Matrix.sub_apply, Matrix.scalar_apply, Matrix.diagonal_apply, hB', Matrix.submatrix_apply, ← hB]
    split_ifs <;> ring
  have hdet : (L.qrR (condM A eig x)).det = 0 ↔ B'.charpoly.eval eig = 0 := by
    rw [det_qr hL, hM, Matrix.det_neg, Matrix.eval_charpoly]
    simp
  rw [hcp, Polynomial.rootMultiplicity_mul hne, Polynomial.rootMultiplicity_X_sub_C_self]
  have hsome : (condeig L A eig x).isSome ↔ ¬ (L.qrR (condM A eig x)).det = 0 := by
    rw [← hL.singular (condM A eig x) fun j => -star (condB A x 0 j.succ), condeig]
    cases L.solveAdj (L.qrR (condM A eig x)) fun j => -star (condB A x 0 j.succ) <;> simp
  rw [hsome, hdet]
  have h5 : B'.charpoly.rootMultiplicity eig = 0 ↔ ¬ B'.charpoly.eval eig = 0 := by
    rw [Polynomial.rootMultiplicity_eq_zero_iff]
    constructor
    · intro h h'
      exact (Matrix.charpoly_monic B').ne_zero (h h')
    · intro h h'
      exact absurd h' h
  rw [← h5]
  omega

/-- The component of `z` orthogonal to `x`. -/
noncomputable def orthPart (x z : Fin (m + 1) → ℂ) : Fin (m + 1) → ℂ := z - ((star x ⬝ᵥ z) / (star x ⬝ᵥ x)) • x

/-- **C69.**  The second value with `condvec=True` is the reciprocal of the separation of the eigenvalue from the rest of the matrix:
the least length of the component of `(A - eig) w` orthogonal to `x`, for unit vectors `w` orthogonal to `x`. -/
theorem C69_condvec (L : EigLib m) (hL : L.Correct) (hm : 0 < m) (A : Matrix (Fin (m + 1)) (Fin (m + 1)) ℂ) (eig : ℂ)
    (x : Fin (m + 1) → ℂ) (hx : x ≠ 0) (c s : ℝ) (hc : condeigVec L A eig x = some (c, s)) :
    condeig L A eig x = some c ∧
      ∃ t, IsLeast {t | ∃ w : Fin (m + 1) → ℂ, vnorm w = 1 ∧ star x ⬝ᵥ w = 0 ∧ t = vnorm (orthPart x (A *ᵥ w - eig • w))} t ∧
        0 < t ∧ s = 1 / t := by
  obtain ⟨c', hc', he⟩ := Option.map_eq_some_iff.1 hc
  simp only [Prod.mk.injEq] at he
  obtain ⟨rfl, rfl⟩ := he
  refine ⟨hc', _, ?_, ?_, rfl⟩
  · set Q := householder x with hQ
    set M := condM A eig x with hM
    obtain ⟨U, hU, hUM⟩ := hL.qr M
    have hQQ : Q * Q = 1 := householder_sq hx
    have hQu : Qᴴ * Q = 1 := householder_unitary hx
    -- lengths of orthogonal parts
    have horth : ∀ z, vnorm (orthPart x z) = vnorm fun i : Fin m => (Q *ᵥ z) i.succ := fun z => by
      have h0 : (Q *ᵥ orthPart x z) 0 = 0 := by
        have h1 : star (orthPart x z) ⬝ᵥ x = 0 := by
          have hxx : star x ⬝ᵥ x ≠ 0 := by
            rw [← vnorm_sq]
            exact pow_ne_zero _ (by exact_mod_cast (vnorm_pos hx).ne')
          have h2 : star x ⬝ᵥ orthPart x z = 0 := by
            rw [orthPart, dotProduct_sub, dotProduct_smul, smul_eq_mul, div_mul_cancel₀ _ hxx, sub_self]
          exact dot_swap h2
        rw [dot_householder hx] at h1
        have := (mul_eq_zero.1 h1).resolve_right (neg_ne_zero.2 (phase_vnorm_ne hx))
        exact star_eq_zero.1 this
      have hs : ∀ i : Fin m, (Q *ᵥ orthPart x z) i.succ = (Q *ᵥ z) i.succ := fun i => by
        rw [orthPart, Matrix.mulVec_sub, Matrix.mulVec_smul, hQ, householder_mulVec hx]
        simp
      have h4 : vnorm (orthPart x z) ^ 2 = (vnorm fun i : Fin m => (Q *ᵥ z) i.succ) ^ 2 := by
        rw [← vnorm_unitary hQu (orthPart x z), vnorm_succ, h0, norm_zero]
        simp only [hs]
        ring
      exact (sq_eq_sq₀ (vnorm_nonneg _) (vnorm_nonneg _)).1 h4
    -- the same set
    have hset : {t | ∃ w : Fin (m + 1) → ℂ, vnorm w = 1 ∧ star x ⬝ᵥ w = 0 ∧ t = vnorm (orthPart x (A *ᵥ w - eig • w))} =
        {t | ∃ w : Fin m → ℂ, vnorm w = 1 ∧ t = vnorm (L.qrR M *ᵥ w)} := by
      have hval : ∀ w' : Fin m → ℂ, vnorm (L.qrR M *ᵥ w') =
          vnorm (orthPart x (A *ᵥ (Q *ᵥ (Fin.cons 0 w' : Fin (m + 1) → ℂ)) - eig • (Q *ᵥ (Fin.cons 0 w' : Fin (m + 1) → ℂ)))) :=
        fun w' => by
        rw [← vnorm_unitary hU, Matrix.mulVec_mulVec, hUM, horth]
        congr 1
        funext i
        rw [hM, condM_mulVec, Matrix.mulVec_sub, Matrix.mulVec_smul, Matrix.mulVec_mulVec (M := Q) (N := Q), hQQ, Matrix.one_mulVec,
          Matrix.mulVec_mulVec, Matrix.mulVec_mulVec, condB, householder_herm]
        simp [Matrix.mul_assoc, hQ]
      ext t
      constructor
      · rintro ⟨w, hw1, hw2, rfl⟩
        have hw0 : (Q *ᵥ w) 0 = 0 := by
          have h3 : star w ⬝ᵥ x = 0 := dot_swap hw2
          rw [dot_householder hx] at h3
          exact star_eq_zero.1 ((mul_eq_zero.1 h3).resolve_right (neg_ne_zero.2 (phase_vnorm_ne hx)))
        have hcons : (Fin.cons 0 (fun i : Fin m => (Q *ᵥ w) i.succ) : Fin (m + 1) → ℂ) = Q *ᵥ w := by
          funext i
          refine Fin.cases ?_ (fun i => ?_) i
          · rw [hw0]; rfl
          · rfl
        refine ⟨fun i => (Q *ᵥ w) i.succ, ?_, ?_⟩
        · have h4 := vnorm_succ (Q *ᵥ w)
          rw [vnorm_unitary hQu, hw1, hw0, norm_zero] at h4
          have h5 : (vnorm fun i : Fin m => (Q *ᵥ w) i.succ) ^ 2 = 1 ^ 2 := by linarith
          exact (sq_eq_sq₀ (vnorm_nonneg _) zero_le_one).1 h5
        · rw [hval, hcons, Matrix.mulVec_mulVec (M := Q) (N := Q), hQQ, Matrix.one_mulVec]
      · rintro ⟨w', hw1, rfl⟩
        refine ⟨Q *ᵥ (Fin.cons 0 w' : Fin (m + 1) → ℂ), ?_, ?_, hval w'⟩
        · rw [vnorm_unitary hQu]
          have h4 := vnorm_succ (Fin.cons 0 w' : Fin (m + 1) → ℂ)
          simp only [Fin.cons_zero, Fin.cons_succ, norm_zero] at h4
          rw [hw1] at h4
          have h5 : vnorm (Fin.cons 0 w' : Fin (m + 1) → ℂ) ^ 2 = 1 ^ 2 := by linarith
          exact (sq_eq_sq₀ (vnorm_nonneg _) zero_le_one).1 h5
        · have h3 : star (Q *ᵥ (Fin.cons 0 w' : Fin (m + 1) → ℂ)) ⬝ᵥ x = 0 := by
            rw [dot_householder hx, ← hQ, Matrix.mulVec_mulVec, hQQ, Matrix.one_mulVec]
            simp
          exact dot_swap h3
    rw [hset]
    exact hL.sigma M hm
  · obtain ⟨w, hw, h⟩ := (hL.sigma (condM A eig x) hm).1
    rw [h]
    apply vnorm_pos
    intro h0
    have hdet : (L.qrR (condM A eig x)).det ≠ 0 := fun hd => by
      have := (hL.singular (condM A eig x) fun j => -star (condB A x 0 j.succ)).2 hd
      rw [condeig, this] at hc'
      cases hc'
    have := Matrix.eq_zero_of_mulVec_eq_zero hdet h0
    rw [this] at hw
    simp [vnorm] at hw

/-! ### Example -/

/-- Routines for matrices with one row. -/
noncomputable def lib1 : EigLib 1 where
  qrR M := M
  solveAdj R b := open Classical in if R 0 0 = 0 then none else some fun _ => b 0 / star (R 0 0)
  sigmaMin R := ‖R 0 0‖

theorem lib1_correct : lib1.Correct where
  qr M := ⟨1, by simp, by simp [lib1]⟩
  solve M b v h := by
    simp only [lib1] at h ⊢
    split at h
    · cases h
    · rename_i hne
      cases h
      funext i
      have hi : i = 0 := Subsingleton.elim _ _
      subst hi
      simp only [Matrix.mulVec, dotProduct, Fin.sum_univ_one, Matrix.conjTranspose_apply]
      exact mul_div_cancel₀ _ fun h => hne (star_eq_zero.1 h)
  singular M b := by
    simp only [lib1, Matrix.det_fin_one]
    split <;> simp_all
  sigma M _ := by
    have hnorm : ∀ w : Fin 1 → ℂ, vnorm w = ‖w 0‖ := fun w => by
      simp [vnorm, Real.sqrt_sq]
    have hmul : ∀ w : Fin 1 → ℂ, vnorm (M *ᵥ w) = ‖M 0 0‖ * ‖w 0‖ := fun w => by
      rw [hnorm]
      simp [Matrix.mulVec, dotProduct]
    simp only [lib1]
    constructor
    · refine ⟨fun _ => 1, by simp [hnorm], ?_⟩
      rw [hmul]
      simp
    · rintro t ⟨w, hw, rfl⟩
      rw [hmul, ← hnorm w, hw, mul_one]

/-- The hypotheses hold for the matrix with rows `(1, 1)`, `(0, 2)`, the eigenvalue 1, the right eigenvector `(1, 0)` and the left
eigenvector `(1, -1)`; the condition number is the square root of 2. -/
example : ∃ c s, condeigVec lib1 !![1, 1; 0, 2] 1 ![1, 0] = some (c, s) ∧ c = Real.sqrt 2 := by
  have hx : (![1, 0] : Fin 2 → ℂ) ≠ 0 := fun h => by simpa using congrFun h 0
  have hy : (![1, -1] : Fin 2 → ℂ) ≠ 0 := fun h => by simpa using congrFun h 0
  have hA : (!![1, 1; 0, 2] : Matrix (Fin 2) (Fin 2) ℂ) *ᵥ ![1, 0] = (1 : ℂ) • ![1, 0] := by
    funext i
    fin_cases i <;> simp
  have hyA : star (![1, -1] : Fin 2 → ℂ) ᵥ* (!![1, 1; 0, 2] : Matrix (Fin 2) (Fin 2) ℂ) = (1 : ℂ) • star ![1, -1] := by
    funext i
    fin_cases i <;> simp [Matrix.vecMul, dotProduct, Fin.sum_univ_two]
    norm_num
  have hsome : (condeig lib1 !![1, 1; 0, 2] 1 ![1, 0]).isSome := by
    rw [C69_defined lib1 lib1_correct _ _ _ hx hA]
    have hcp : (!![1, 1; 0, 2] : Matrix (Fin 2) (Fin 2) ℂ).charpoly = (Polynomial.X - Polynomial.C 1) * (Polynomial.X - Polynomial.C 2) := by
      rw [Matrix.charpoly_fin_two]
      simp only [Matrix.trace_fin_two, Matrix.det_fin_two_of, Matrix.of_apply, Matrix.cons_val', Matrix.cons_val_zero,
        Matrix.cons_val_one, Matrix.cons_val_fin_one]
      have : (1 : ℂ) * 2 - 1 * 0 = 1 * 2 := by ring
      rw [this, Polynomial.C_add, Polynomial.C_mul]
      ring
    rw [hcp, Polynomial.rootMultiplicity_mul (mul_ne_zero (Polynomial.X_sub_C_ne_zero _) (Polynomial.X_sub_C_ne_zero _)),
      Polynomial.rootMultiplicity_X_sub_C, Polynomial.rootMultiplicity_X_sub_C]
    norm_num
  obtain ⟨c, hc⟩ := Option.isSome_iff_exists.1 hsome
  refine ⟨c, 1 / lib1.sigmaMin (lib1.qrR (condM !![1, 1; 0, 2] 1 ![1, 0])), by rw [condeigVec, hc]; rfl, ?_⟩
  rw [(C69_condeig lib1 lib1_correct _ _ _ _ hx hy hyA c hc).2]
  simp [vnorm, Fin.sum_univ_two, dotProduct]
  norm_num

end YRoots.Legacy
