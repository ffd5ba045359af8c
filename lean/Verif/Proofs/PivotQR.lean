import Mathlib.Data.Real.Sqrt
import Mathlib.LinearAlgebra.Matrix.Notation
import Mathlib.LinearAlgebra.Matrix.NonsingularInverse
import Mathlib.LinearAlgebra.Matrix.DotProduct
import Mathlib.Data.Fin.Tuple.Basic
import Mathlib.GroupTheory.Perm.Fin
import Mathlib.Tactic.LinearCombination

/-!
# QR factorisations exist

With and without pivoting, over the reals.
-/

namespace YRoots.Legacy

open Finset Matrix

/-- A reflection that takes `a` to a multiple of the first unit vector. -/
theorem exists_reflection {p : ℕ} (a : Fin (p + 1) → ℝ) :
    ∃ H : Matrix (Fin (p + 1)) (Fin (p + 1)) ℝ, Hᵀ * H = 1 ∧ (∀ i : Fin p, (H *ᵥ a) i.succ = 0) := by
  set s := Real.sqrt (a ⬝ᵥ a) with hs
  have hss : s * s = a ⬝ᵥ a := Real.mul_self_sqrt (by
    rw [dotProduct]
    exact Finset.sum_nonneg fun i _ => mul_self_nonneg _)
  set v : Fin (p + 1) → ℝ := a - Pi.single 0 s with hv
  have hav : v ⬝ᵥ a = s * s - s * a 0 := by
    rw [hv, sub_dotProduct, ← hss, single_dotProduct]
  have hvv : v ⬝ᵥ v = 2 * (v ⬝ᵥ a) := by
    rw [hav]
    have : v ⬝ᵥ v = v ⬝ᵥ a - v 0 * s := by
      conv_lhs => rw [hv]
      rw [dotProduct_sub, dotProduct_single, ← hv]
    rw [this, hav]
    simp [hv]
    ring
  by_cases h0 : v = 0
  · refine ⟨1, by simp, fun i => ?_⟩
    have := congrFun h0 i.succ
    simpa [hv] using this
  · have hvv0 : v ⬝ᵥ v ≠ 0 := fun h => h0 (dotProduct_self_eq_zero.1 h)
    refine ⟨1 - (2 / (v ⬝ᵥ v)) • vecMulVec v v, ?_, fun i => ?_⟩
    · rw [transpose_sub, transpose_smul, transpose_one, transpose_vecMulVec, Matrix.sub_mul, Matrix.one_mul, Matrix.mul_sub, Matrix.mul_one,
        smul_mul_smul_comm, vecMulVec_mul_vecMulVec]
      ext i j
      simp only [Matrix.sub_apply, Matrix.smul_apply, vecMulVec_apply, smul_eq_mul, Pi.smul_apply]
      field_simp
      ring
    · rw [Matrix.sub_mulVec, Matrix.one_mulVec, Matrix.smul_mulVec, vecMulVec_mulVec]
      have h2 : (2 / (v ⬝ᵥ v)) * (v ⬝ᵥ a) = 1 := by
        rw [hvv]
        have : v ⬝ᵥ a ≠ 0 := fun h => hvv0 (by rw [hvv, h, mul_zero])
        field_simp
      simp only [Pi.sub_apply, Pi.smul_apply, smul_eq_mul, MulOpposite.smul_eq_mul_unop, MulOpposite.unop_op]
      rw [mul_comm (v i.succ), ← mul_assoc, h2, one_mul]
      simp [hv]

/-- `1` in the corner and `Q` below. -/
def border {p : ℕ} (Q : Matrix (Fin p) (Fin p) ℝ) : Matrix (Fin (p + 1)) (Fin (p + 1)) ℝ :=
  Matrix.of fun i j => Fin.cases (Fin.cases 1 (fun _ => 0) j) (fun i => Fin.cases 0 (fun j => Q i j) j) i

theorem border_orth {p : ℕ} {Q : Matrix (Fin p) (Fin p) ℝ} (h : Qᵀ * Q = 1) : (border Q)ᵀ * border Q = 1 := by
  ext i j
  rw [Matrix.mul_apply, Fin.sum_univ_succ]
  refine Fin.cases ?_ (fun i => ?_) i <;> refine Fin.cases ?_ (fun j => ?_) j
  · simp [border]
  · simp [border, Matrix.one_apply, (Fin.succ_ne_zero j).symm]
  · simp [border, Matrix.one_apply, Fin.succ_ne_zero i]
  · have := congrFun (congrFun h i) j
    rw [Matrix.mul_apply] at this
    simpa [border, Matrix.one_apply] using this

/-- A permutation of `Fin m` acts on the successors. -/
def liftPerm {m : ℕ} (σ : Equiv.Perm (Fin m)) : Equiv.Perm (Fin (m + 1)) where
  toFun := Fin.cases 0 fun j => (σ j).succ
  invFun := Fin.cases 0 fun j => (σ.symm j).succ
  left_inv := fun j => by refine Fin.cases ?_ (fun j => ?_) j <;> simp
  right_inv := fun j => by refine Fin.cases ?_ (fun j => ?_) j <;> simp

theorem colNorm_orth {p m : ℕ} {Q : Matrix (Fin p) (Fin p) ℝ} (h : Qᵀ * Q = 1) (R : Matrix (Fin p) (Fin m) ℝ) (j : Fin m) :
    ∑ i, (Q * R) i j ^ 2 = ∑ i, R i j ^ 2 := by
  have e : ∀ B : Matrix (Fin p) (Fin m) ℝ, ∑ i, B i j ^ 2 = (Bᵀ * B) j j := fun B => by
    rw [Matrix.mul_apply]
    exact Finset.sum_congr rfl fun i _ => by rw [transpose_apply, sq]
  rw [e, e, transpose_mul, Matrix.mul_assoc, ← Matrix.mul_assoc Qᵀ, h, Matrix.one_mul]

theorem exists_qr (piv : Bool) (p m : ℕ) (A : Matrix (Fin p) (Fin m) ℝ) :
    ∃ (Q : Matrix (Fin p) (Fin p) ℝ) (R : Matrix (Fin p) (Fin m) ℝ) (σ : Equiv.Perm (Fin m)), Qᵀ * Q = 1 ∧ Q * R = A.submatrix id σ ∧
      (∀ i j, j.1 < i.1 → R i j = 0) ∧ (piv = false → σ = 1) ∧ (piv = true → ∀ (k : Fin p) (k' j : Fin m), k.1 = k'.1 → k' ≤ j →
        ∑ i ∈ univ.filter (k ≤ ·), R i j ^ 2 ≤ R k k' ^ 2) := by
  induction p generalizing m with
  | zero =>
    exact ⟨1, A, 1, by simp, by ext i; exact i.elim0, fun i => i.elim0, fun _ => rfl, fun _ k => k.elim0⟩
  | succ p ih =>
    cases m with
    | zero =>
      exact ⟨1, A, 1, by simp, by ext i j; exact j.elim0, fun i j => j.elim0, fun _ => rfl, fun _ k k' => k'.elim0⟩
    | succ m =>
      obtain ⟨j₀, hj₀, hj₁⟩ : ∃ j₀ : Fin (m + 1), (piv = true → ∀ j, ∑ i, A i j ^ 2 ≤ ∑ i, A i j₀ ^ 2) ∧ (piv = false → j₀ = 0) := by
        cases piv
        · exact ⟨0, by simp, fun _ => rfl⟩
        · obtain ⟨j₀, -, h⟩ := Finset.exists_max_image univ (fun j : Fin (m + 1) => ∑ i, A i j ^ 2) ⟨0, Finset.mem_univ _⟩
          exact ⟨j₀, fun _ j => h j (Finset.mem_univ _), by simp⟩
      set B := A.submatrix id (Equiv.swap 0 j₀) with hB
      obtain ⟨H, hH, hcol⟩ := exists_reflection fun i => B i 0
      set C := H * B with hC
      have hC0 : ∀ i : Fin p, C i.succ 0 = 0 := fun i => by
        have := hcol i
        simpa [hC, Matrix.mul_apply, Matrix.mulVec, dotProduct] using this
      obtain ⟨Q', R', σ', h1, h2, h3, h4, h5⟩ := ih m (C.submatrix Fin.succ Fin.succ)
      have h2' : ∀ (i : Fin p) (j : Fin m), ∑ k, Q' i k * R' k j = C i.succ (σ' j).succ := fun i j => by
        have := congrFun (congrFun h2 i) j
        simpa [Matrix.mul_apply] using this
      set R : Matrix (Fin (p + 1)) (Fin (m + 1)) ℝ := Matrix.of fun i j =>
        Fin.cases (C 0 (liftPerm σ' j)) (fun i => Fin.cases 0 (fun j => R' i j) j) i with hR
      have hHH : H * Hᵀ = 1 := mul_eq_one_comm.1 hH
      have hQo : (Hᵀ * border Q')ᵀ * (Hᵀ * border Q') = 1 := by
        rw [transpose_mul, transpose_transpose, Matrix.mul_assoc, ← Matrix.mul_assoc H, hHH, Matrix.one_mul, border_orth h1]
      have hbR : border Q' * R = C.submatrix id (liftPerm σ') := by
        ext i j
        rw [Matrix.mul_apply, Fin.sum_univ_succ]
        refine Fin.cases ?_ (fun i => ?_) i
        · simp [border, hR]
        · refine Fin.cases ?_ (fun j => ?_) j
          · simp [border, hR, liftPerm, hC0]
          · simp [border, hR, liftPerm, h2']
      have hQR : Hᵀ * border Q' * R = A.submatrix id (liftPerm σ' |>.trans (Equiv.swap 0 j₀)) := by
        rw [Matrix.mul_assoc, hbR, hC]
        have : (H * B).submatrix id (liftPerm σ') = H * B.submatrix id (liftPerm σ') := by
          ext i j
          simp [Matrix.mul_apply]
        rw [this, ← Matrix.mul_assoc, hH, Matrix.one_mul, hB]
        rfl
      refine ⟨Hᵀ * border Q', R, (liftPerm σ').trans (Equiv.swap 0 j₀), hQo, hQR, ?_, fun hp => ?_, fun hp => ?_⟩
      · intro i j
        refine Fin.cases ?_ (fun i => ?_) i
        · intro h; exact absurd h (Nat.not_lt_zero _)
        · refine Fin.cases ?_ (fun j => ?_) j
          · intro _; simp [hR]
          · intro h
            simpa [hR] using h3 i j (by simpa using h)
      · rw [hj₁ hp, h4 hp]
        ext j
        refine Fin.cases ?_ (fun j => ?_) j <;> simp [liftPerm]
      · intro k k' j
        refine Fin.cases ?_ (fun k => ?_) k
        · intro hk _
          have hk' : k' = 0 := Fin.ext hk.symm
          subst hk'
          have hfil : univ.filter ((0 : Fin (p + 1)) ≤ ·) = univ := by simp
          rw [hfil]
          have e0 : ∑ i, R i 0 ^ 2 = R 0 0 ^ 2 := by
            rw [Fin.sum_univ_succ]
            simp [hR]
          rw [← e0, ← colNorm_orth hQo, ← colNorm_orth hQo R 0, hQR]
          have hz : (liftPerm σ' |>.trans (Equiv.swap 0 j₀)) 0 = j₀ := by simp [liftPerm]
          simp only [submatrix_apply, id_eq, hz]
          exact hj₀ hp _
        · refine Fin.cases ?_ (fun k' => ?_) k'
          · intro h; simp at h
          · refine Fin.cases ?_ (fun j => ?_) j
            · intro _ h; simp at h
            · intro hk hj
              have := h5 hp k k' j (by simpa using hk) (by simpa using hj)
              have e : ∑ i ∈ univ.filter (k.succ ≤ ·), R i j.succ ^ 2 = ∑ i ∈ univ.filter (k ≤ ·), R' i j ^ 2 := by
                rw [Finset.sum_filter, Finset.sum_filter, Fin.sum_univ_succ]
                simp [hR]
              rw [e]
              simpa [hR] using this

end YRoots.Legacy
