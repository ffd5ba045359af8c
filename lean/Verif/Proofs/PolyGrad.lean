import Verif.Proofs.PolyEval
import Mathlib.Analysis.Calculus.Deriv.Polynomial

/-!
# Derivatives of coefficient arrays
-/

set_option linter.unusedSectionVars false
set_option linter.unusedVariables false
set_option linter.unusedSimpArgs false

open Finset Polynomial

namespace YRoots

variable {n : ℕ} {K : Type*} [Field K] [CharZero K] {V : Type*} [AddCommGroup V] [Module K V]

/-- The `j`-th basis function as a polynomial. -/
noncomputable def Basis.poly (K : Type*) [CommRing K] : Basis → ℕ → K[X]
  | .power, j => X ^ j
  | .cheb, j => Chebyshev.T K j

theorem Basis.poly_eval (B : Basis) (j : ℕ) (x : K) : (B.poly K j).eval x = B.fn j x := by
  cases B <;> simp [Basis.poly, Basis.fn, chebT]

/-- Values of the derivatives of the basis functions. -/
noncomputable def Basis.dfn (B : Basis) (j : ℕ) (x : K) : K := (derivative (B.poly K j)).eval x

theorem dfn_cheb_zero (x : K) : Basis.cheb.dfn 0 x = 0 := by simp [Basis.dfn, Basis.poly]

theorem dfn_cheb_one (x : K) : Basis.cheb.dfn 1 x = 1 := by simp [Basis.dfn, Basis.poly]

theorem dfn_cheb_two (x : K) : Basis.cheb.dfn 2 x = 4 * x := by
  simp only [Basis.dfn, Basis.poly, Nat.cast_ofNat, Chebyshev.T_two]
  simp; ring

theorem dfn_cheb (j : ℕ) (x : K) : Basis.cheb.dfn (j + 3) x =
    2 * ((j : K) + 3) * chebT (j + 2) x + ((j : K) + 3) / ((j : K) + 1) * Basis.cheb.dfn (j + 1) x := by
  have h1 : Basis.cheb.dfn (j + 3) x = ((j : K) + 3) * (Chebyshev.U K ((j : ℤ) + 2)).eval x := by
    simp only [Basis.dfn, Basis.poly, Chebyshev.T_derivative_eq_U]
    push_cast
    rw [show (j : ℤ) + 3 - 1 = j + 2 by ring]
    simp
  have h2 : Basis.cheb.dfn (j + 1) x = ((j : K) + 1) * (Chebyshev.U K (j : ℤ)).eval x := by
    simp only [Basis.dfn, Basis.poly, Chebyshev.T_derivative_eq_U]
    push_cast
    rw [show (j : ℤ) + 1 - 1 = j by ring]
    simp
  have h3 := congrArg (Polynomial.eval x) (Chebyshev.two_mul_T_eq_U_sub_U K (j : ℤ))
  simp only [eval_mul, eval_ofNat, eval_sub] at h3
  have h4 : chebT (j + 2) x = (Chebyshev.T K ((j : ℤ) + 2)).eval x := by unfold chebT; push_cast; rfl
  have hj : (j : K) + 1 ≠ 0 := by exact_mod_cast Nat.succ_ne_zero j
  rw [h1, h2, h4]
  field_simp
  linear_combination (-((j : K) + 3)) * h3

theorem polyder1D_sum (c : ℕ → V) (N : ℕ) (hN : 0 < N) (x : K) :
    ∑ j ∈ range (polyder1D (K := K) c N).2, x ^ j • (polyder1D (K := K) c N).1 j =
      ∑ j ∈ range N, Basis.power.dfn j x • c j := by
  have hd : ∀ j, Basis.power.dfn j x = (j : K) * x ^ (j - 1) := by
    intro j; simp only [Basis.dfn, Basis.poly, derivative_X_pow]; simp
  unfold polyder1D
  split_ifs with h
  · have : N = 1 := by omega
    subst this
    simp [hd]
  · obtain ⟨m, rfl⟩ : ∃ m, N = m + 1 := ⟨N - 1, by omega⟩
    rw [Finset.sum_range_succ' _ m]
    simp only [hd, Nat.cast_zero, zero_mul, zero_smul, add_zero, Nat.add_sub_cancel, smul_smul]
    apply Finset.sum_congr rfl
    intro j _
    push_cast
    rw [mul_comm]

/-- State of numpy's `chebder` loop after `t` passes. -/
def chebderRun (c : ℕ → V) (N t : ℕ) : (ℕ → V) × (ℕ → V) :=
  (List.range t).foldl
      (fun (s : (ℕ → V) × (ℕ → V)) t =>
        let j := N - 1 - t
        (Function.update s.1 (j - 2) (s.1 (j - 2) + ((j : K) / ((j : K) - 2)) • s.1 j),
         Function.update s.2 (j - 1) ((2 * (j : K)) • s.1 j)))
      (c, fun _ => 0)

theorem chebderRun_sum (c : ℕ → V) (N t : ℕ) (ht : t ≤ N - 3) (hN : 3 ≤ N) (x : K) :
    ∑ j ∈ range (N - t), Basis.cheb.dfn j x • (chebderRun (K := K) c N t).1 j +
      ∑ j ∈ Ico (N - 1 - t) (N - 1), chebT j x • (chebderRun (K := K) c N t).2 j =
    ∑ j ∈ range N, Basis.cheb.dfn j x • c j := by
  induction t with
  | zero => simp [chebderRun]
  | succ t ih =>
    rw [← ih (by omega)]
    have hs : chebderRun (K := K) c N (t + 1) =
        (Function.update (chebderRun (K := K) c N t).1 (N - 1 - t - 2) ((chebderRun (K := K) c N t).1 (N - 1 - t - 2) +
          (((N - 1 - t : ℕ) : K) / (((N - 1 - t : ℕ) : K) - 2)) • (chebderRun (K := K) c N t).1 (N - 1 - t)),
         Function.update (chebderRun (K := K) c N t).2 (N - 1 - t - 1)
          ((2 * ((N - 1 - t : ℕ) : K)) • (chebderRun (K := K) c N t).1 (N - 1 - t))) := by
      unfold chebderRun
      rw [List.range_succ, List.foldl_append, List.foldl_cons, List.foldl_nil]
    obtain ⟨s, hs1, hs2⟩ := (⟨_, rfl, rfl⟩ : ∃ s, (chebderRun (K := K) c N t) = s ∧ (chebderRun (K := K) c N t) = s)
    rw [hs, hs1]
    obtain ⟨q, hq⟩ : ∃ q, N - 1 - t = q + 3 := ⟨N - 1 - t - 3, by omega⟩
    have e1 : N - (t + 1) = q + 3 := by omega
    have e2 : N - t = q + 3 + 1 := by omega
    have e3 : N - 1 - (t + 1) = q + 2 := by omega
    simp only [hq, e1, e2, e3, show q + 3 - 2 = q + 1 by omega, show q + 3 - 1 = q + 2 by omega]
    rw [Finset.sum_range_succ _ (q + 3), Finset.sum_eq_sum_Ico_succ_bot (show q + 2 < N - 1 by omega), Function.update_self]
    have h1 : ∑ j ∈ range (q + 3), Basis.cheb.dfn j x • Function.update s.1 (q + 1) (s.1 (q + 1) +
        (((q + 3 : ℕ) : K) / (((q + 3 : ℕ) : K) - 2)) • s.1 (q + 3)) j =
        ∑ j ∈ range (q + 3), Basis.cheb.dfn j x • s.1 j +
          Basis.cheb.dfn (q + 1) x • (((q + 3 : ℕ) : K) / (((q + 3 : ℕ) : K) - 2)) • s.1 (q + 3) := by
      have hsplit : ∀ j, Function.update s.1 (q + 1) (s.1 (q + 1) +
        (((q + 3 : ℕ) : K) / (((q + 3 : ℕ) : K) - 2)) • s.1 (q + 3)) j = s.1 j +
          if j = q + 1 then (((q + 3 : ℕ) : K) / (((q + 3 : ℕ) : K) - 2)) • s.1 (q + 3) else 0 := by
        intro j
        by_cases hj : j = q + 1
        · subst hj; simp
        · simp [hj]
      simp only [hsplit, smul_add, Finset.sum_add_distrib]
      congr 1
      rw [Finset.sum_eq_single (q + 1)]
      · simp
      · intro b _ hb; simp [hb]
      · intro h; exact absurd (mem_range.2 (by omega)) h
    have h2 : ∑ j ∈ Ico (q + 2 + 1) (N - 1), chebT j x • Function.update s.2 (q + 2) ((2 * ((q + 3 : ℕ) : K)) • s.1 (q + 3)) j =
        ∑ j ∈ Ico (q + 3) (N - 1), chebT j x • s.2 j := by
      apply Finset.sum_congr rfl
      intro j hj
      have := Finset.mem_Ico.1 hj
      rw [Function.update_of_ne (by omega)]
    rw [h1, h2, dfn_cheb q x]
    push_cast
    rw [show (q : K) + 3 - 2 = q + 1 by ring]
    simp only [smul_smul, add_smul]
    rw [show (2 * ((q : K) + 3) * chebT (q + 2) x) = chebT (q + 2) x * (2 * (q + 3)) by ring,
      show (((q : K) + 3) / (q + 1) * Basis.cheb.dfn (q + 1) x) = Basis.cheb.dfn (q + 1) x * ((q + 3) / (q + 1)) by ring]
    abel

theorem chebder1D_sum (c : ℕ → V) (N : ℕ) (hN : 0 < N) (x : K) :
    ∑ j ∈ range (chebder1D (K := K) c N).2, chebT j x • (chebder1D (K := K) c N).1 j =
      ∑ j ∈ range N, Basis.cheb.dfn j x • c j := by
  by_cases h1 : N ≤ 1
  · have : N = 1 := by omega
    subst this
    simp [dfn_cheb_zero, chebder1D]
  by_cases h2 : N = 2
  · subst h2
    simp [chebder1D, Finset.sum_range_succ, dfn_cheb_zero, dfn_cheb_one]
  · have h := chebderRun_sum (K := K) c N (N - 3) le_rfl (by omega) x
    have hc : chebder1D (K := K) c N = (Function.update
        (Function.update (chebderRun (K := K) c N (N - 3)).2 1 ((4 : K) • (chebderRun (K := K) c N (N - 3)).1 2)) 0
        ((chebderRun (K := K) c N (N - 3)).1 1), N - 1) := by
      unfold chebder1D
      simp only [if_neg h1, if_pos (show N - 1 > 1 by omega)]
      rfl
    rw [hc, ← h]
    dsimp only
    set s := chebderRun (K := K) c N (N - 3)
    rw [show N - (N - 3) = 3 by omega, show N - 1 - (N - 3) = 2 by omega,
      Finset.range_eq_Ico, Finset.sum_eq_sum_Ico_succ_bot (show 0 < N - 1 by omega),
      Finset.sum_eq_sum_Ico_succ_bot (show 0 + 1 < N - 1 by omega)]
    simp only [zero_add, Function.update_self, chebT_zero, chebT_one, one_smul,
      Function.update_of_ne (show (1 : ℕ) ≠ 0 by omega)]
    have h3 : ∑ j ∈ Ico (1 + 1) (N - 1), chebT j x • Function.update (Function.update s.2 1 ((4 : K) • s.1 2)) 0 (s.1 1) j =
        ∑ j ∈ Ico 2 (N - 1), chebT j x • s.2 j := by
      apply Finset.sum_congr rfl
      intro j hj
      have := Finset.mem_Ico.1 hj
      rw [Function.update_of_ne (by omega), Function.update_of_ne (by omega)]
    rw [h3]
    simp only [Finset.sum_range_succ, Finset.sum_range_zero, dfn_cheb_zero, dfn_cheb_one, dfn_cheb_two, zero_smul, one_smul,
      zero_add, smul_smul]
    rw [mul_comm x 4]
    abel

/-- One row of numpy's derivative, in either basis. -/
theorem npDer_rows (B : Basis) (M : Tensor n K) (i : Fin n) (hN : 0 < M.shape i) (w : Fin n → ℕ → K) (x : K) :
    (npDer B M i).evalG (Function.update w i fun j => B.fn j x) = M.evalG (Function.update w i fun j => B.dfn j x) := by
  let L : ((Fin n → ℕ) → K) →ₗ[K] K :=
    { toFun := fun v => ∑ k ∈ restIdx M.shape i, v k * ∏ l ∈ univ.erase i, w l (k l)
      map_add' := fun a b => by rw [← Finset.sum_add_distrib]; exact Finset.sum_congr rfl fun k _ => by simp; ring
      map_smul' := fun c a => by
        simp only [RingHom.id_apply, smul_eq_mul, Finset.mul_sum]
        exact Finset.sum_congr rfl fun k _ => by simp; ring }
  have hL : ∀ (y : ℕ → K) (v : (Fin n → ℕ) → K), ∑ k ∈ restIdx M.shape i, v k * ∏ l ∈ univ.erase i,
      Function.update w i y l (k l) = L v := by
    intro y v
    change _ = ∑ k ∈ restIdx M.shape i, v k * ∏ l ∈ univ.erase i, w l (k l)
    apply Finset.sum_congr rfl
    intro k _
    congr 1
    exact Finset.prod_congr rfl fun l hl => by rw [Function.update_of_ne (Finset.ne_of_mem_erase hl)]
  have hgen : ∀ r : (ℕ → (Fin n → ℕ) → K) × ℕ, (M.ofRows i r).evalG (Function.update w i fun j => B.fn j x) =
      L (∑ j ∈ range r.2, B.fn j x • r.1 j) := by
    intro r
    rw [evalG_axis _ i, map_sum]
    have hsh : (M.ofRows i r).shape i = r.2 := by simp [Tensor.ofRows]
    have hre : restIdx (M.ofRows i r).shape i = restIdx M.shape i := restIdx_update M.shape i r.2
    rw [hsh, hre]
    apply Finset.sum_congr rfl
    intro j _
    rw [Function.update_self, hL, map_smul, smul_eq_mul]
    congr 1
    change ∑ k ∈ restIdx M.shape i, _ * _ = ∑ k ∈ restIdx M.shape i, _ * _
    apply Finset.sum_congr rfl
    intro k hk
    congr 1
    unfold Tensor.rows Tensor.ofRows
    simp only [Function.update_self, Function.update_idem]
    rw [restIdx_zero hk]
  have hM : M.evalG (Function.update w i fun j => B.dfn j x) = L (∑ j ∈ range (M.shape i), B.dfn j x • M.rows i j) := by
    rw [evalG_axis _ i, map_sum]
    apply Finset.sum_congr rfl
    intro j _
    rw [Function.update_self, hL, map_smul, smul_eq_mul]
  unfold npDer
  rw [hM, hgen]
  cases B
  · dsimp only
    have := polyder1D_sum (K := K) (M.rows i) (M.shape i) hN x
    rw [← this]; rfl
  · dsimp only
    have := chebder1D_sum (K := K) (M.rows i) (M.shape i) hN x
    rw [← this]; rfl

end YRoots
