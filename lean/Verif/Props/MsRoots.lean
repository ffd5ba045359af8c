import Verif.Proofs.MsRoots

/-!
# C80: the roots from the Möller-Stetter matrices
-/

namespace YRoots.Legacy

open Matrix Finset

variable {dim n : ℕ}

/-! ### Specification -/

/-- What is assumed of scipy, in exact arithmetic: `schur` returns a unitary matrix that makes the argument triangular, `eig` the roots of the
characteristic polynomial, in any order. -/
structure MsLib.Correct (L : MsLib) : Prop where
  schur_unitary : ∀ {n : ℕ} (A : Matrix (Fin n) (Fin n) ℂ), (L.schurU A)ᴴ * L.schurU A = 1
  schur_upper : ∀ {n : ℕ} (A : Matrix (Fin n) (Fin n) ℂ) (i j : Fin n), j < i → ((L.schurU A)ᴴ * A * L.schurU A) i j = 0
  eig : ∀ {n : ℕ} (A : Matrix (Fin n) (Fin n) ℂ), (univ.val.map (L.eigvals A) : Multiset ℂ) = A.charpoly.roots

/-! ### The properties -/

/-- **C80**, `sort_eigs`: the positions returned are those of all eigenvalues, once each. -/
theorem C80_sort_perm {argsort : List ℕ → List ℕ} (hsort : IsArgsort argsort) (eigs : List ℂ) (n : ℕ) (diag : ℕ → ℂ) (h : eigs.length = n) :
    (sortEigs argsort eigs n diag).Perm (List.range n) := by
  have h1 := matchLoop_perm diag eigs (List.range n) (by simpa using h)
  have h2 := (hsort (matchLoop diag eigs (List.range n))).1
  rw [h1.length_eq, List.length_range] at h2
  exact h2

example : (sortEigs argsortIns [2, Complex.I, 1] 3 fun i => if i = 0 then Complex.I else i).Perm [0, 1, 2] :=
  C80_sort_perm argsortIns_ok _ 3 _ rfl

/-- **C80**, `sort_eigs`: eigenvalues that are the entries of the diagonal, in another order, are brought into the order of the diagonal (no matter whether
there are repeated ones). -/
theorem C80_sort {argsort : List ℕ → List ℕ} (hsort : IsArgsort argsort) (eigs : List ℂ) (n : ℕ) (diag : ℕ → ℂ)
    (h : eigs.Perm ((List.range n).map diag)) :
    (sortEigs argsort eigs n diag).map (fun j => eigs.getD j 0) = (List.range n).map diag := by
  have hl : eigs.length = n := by simpa using h.length_eq
  have hp := matchLoop_perm diag eigs (List.range n) (by simpa using hl)
  have hf := matchLoop_exact diag eigs (List.range n) h
  set p := matchLoop diag eigs (List.range n) with hpdef
  rw [← argsort_inverse hsort n p hp, List.map_map, sortEigs, ← hpdef]
  refine List.map_congr_left fun j hj => ?_
  have hj' : j < p.length := List.mem_range.1 ((hsort p).1.mem_iff.1 hj)
  exact (forall₂_getD hf 0 0 j hj').symm

/-- **C80**, `sort_eigs`, for perturbed eigenvalues: if each entry of the diagonal has one eigenvalue closer than `ε`, and different entries have at least the
distance `2 ε`, then the eigenvalues are sorted to within `ε` of the diagonal. -/
theorem C80_sort_close {argsort : List ℕ → List ℕ} (hsort : IsArgsort argsort) (eigs : List ℂ) (n : ℕ) (diag : ℕ → ℂ) (ε : ℝ) (p : List ℕ)
    (hp : p.Perm (List.range n)) (hc : List.Forall₂ (fun e i => ‖diag i - e‖ < ε) eigs p)
    (hs : ∀ i < n, ∀ j < n, i ≠ j → 2 * ε ≤ ‖diag i - diag j‖) :
    List.Forall₂ (fun e i => ‖diag i - e‖ < ε) ((sortEigs argsort eigs n diag).map fun j => eigs.getD j 0) (List.range n) := by
  have h1 := matchLoop_close diag ε eigs p (List.range n) hp hc fun i hi j hj => hs i (List.mem_range.1 hi) j (List.mem_range.1 hj)
  rw [sortEigs, h1, ← argsort_inverse hsort n p hp, List.forall₂_map_left_iff, List.forall₂_map_right_iff, List.forall₂_same]
  intro j hj
  exact forall₂_getD hc 0 0 j (List.mem_range.1 ((hsort p).1.mem_iff.1 hj))

theorem sortedEigs_eq {L : MsLib} (hL : L.Correct) {argsort : List ℕ → List ℕ} (hsort : IsArgsort argsort) (U B : Matrix (Fin n) (Fin n) ℂ)
    (hc : (Uᴴ * B * U).charpoly = B.charpoly) (hT : ∀ r s, s < r → (Uᴴ * B * U) r s = 0) :
    sortedEigs L argsort U B = (List.range n).map (natDiag (Uᴴ * B * U)) := by
  have h1 : (List.ofFn (L.eigvals B)).Perm ((List.range n).map (natDiag (Uᴴ * B * U))) := by
    have e : (List.range n).map (natDiag (Uᴴ * B * U)) = List.ofFn fun i => (Uᴴ * B * U) i i := by
      refine List.ext_getElem (by simp) fun i h1 h2 => ?_
      have hi : i < n := by simpa using h1
      rw [List.getElem_map, List.getElem_range, List.getElem_ofFn, natDiag, dif_pos hi]
    rw [e, ← Multiset.coe_eq_coe, ← Fin.univ_val_map, ← Fin.univ_val_map, hL.eig, ← roots_triangular _ hT, hc]
  exact C80_sort hsort _ n _ h1

/-- **C80**, `msroots`.  If the matrices `M_1, ..., M_dim` have `n` common left eigenvectors, with eigenvalues `z_r = (z_r1, ..., z_rdim)`, and the fixed
random combination of the rotated coordinates is different for different `r`, then the points returned are the `z_r`, in some order. -/
theorem C80_msroots {L : MsLib} (hL : L.Correct) {argsort : List ℕ → List ℕ} (hsort : IsArgsort argsort) (Q : Matrix (Fin dim) (Fin dim) ℝ) (hQ : Qᵀ * Q = 1)
    (cs : Fin dim → ℝ) (M : Fin dim → Matrix (Fin n) (Fin n) ℝ) (z : Fin n → Fin dim → ℂ) (u : Fin n → Fin n → ℂ) (h0 : ∀ r, u r ≠ 0)
    (hu : ∀ r i s, ∑ t, u r t * (M i t s : ℂ) = z r i * u r s)
    (hgen : Function.Injective fun r => ∑ i, (cs i : ℂ) * ∑ j, (Q i j : ℂ) * z r j) :
    (msroots L argsort Q cs M).Perm (List.ofFn z) := by
  set w : Fin n → Fin dim → ℂ := fun r i => ∑ j, (Q i j : ℂ) * z r j with hw
  set μ : Fin n → ℂ := fun r => ∑ i, (cs i : ℂ) * w r i with hμ
  have hB : ∀ r i, u r ᵥ* rotated Q M i = w r i • u r := by
    intro r i
    funext s
    simp only [vecMul, dotProduct, rotated, map_apply, Matrix.sum_apply, Matrix.smul_apply, smul_eq_mul, Pi.smul_apply, hw]
    push_cast
    simp only [Finset.mul_sum, Finset.sum_mul]
    rw [Finset.sum_comm]
    refine Finset.sum_congr rfl fun j _ => ?_
    rw [mul_assoc, ← hu r j s, Finset.mul_sum]
    exact Finset.sum_congr rfl fun t _ => by ring
  have hA : ∀ r, u r ᵥ* (∑ i, (cs i : ℂ) • rotated Q M i) = μ r • u r := by
    intro r
    rw [vecMul_sum, hμ, Finset.sum_smul]
    refine Finset.sum_congr rfl fun i _ => ?_
    rw [vecMul_smul, hB, smul_smul]
  obtain ⟨σ, hσ⟩ := joint_diag _ (rotated Q M) u μ w hgen h0 hA hB _ (hL.schur_unitary _) (hL.schur_upper _)
  have hQ' : ∀ r d, ∑ i, (Q i d : ℂ) * w r i = z r d := by
    intro r d
    simp only [hw, Finset.mul_sum]
    rw [Finset.sum_comm]
    have e : ∀ j, ∑ i, (Q i d : ℂ) * ((Q i j : ℂ) * z r j) = (((Qᵀ * Q) d j : ℝ) : ℂ) * z r j := by
      intro j
      rw [mul_apply]
      push_cast
      rw [Finset.sum_mul]
      exact Finset.sum_congr rfl fun i _ => by rw [transpose_apply]; ring
    rw [Finset.sum_congr rfl fun j _ => e j, hQ, Finset.sum_eq_single d]
    · simp
    · intro j _ hj
      rw [one_apply_ne (Ne.symm hj)]; simp
    · simp
  have hres : msroots L argsort Q cs M = List.ofFn (z ∘ σ) := by
    refine List.ext_getElem (by simp [msroots]) fun r h1 h2 => ?_
    have hr : r < n := by simpa [msroots] using h1
    simp only [msroots, List.getElem_map, List.getElem_range, List.getElem_ofFn, Function.comp_apply]
    funext d
    rw [← hQ']
    refine Finset.sum_congr rfl fun i _ => ?_
    congr 1
    rw [sortedEigs_eq hL hsort _ _ (hσ i).1 (hσ i).2.1, List.getD_eq_getElem _ _ (by simpa using hr), List.getElem_map, List.getElem_range, natDiag,
      dif_pos hr, (hσ i).2.2]
  rw [hres]
  exact Equiv.Perm.ofFn_comp_perm σ z

end YRoots.Legacy
