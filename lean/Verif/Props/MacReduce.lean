import Verif.Proofs.MacReduce
import Mathlib.Analysis.Matrix.Spectrum

/-!
# C78: the reduction of the Macaulay matrix
-/

namespace YRoots.Legacy

open Matrix Finset

/-! ### Specification -/

/-- What is assumed of numpy and scipy, in exact arithmetic.  A matrix whose condition number is finite has trivial kernel; `qr` is an orthogonal
factorisation; the columns of `svdV` are right singular vectors, by decreasing singular value; pivoting puts the column that has the largest norm
below row `i` at place `i`; `solve_triangular` solves. -/
structure MacLib.Correct (L : MacLib) : Prop where
  cond : ∀ {p q : ℕ} (A : Matrix (Fin p) (Fin q) ℝ) (t : ℝ), L.condExceeds A t = false → q ≤ p → ∀ x, A *ᵥ x = 0 → x = 0
  qr_orth : ∀ {p q : ℕ} (A : Matrix (Fin p) (Fin q) ℝ), (L.qrQ A)ᵀ * L.qrQ A = 1
  qr_factor : ∀ {p q : ℕ} (A : Matrix (Fin p) (Fin q) ℝ), L.qrQ A * L.qrR A = A
  qr_upper : ∀ {p q : ℕ} (A : Matrix (Fin p) (Fin q) ℝ) (i : Fin p) (j : Fin q), j.1 < i.1 → L.qrR A i j = 0
  svd_orth : ∀ {p q : ℕ} (A : Matrix (Fin p) (Fin q) ℝ), (L.svdV A)ᵀ * L.svdV A = 1
  svd_diag : ∀ {p q : ℕ} (A : Matrix (Fin p) (Fin q) ℝ), ∃ s : Fin q → ℝ, Antitone s ∧ (∀ j, 0 ≤ s j) ∧
    (A * L.svdV A)ᵀ * (A * L.svdV A) = diagonal s
  qrp_orth : ∀ {p q : ℕ} (A : Matrix (Fin p) (Fin q) ℝ), (L.qrpQ A)ᵀ * L.qrpQ A = 1
  qrp_factor : ∀ {p q : ℕ} (A : Matrix (Fin p) (Fin q) ℝ), L.qrpQ A * L.qrpR A = A.submatrix id (L.qrpP A)
  qrp_upper : ∀ {p q : ℕ} (A : Matrix (Fin p) (Fin q) ℝ) (i : Fin p) (j : Fin q), j.1 < i.1 → L.qrpR A i j = 0
  qrp_pivot : ∀ {p q : ℕ} (A : Matrix (Fin p) (Fin q) ℝ) (i : Fin p) (i' j : Fin q), i.1 = i'.1 → i' ≤ j →
    ∑ a ∈ univ.filter (i ≤ ·), L.qrpR A a j ^ 2 ≤ L.qrpR A i i' ^ 2
  solve : ∀ {p q : ℕ} (R : Matrix (Fin p) (Fin p) ℝ) (B : Matrix (Fin p) (Fin q) ℝ), (∀ i j, j < i → R i j = 0) → (∀ i, R i i ≠ 0) →
    ∃ X, L.solveTri R B = some X ∧ R * X = B

/-- `v` is a null vector of the matrix. -/
def NullVec {p q : ℕ} (M : Matrix (Fin p) (Fin q) ℝ) (v : Fin q → ℂ) : Prop := ∀ i, ∑ j, (M i j : ℂ) * v j = 0

variable {c b k n l : ℕ}

/-! ### Helper lemmas -/

theorem NullVec.mulVec {p q : ℕ} {M : Matrix (Fin p) (Fin q) ℝ} {v : Fin q → ℂ} (h : NullVec M v) : cm M *ᵥ v = 0 := funext h

section
variable {L : MacLib} (hL : L.Correct)
include hL

/-- The first `c` rows of the triangular factor. -/
theorem topR (M : Matrix (Fin (c + b)) (Fin (c + l)) ℝ) {t : ℝ} (hc : L.condExceeds (M.submatrix id (Fin.castAdd l)) t = false) :
    let R := (L.qrR (M.submatrix id (Fin.castAdd l))).submatrix (Fin.castAdd b) id
    (∀ i j, j < i → R i j = 0) ∧ (∀ i, R i i ≠ 0) := by
  intro R
  have hu : ∀ i j, j < i → R i j = 0 := fun i j h => hL.qr_upper _ _ _ h
  refine ⟨hu, diag_ne_zero R hu fun x hx => hL.cond _ t hc (by omega) x ?_⟩
  rw [← hL.qr_factor (M.submatrix id (Fin.castAdd l)), ← mulVec_mulVec]
  have : L.qrR (M.submatrix id (Fin.castAdd l)) *ᵥ x = 0 := by
    funext i
    refine Fin.addCases (fun i => ?_) (fun i => ?_) i
    · exact congrFun hx i
    · rw [mulVec, dotProduct, Pi.zero_apply]
      refine Finset.sum_eq_zero fun j _ => ?_
      rw [hL.qr_upper _ _ _ (by simp; omega), zero_mul]
  rw [this, mulVec_zero]

/-- A null vector after the first factorisation. -/
theorem nullVec_qr (M : Matrix (Fin (c + b)) (Fin (c + l)) ℝ) (v : Fin (c + l) → ℂ) (hv : NullVec M v) :
    cm (L.qrR (M.submatrix id (Fin.castAdd l))) *ᵥ (v ∘ Fin.castAdd l) + cm (L.lower M) *ᵥ (v ∘ Fin.natAdd c) = 0 := by
  set H := M.submatrix id (Fin.castAdd l) with hH
  have hR : L.qrR H = (L.qrQ H)ᵀ * H := by
    have h1 : (L.qrQ H)ᵀ * (L.qrQ H * L.qrR H) = L.qrR H := by rw [← Matrix.mul_assoc, hL.qr_orth, Matrix.one_mul]
    rw [hL.qr_factor H] at h1
    exact h1.symm
  have h0 : cm H *ᵥ (v ∘ Fin.castAdd l) + cm (M.submatrix id (Fin.natAdd c)) *ᵥ (v ∘ Fin.natAdd c) = 0 := by
    funext i
    have := hv i
    rw [Fin.sum_univ_add] at this
    simpa [mulVec, dotProduct, hH] using this
  rw [hR, MacLib.lower, cm_mul, cm_mul, ← mulVec_mulVec, ← mulVec_mulVec, ← mulVec_add, h0, mulVec_zero]

theorem nullVec_top (M : Matrix (Fin (c + b)) (Fin (c + l)) ℝ) (v : Fin (c + l) → ℂ) (hv : NullVec M v) :
    cm ((L.qrR (M.submatrix id (Fin.castAdd l))).submatrix (Fin.castAdd b) id) *ᵥ (v ∘ Fin.castAdd l) +
      cm ((L.lower M).submatrix (Fin.castAdd b) id) *ᵥ (v ∘ Fin.natAdd c) = 0 := by
  funext i
  exact congrFun (nullVec_qr hL M v hv) (Fin.castAdd b i)

theorem nullVec_bottom (M : Matrix (Fin (c + b)) (Fin (c + l)) ℝ) (v : Fin (c + l) → ℂ) (hv : NullVec M v) :
    cm ((L.lower M).submatrix (Fin.natAdd c) id) *ᵥ (v ∘ Fin.natAdd c) = 0 := by
  funext i
  have h := congrFun (nullVec_qr hL M v hv) (Fin.natAdd c i)
  rw [Pi.add_apply] at h
  have h0 : (cm (L.qrR (M.submatrix id (Fin.castAdd l))) *ᵥ (v ∘ Fin.castAdd l)) (Fin.natAdd c i) = 0 := by
    rw [mulVec, dotProduct]
    refine Finset.sum_eq_zero fun j _ => ?_
    rw [cm_apply, hL.qr_upper _ _ _ (by simp; omega), Complex.ofReal_zero, zero_mul]
  rw [h0, zero_add] at h
  exact h

/-- The rank of the lower right block. -/
theorem rank_bottom (M : Matrix (Fin (c + b)) (Fin (c + l)) ℝ) : M.rank ≤ c + ((L.lower M).submatrix (Fin.natAdd c) id).rank := by
  set H := M.submatrix id (Fin.castAdd l) with hH
  have hQ := hL.qr_orth H
  have h1 : ((L.qrQ H)ᵀ * M).rank = M.rank :=
    rank_mul_eq_right_of_isUnit_det _ _ ((isUnit_iff_isUnit_det _).1 (IsUnit.of_mul_eq_one _ hQ))
  have h2 := rank_rows_le ((L.qrQ H)ᵀ * M)
  have h3 : (((L.qrQ H)ᵀ * M).submatrix (Fin.natAdd c) id) = (L.lower M).submatrix (Fin.natAdd c) id *
      (Matrix.of fun (j : Fin l) (t : Fin (c + l)) => if Fin.natAdd c j = t then (1 : ℝ) else 0) := by
    have hR : (L.qrQ H)ᵀ * H = L.qrR H := by
      have h1 : (L.qrQ H)ᵀ * (L.qrQ H * L.qrR H) = L.qrR H := by rw [← Matrix.mul_assoc, hL.qr_orth, Matrix.one_mul]
      rwa [hL.qr_factor H] at h1
    ext i j
    rw [mul_apply]
    refine Fin.addCases (fun j => ?_) (fun j => ?_) j
    · rw [Finset.sum_eq_zero]
      · have h4 := congrFun (congrFun hR (Fin.natAdd c i)) j
        rw [hL.qr_upper _ _ _ (by simp; omega)] at h4
        rw [← h4]
        rfl
      · intro t _
        rw [of_apply, if_neg, mul_zero]
        intro h
        have := congrArg Fin.val h
        simp at this
        have := j.2
        omega
    · rw [Finset.sum_eq_single j]
      · simp [MacLib.lower, mul_apply, hH]
      · intro t _ ht
        rw [of_apply, if_neg (fun h => ht (Fin.natAdd_injective _ _ h)), mul_zero]
      · simp
  rw [h3] at h2
  have h4 := rank_mul_le_left ((L.lower M).submatrix (Fin.natAdd c) id)
    (Matrix.of fun (j : Fin l) (t : Fin (c + l)) => if Fin.natAdd c j = t then (1 : ℝ) else 0)
  omega

theorem colQ_orth (meth : ColMethod) (B : Matrix (Fin b) (Fin (k + n)) ℝ) : (L.colQ meth B)ᵀ * L.colQ meth B = 1 := by
  cases meth
  · exact hL.svd_orth B
  · exact hL.qrp_orth Bᵀ

theorem colQ_coords (meth : ColMethod) (B : Matrix (Fin b) (Fin (k + n)) ℝ) (hr : k ≤ B.rank) (w : Fin (k + n) → ℂ) (hw : cm B *ᵥ w = 0) (j : Fin k) :
    (cm (L.colQ meth B)ᵀ *ᵥ w) (Fin.castAdd n j) = 0 := by
  cases meth
  · obtain ⟨s, h1, h2, h3⟩ := hL.svd_diag B
    exact svd_coords B (L.svdV B) (hL.svd_orth B) s h1 h2 h3 hr w hw _ (by simp)
  · exact qrp_coords B (L.qrpQ Bᵀ) (L.qrpR Bᵀ) (L.qrpP Bᵀ) (hL.qrp_orth Bᵀ) (hL.qrp_factor Bᵀ) (hL.qrp_upper Bᵀ) (hL.qrp_pivot Bᵀ) hr w hw _ (by simp)

theorem tvb_upper (M : Matrix (Fin (c + b)) (Fin (c + l)) ℝ) : ∀ i j, j.1 < i.1 → tvbMatrix L M i j = 0 := by
  intro i j hij
  simp only [tvbMatrix]
  revert hij
  refine Fin.addCases (fun j => ?_) (fun j => ?_) j
  · intro hij
    rw [Fin.addCases_left]
    exact hL.qr_upper _ _ _ (by simpa using hij)
  · intro hij
    rw [Fin.addCases_right]
    revert hij
    refine Fin.addCases (fun i => ?_) (fun i => ?_) i
    · intro hij
      have := i.2
      simp at hij
      omega
    · intro hij
      rw [Fin.addCases_right]
      exact hL.qrp_upper _ _ _ (by simpa using hij)

/-- The primary submatrix is regular if the rank is large enough. -/
theorem tvb_diag (M : Matrix (Fin (c + b)) (Fin (c + l)) ℝ) {t : ℝ} (hc : L.condExceeds (M.submatrix id (Fin.castAdd l)) t = false) (hr : c + k ≤ M.rank)
    (i : Fin (c + b)) (j : Fin (c + l)) (hij : i.1 = j.1) (hi : i.1 < c + k) : tvbMatrix L M i j ≠ 0 := by
  set B := (L.lower M).submatrix (Fin.natAdd c) id with hB
  have hrB : k ≤ (L.qrpR B).rank := by
    have h1 := rank_bottom hL M
    have h2 : (L.qrpQ B * L.qrpR B).rank = (L.qrpR B).rank :=
      rank_mul_eq_right_of_isUnit_det _ _ ((isUnit_iff_isUnit_det _).1 (IsUnit.of_mul_eq_one _ (mul_eq_one_comm.1 (hL.qrp_orth B))))
    rw [hL.qrp_factor] at h2
    have h3 : (B.submatrix id (L.qrpP B)).rank = B.rank := rank_submatrix B (Equiv.refl _) (L.qrpP B)
    rw [← hB] at h1
    omega
  revert hij
  refine Fin.addCases (fun j => ?_) (fun j => ?_) j
  · intro hij
    have hd := (topR hL M hc).2 j
    have e : i = Fin.castAdd b j := Fin.ext (by simpa using hij)
    rw [e]
    simpa [tvbMatrix] using hd
  · intro hij
    obtain ⟨i', rfl⟩ : ∃ i', i = Fin.natAdd c i' := ⟨⟨j.1, by have := i.2; simp at hij; omega⟩, Fin.ext (by simpa using hij)⟩
    obtain ⟨h1, h2⟩ := pivot_diag (L.qrpR B) (hL.qrp_upper B) (hL.qrp_pivot B) hrB i' (by simpa using hi)
    have e : (⟨i'.1, h1⟩ : Fin l) = j := Fin.ext (by simpa using hij)
    rw [e] at h2
    simpa [tvbMatrix] using h2

end

/-! ### The properties -/

/-- **C78**, methods `svd` and `qrt`.  Let the rank of the matrix be at least `bezout_rank = c + k` (fewer would mean
infinitely many solutions, of which the code warns).  The columns of the returned `Q` are orthonormal, and every null vector `v` of the matrix, real
or complex, is determined by the `n` numbers `u = Qᵀ v_low`: its lower part is `Q u` and its upper part `-E u`. -/
theorem C78_cols {L : MacLib} (hL : L.Correct) (meth : ColMethod) (t : ℝ) (M : Matrix (Fin (c + b)) (Fin (c + (k + n))) ℝ) (hr : c + k ≤ M.rank)
    (E : Matrix (Fin c) (Fin n) ℝ) (Q : Matrix (Fin (k + n)) (Fin n) ℝ) (h : reduceCols L meth t M = .ok (E, Q)) :
    Qᵀ * Q = 1 ∧ ∀ v, NullVec M v → ∀ u : Fin n → ℂ, (∀ r, u r = ∑ j, (Q j r : ℂ) * v (Fin.natAdd c j)) →
      (∀ j, v (Fin.natAdd c j) = ∑ r, (Q j r : ℂ) * u r) ∧ ∀ i, v (Fin.castAdd (k + n) i) = -∑ r, (E i r : ℂ) * u r := by
  rw [reduceCols] at h
  by_cases hc : L.condExceeds (M.submatrix id (Fin.castAdd (k + n))) t = true
  · simp only [hc, if_true] at h; cases h
  rw [Bool.not_eq_true] at hc
  simp only [hc, Bool.false_eq_true, if_false] at h
  by_cases hb : b = 0
  · simp only [hb, if_true] at h; cases h
  rw [if_neg hb] at h
  obtain ⟨hu, hd⟩ := topR hL M hc
  set B := (L.lower M).submatrix (Fin.natAdd c) id with hB
  set T := (L.lower M).submatrix (Fin.castAdd b) id with hT
  set V := L.colQ meth B with hV
  set R := (L.qrR (M.submatrix id (Fin.castAdd (k + n)))).submatrix (Fin.castAdd b) id with hR
  obtain ⟨X, hX, hRX⟩ := hL.solve R ((T * V).submatrix id (Fin.natAdd k)) hu hd
  rw [hX] at h
  simp only [Except.ok.injEq, Prod.mk.injEq] at h
  obtain ⟨rfl, rfl⟩ := h
  have hVV : Vᵀ * V = 1 := colQ_orth hL meth B
  have hVV' : V * Vᵀ = 1 := mul_eq_one_comm.1 hVV
  refine ⟨?_, fun v hv u hu' => ?_⟩
  · ext i j
    have := congrFun (congrFun hVV (Fin.natAdd k i)) (Fin.natAdd k j)
    rw [mul_apply] at this ⊢
    simpa [one_apply] using this
  · set w := v ∘ Fin.natAdd c with hw
    have hrank : k ≤ B.rank := by have := rank_bottom hL M; rw [← hB] at this; omega
    have h1 := colQ_coords hL meth B hrank w (nullVec_bottom hL M v hv)
    have h2 : ∀ r, (cm Vᵀ *ᵥ w) (Fin.natAdd k r) = u r := fun r => (hu' r).symm
    have h3 : cm V *ᵥ (cm Vᵀ *ᵥ w) = w := by
      rw [mulVec_mulVec, ← cm_mul, hVV', cm, Matrix.map_one _ (by simp) (by simp), one_mulVec]
    have hsplit : ∀ {p : ℕ} (A : Matrix (Fin p) (Fin (k + n)) ℝ) (i : Fin p), (cm A *ᵥ (cm Vᵀ *ᵥ w)) i = ∑ r, (A i (Fin.natAdd k r) : ℂ) * u r := by
      intro p A i
      rw [mulVec, dotProduct, Fin.sum_univ_add, Finset.sum_eq_zero, zero_add]
      · exact Finset.sum_congr rfl fun r _ => by rw [h2, cm_apply]
      · intro j _
        rw [h1, mul_zero]
    refine ⟨fun j => ?_, ?_⟩
    · have := congrFun h3 j
      rw [hsplit] at this
      exact this.symm
    · have h4 := nullVec_top hL M v hv
      rw [← hT, ← hR, ← hw, ← h3, mulVec_mulVec, ← cm_mul] at h4
      have h5 : cm R *ᵥ (v ∘ Fin.castAdd (k + n) + cm X *ᵥ u) = 0 := by
        rw [mulVec_add, mulVec_mulVec, ← cm_mul, hRX, ← h4]
        congr 1
        funext i
        rw [hsplit]
        rfl
      have h6 := cm_kernel R hu hd _ h5
      intro i
      exact eq_neg_of_add_eq_zero_left (congrFun h6 i)

/-- If the rank is exactly `bezout_rank`, every choice of the `n` numbers gives a null vector: the quotient has
dimension `bezout_bound`. -/
theorem C78_cols_null {L : MacLib} (hL : L.Correct) (meth : ColMethod) (t : ℝ) (M : Matrix (Fin (c + b)) (Fin (c + (k + n))) ℝ) (hr : M.rank = c + k)
    (E : Matrix (Fin c) (Fin n) ℝ) (Q : Matrix (Fin (k + n)) (Fin n) ℝ) (h : reduceCols L meth t M = .ok (E, Q)) (u : Fin n → ℝ) :
    M *ᵥ (Fin.append (fun i => -∑ r, E i r * u r) fun j => ∑ r, Q j r * u r) = 0 := by
  obtain ⟨-, hv⟩ := C78_cols hL meth t M hr.ge E Q h
  -- the coordinates of a real null vector
  let f : LinearMap.ker M.mulVecLin →ₗ[ℝ] (Fin n → ℝ) :=
    { toFun := fun v r => ∑ j, Q j r * v.1 (Fin.natAdd c j)
      map_add' := fun v w => by ext r; simp [mul_add, Finset.sum_add_distrib]
      map_smul' := fun a v => by ext r; simp [Finset.mul_sum, mul_left_comm] }
  have hf : ∀ v : LinearMap.ker M.mulVecLin, v.1 = Fin.append (fun i => -∑ r, E i r * f v r) fun j => ∑ r, Q j r * f v r := by
    intro v
    have hn : NullVec M fun j => ((v.1 j : ℝ) : ℂ) := by
      intro i
      have h0 : (M *ᵥ v.1) i = 0 := congrFun (LinearMap.mem_ker.1 v.2) i
      rw [mulVec, dotProduct] at h0
      rw [← Complex.ofReal_zero, ← h0]
      push_cast
      rfl
    obtain ⟨h1, h2⟩ := hv _ hn (fun r => ((f v r : ℝ) : ℂ)) (fun r => by
      show ((∑ j, Q j r * v.1 (Fin.natAdd c j) : ℝ) : ℂ) = _
      push_cast
      rfl)
    funext j
    refine Fin.addCases (fun i => ?_) (fun i => ?_) j
    · rw [Fin.append_left]
      have := h2 i
      exact_mod_cast this
    · rw [Fin.append_right]
      have := h1 i
      exact_mod_cast this
  have hinj : Function.Injective f := by
    intro v w hvw
    apply Subtype.ext
    rw [hf v, hf w, hvw]
  have hdim : Module.finrank ℝ (LinearMap.ker M.mulVecLin) = Module.finrank ℝ (Fin n → ℝ) := by
    have h1 := LinearMap.finrank_range_add_finrank_ker M.mulVecLin
    rw [← Matrix.rank, hr] at h1
    simp at h1 ⊢
    omega
  obtain ⟨v, rfl⟩ := (LinearMap.injective_iff_surjective_of_finrank_eq_finrank hdim).1 hinj u
  rw [← hf v]
  exact LinearMap.mem_ker.1 v.2

/-- The reduction succeeds unless the condition number is reported to be too large or there are no more rows than columns of highest
degree; in the last case it raises because the name `Q` has been deleted. -/
theorem C78_cols_total {L : MacLib} (hL : L.Correct) (meth : ColMethod) (t : ℝ) (M : Matrix (Fin (c + b)) (Fin (c + (k + n))) ℝ)
    (hc : L.condExceeds (M.submatrix id (Fin.castAdd (k + n))) t = false) :
    if b = 0 then reduceCols L meth t M = .error .unbound else ∃ r, reduceCols L meth t M = .ok r := by
  simp only [reduceCols, hc, Bool.false_eq_true, if_false]
  by_cases hb : b = 0
  · rw [if_pos hb, if_pos hb]
  · rw [if_neg hb, if_neg hb]
    obtain ⟨hu, hd⟩ := topR hL M hc
    obtain ⟨X, hX, -⟩ := hL.solve _ (((L.lower M).submatrix (Fin.castAdd b) id *
      L.colQ meth ((L.lower M).submatrix (Fin.natAdd c) id)).submatrix id (Fin.natAdd k)) hu hd
    rw [hX]
    exact ⟨_, rfl⟩

/-- The entries of a vector in the order of the permuted columns. -/
def permVec (P : Equiv.Perm (Fin (k + n))) (v : Fin (c + (k + n)) → ℂ) : Fin (c + k + n) → ℂ :=
  fun j => (Fin.addCases (fun i => v (Fin.castAdd (k + n) i)) (fun i => v (Fin.natAdd c (P i))) (Fin.cast (Nat.add_assoc c k n) j) : ℂ)

/-- **C78**, method `tvb`.  For every null vector the entries at the first `c + k` of the permuted columns are `-E` times
the entries at the last `n`. -/
theorem C78_tvb {L : MacLib} (hL : L.Correct) (t : ℝ) (M : Matrix (Fin (c + b)) (Fin (c + (k + n))) ℝ)
    (E : Matrix (Fin (c + k)) (Fin n) ℝ) (P : Equiv.Perm (Fin (k + n))) (h : reduceTvb L t M = .ok (E, P)) (v : Fin (c + (k + n)) → ℂ)
    (hv : NullVec M v) (i : Fin (c + k)) :
    permVec P v (Fin.castAdd n i) = -∑ r, (E i r : ℂ) * permVec P v (Fin.natAdd (c + k) r) := by
  rw [reduceTvb] at h
  by_cases hc : L.condExceeds (M.submatrix id (Fin.castAdd (k + n))) t = true
  · simp only [hc, if_true] at h; cases h
  rw [Bool.not_eq_true] at hc
  simp only [hc, Bool.false_eq_true, if_false] at h
  by_cases hb : b = 0
  · simp only [hb, if_true] at h; cases h
  rw [if_neg hb] at h
  by_cases hk : k ≤ b
  swap
  · rw [dif_neg hk] at h; cases h
  rw [dif_pos hk] at h
  set N := (tvbMatrix L M).submatrix (Fin.castLE (Nat.add_le_add_left hk c)) (Fin.cast (Nat.add_assoc c k n)) with hN
  by_cases hc2 : L.condExceeds (N.submatrix id (Fin.castAdd n)) t = true
  · simp only [hc2, if_true] at h; cases h
  rw [Bool.not_eq_true] at hc2
  simp only [hc2, Bool.false_eq_true, if_false] at h
  have hup := tvb_upper hL M
  have hu : ∀ i j : Fin (c + k), j < i → (N.submatrix id (Fin.castAdd n)) i j = 0 := fun i j hij => hup _ _ (by simpa using hij)
  have hd := diag_ne_zero _ hu (hL.cond _ t hc2 le_rfl)
  obtain ⟨X, hX, hNX⟩ := hL.solve _ (N.submatrix id (Fin.natAdd (c + k))) hu hd
  rw [hX] at h
  simp only [Except.ok.injEq, Prod.mk.injEq] at h
  obtain ⟨rfl, rfl⟩ := h
  set B := (L.lower M).submatrix (Fin.natAdd c) id with hB
  -- the permuted null vector is a null vector of the reduced matrix
  have hnull : ∀ i, ∑ j, (tvbMatrix L M i j : ℂ) * (Fin.addCases (fun i => v (Fin.castAdd (k + n) i)) (fun i => v (Fin.natAdd c (L.qrpP B i))) j : ℂ) = 0 := by
    intro i
    rw [Fin.sum_univ_add]
    simp only [tvbMatrix, Fin.addCases_left, Fin.addCases_right, ← hB]
    refine Fin.addCases (fun i => ?_) (fun i => ?_) i
    · simp only [Fin.addCases_left]
      have h1 := congrFun (nullVec_top hL M v hv) i
      rw [Pi.add_apply] at h1
      rw [← Pi.zero_apply (M := fun _ => ℂ) i, ← h1]
      congr 1
      exact Equiv.sum_comp (L.qrpP B) fun j => (L.lower M (Fin.castAdd b i) j : ℂ) * v (Fin.natAdd c j)
    · simp only [Fin.addCases_right]
      rw [Finset.sum_eq_zero, zero_add]
      · have h1 := nullVec_bottom hL M v hv
        have hR : L.qrpR B = (L.qrpQ B)ᵀ * B.submatrix id (L.qrpP B) := by
          rw [← hL.qrp_factor, ← Matrix.mul_assoc, hL.qrp_orth, Matrix.one_mul]
        have h2 : cm (B.submatrix id (L.qrpP B)) *ᵥ (fun j => v (Fin.natAdd c (L.qrpP B j))) = 0 := by
          rw [← h1]
          funext a
          exact Equiv.sum_comp (L.qrpP B) fun j => (B a j : ℂ) * v (Fin.natAdd c j)
        have h3 : cm (L.qrpR B) *ᵥ (fun j => v (Fin.natAdd c (L.qrpP B j))) = 0 := by
          rw [hR, cm_mul, ← mulVec_mulVec, h2, mulVec_zero]
        exact congrFun h3 i
      · intro j _
        rw [hL.qr_upper _ _ _ (by simp; omega), Complex.ofReal_zero, zero_mul]
  have h5 : cm (N.submatrix id (Fin.castAdd n)) *ᵥ ((fun i => permVec (L.qrpP B) v (Fin.castAdd n i)) +
      cm X *ᵥ fun r => permVec (L.qrpP B) v (Fin.natAdd (c + k) r)) = 0 := by
    rw [mulVec_add, mulVec_mulVec, ← cm_mul, hNX]
    funext i
    rw [Pi.add_apply, Pi.zero_apply, ← hnull (Fin.castLE (Nat.add_le_add_left hk c) i)]
    rw [← (finCongr (Nat.add_assoc c k n)).sum_comp, Fin.sum_univ_add]
    rfl
  exact eq_neg_of_add_eq_zero_left (congrFun (cm_kernel _ hu hd _ h5) i)

/-! ### Non-vacuity -/

theorem exists_svd {p q : ℕ} (A : Matrix (Fin p) (Fin q) ℝ) : ∃ V : Matrix (Fin q) (Fin q) ℝ, Vᵀ * V = 1 ∧
    ∃ s : Fin q → ℝ, Antitone s ∧ (∀ j, 0 ≤ s j) ∧ (A * V)ᵀ * (A * V) = diagonal s := by
  have hA : (Aᵀ * A).IsHermitian := by
    rw [IsHermitian, conjTranspose_eq_transpose_of_trivial, transpose_mul, transpose_transpose]
  set U : Matrix (Fin q) (Fin q) ℝ := hA.eigenvectorUnitary.1 with hU
  set e := hA.eigenvalues with he
  have hUU : Uᵀ * U = 1 := by
    have := Unitary.coe_star_mul_self hA.eigenvectorUnitary
    rwa [star_eq_conjTranspose, conjTranspose_eq_transpose_of_trivial] at this
  have hspec : Uᵀ * (Aᵀ * A) * U = diagonal e := by
    have h1 := hA.conjStarAlgAut_star_eigenvectorUnitary
    rw [Unitary.conjStarAlgAut_star_apply, star_eq_conjTranspose, conjTranspose_eq_transpose_of_trivial] at h1
    exact h1
  let σ := Tuple.sort fun j => -e j
  have hσ : Monotone ((fun j => -e j) ∘ σ) := Tuple.monotone_sort _
  refine ⟨U.submatrix id σ, ?_, e ∘ σ, fun i j hij => neg_le_neg_iff.1 (hσ hij), fun j => ?_, ?_⟩
  · have h1 : (U.submatrix id σ)ᵀ * U.submatrix id σ = (Uᵀ * U).submatrix σ σ := by ext i j; rfl
    rw [h1, hUU]
    exact submatrix_one_equiv σ
  · have h1 := congrFun (congrFun hspec (σ j)) (σ j)
    rw [diagonal_apply_eq, ← Matrix.mul_assoc, ← transpose_mul, Matrix.mul_assoc, mul_apply] at h1
    rw [Function.comp_apply, ← h1]
    exact Finset.sum_nonneg fun i _ => by rw [transpose_apply]; exact mul_self_nonneg _
  · have h1 : (A * U.submatrix id σ)ᵀ * (A * U.submatrix id σ) = (Uᵀ * (Aᵀ * A) * U).submatrix σ σ := by
      rw [transpose_mul]
      ext i j
      simp only [Matrix.mul_assoc]
      rfl
    rw [h1, hspec, submatrix_diagonal_equiv]

open Classical in
/-- A library that meets the assumptions. -/
noncomputable def exactMacLib : MacLib where
  condExceeds A _ := !decide (∀ x, A *ᵥ x = 0 → x = 0)
  qrQ {p q} A := Classical.choose (exists_qr false p q A)
  qrR {p q} A := Classical.choose (Classical.choose_spec (exists_qr false p q A))
  svdV A := Classical.choose (exists_svd A)
  qrpQ {p q} A := Classical.choose (exists_qr true p q A)
  qrpR {p q} A := Classical.choose (Classical.choose_spec (exists_qr true p q A))
  qrpP {p q} A := Classical.choose (Classical.choose_spec (Classical.choose_spec (exists_qr true p q A)))
  solveTri R B := if IsUnit R.det then some (R⁻¹ * B) else none

theorem exactMacLib_correct : exactMacLib.Correct where
  cond A t h _ := by simpa [exactMacLib] using h
  qr_orth {p q} A := (Classical.choose_spec (Classical.choose_spec (Classical.choose_spec (exists_qr false p q A)))).1
  qr_factor {p q} A := by
    have h := Classical.choose_spec (Classical.choose_spec (Classical.choose_spec (exists_qr false p q A)))
    have h2 := h.2.1
    rw [h.2.2.2.1 rfl] at h2
    exact h2
  qr_upper {p q} A := (Classical.choose_spec (Classical.choose_spec (Classical.choose_spec (exists_qr false p q A)))).2.2.1
  svd_orth A := (Classical.choose_spec (exists_svd A)).1
  svd_diag A := (Classical.choose_spec (exists_svd A)).2
  qrp_orth {p q} A := (Classical.choose_spec (Classical.choose_spec (Classical.choose_spec (exists_qr true p q A)))).1
  qrp_factor {p q} A := (Classical.choose_spec (Classical.choose_spec (Classical.choose_spec (exists_qr true p q A)))).2.1
  qrp_upper {p q} A := (Classical.choose_spec (Classical.choose_spec (Classical.choose_spec (exists_qr true p q A)))).2.2.1
  qrp_pivot {p q} A := (Classical.choose_spec (Classical.choose_spec (Classical.choose_spec (exists_qr true p q A)))).2.2.2.2 rfl
  solve R B hu hd := by
    have hdet : IsUnit R.det := by
      rw [det_of_isUpperTriangular (fun i j h => hu i j h), isUnit_iff_ne_zero]
      exact Finset.prod_ne_zero_iff.2 fun i _ => hd i
    exact ⟨R⁻¹ * B, by simp only [exactMacLib, if_pos hdet], by rw [← Matrix.mul_assoc, mul_nonsing_inv _ hdet, Matrix.one_mul]⟩

/-- The Macaulay matrix of `x - y` and `x^2 - 1` (see the example for `C77_build`). -/
def exMatrix : Matrix (Fin (3 + 1)) (Fin (3 + (1 + 2))) ℝ :=
  !![1, -1, 0, 0, 0, 0; 1, 0, 0, 0, 0, -1; 0, 1, -1, 0, 0, 0; 0, 0, 0, 1, -1, 0]

theorem exMatrix_rank : exMatrix.rank = 4 := by
  have h : LinearIndependent ℝ exMatrix.row := by
    rw [Fintype.linearIndependent_iff]
    intro g hg
    have h0 := congrFun hg 0
    have h2 := congrFun hg 2
    have h3 := congrFun hg 3
    have h5 := congrFun hg 5
    simp [exMatrix, Fin.sum_univ_succ, Matrix.row] at h0 h2 h3 h5
    intro i
    fin_cases i
    · simpa [h5] using h0
    · exact h5
    · exact h2
    · exact h3
  exact LinearIndependent.rank_matrix h |>.trans (by simp)

theorem exMatrix_cond (t : ℝ) : exactMacLib.condExceeds (exMatrix.submatrix id (Fin.castAdd (1 + 2))) t = false := by
  simp only [exactMacLib, Bool.not_eq_false', decide_eq_true_eq]
  intro x hx
  have h0 := congrFun hx 0
  have h1 := congrFun hx 1
  have h2 := congrFun hx 2
  simp [exMatrix, mulVec, dotProduct, Fin.sum_univ_succ] at h0 h1 h2
  funext i
  fin_cases i
  · simp; linarith
  · simp; linarith
  · simp; linarith

theorem exMatrix_one : NullVec exMatrix fun _ => 1 := by
  intro i
  fin_cases i <;> simp [exMatrix, Fin.sum_univ_succ]

/-- Non-vacuity of `C78_cols` and `C78_cols_null`: both methods reduce the matrix, and the monomials at the root `(1,1)` are
recovered from two numbers. -/
example (meth : ColMethod) : ∃ E Q, reduceCols exactMacLib meth 10 exMatrix = .ok (E, Q) ∧ Qᵀ * Q = 1 ∧
    (∃ u : Fin 2 → ℂ, ∀ j, (1 : ℂ) = ∑ r, (Q j r : ℂ) * u r) ∧
    exMatrix *ᵥ (Fin.append (fun i => -∑ r, E i r * 1) fun j => ∑ r, Q j r * 1) = 0 := by
  have h := C78_cols_total exactMacLib_correct meth 10 exMatrix (exMatrix_cond 10)
  rw [if_neg one_ne_zero] at h
  obtain ⟨⟨E, Q⟩, h⟩ := h
  obtain ⟨h1, h2⟩ := C78_cols exactMacLib_correct meth 10 exMatrix (by rw [exMatrix_rank]) E Q h
  exact ⟨E, Q, h, h1, ⟨_, (h2 _ exMatrix_one _ fun r => rfl).1⟩,
    C78_cols_null exactMacLib_correct meth 10 exMatrix (by rw [exMatrix_rank]) E Q h fun _ => 1⟩

theorem exMatrix_tvb : ∃ r, reduceTvb exactMacLib 10 exMatrix = .ok r := by
  rw [reduceTvb, exMatrix_cond, if_neg (by simp), if_neg one_ne_zero, dif_pos (le_refl 1)]
  set N := ((tvbMatrix exactMacLib exMatrix).submatrix (Fin.castLE (Nat.add_le_add_left (le_refl 1) 3)) (Fin.cast (Nat.add_assoc 3 1 2))).submatrix id (Fin.castAdd 2) with hN
  have hu : ∀ i j : Fin (3 + 1), j < i → N i j = 0 := fun i j h => tvb_upper exactMacLib_correct exMatrix _ _ (by simpa using h)
  have hd : ∀ i : Fin (3 + 1), N i i ≠ 0 := fun i =>
    tvb_diag (k := 1) exactMacLib_correct exMatrix (exMatrix_cond 10) (by rw [exMatrix_rank]) _ _ (by simp) (by simp)
  have hc : exactMacLib.condExceeds N 10 = false := by
    simp only [exactMacLib, Bool.not_eq_false', decide_eq_true_eq]
    intro x hx
    by_contra hne
    have hdet := exists_mulVec_eq_zero_iff.1 ⟨x, hne, hx⟩
    rw [det_of_isUpperTriangular (fun i j h => hu i j h)] at hdet
    exact Finset.prod_ne_zero_iff.2 (fun i _ => hd i) hdet
  obtain ⟨X, hX, -⟩ := exactMacLib_correct.solve N (((tvbMatrix exactMacLib exMatrix).submatrix (Fin.castLE (Nat.add_le_add_left (le_refl 1) 3))
    (Fin.cast (Nat.add_assoc 3 1 2))).submatrix id (Fin.natAdd (3 + 1))) hu hd
  dsimp only
  rw [← hN, hc, if_neg (by simp), hX]
  exact ⟨_, rfl⟩

/-- Non-vacuity of `C78_tvb`: the rows of `E` add up to `-1`, since all monomials are one at `(1,1)`. -/
example : ∃ E P, reduceTvb exactMacLib 10 exMatrix = .ok (E, P) ∧ ∀ i, (1 : ℂ) = -∑ r, (E i r : ℂ) * 1 := by
  obtain ⟨⟨E, P⟩, h⟩ := exMatrix_tvb
  refine ⟨E, P, h, fun i => ?_⟩
  have h1 := C78_tvb exactMacLib_correct 10 exMatrix E P h (fun _ => 1) exMatrix_one i
  have e : ∀ j, permVec (c := 3) P (fun _ => (1 : ℂ)) j = 1 := by
    intro j
    simp only [permVec]
    refine Fin.addCases (fun i => ?_) (fun i => ?_) (Fin.cast (Nat.add_assoc 3 1 2) j)
    · rw [Fin.addCases_left]
    · rw [Fin.addCases_right]
  simpa only [e] using h1

end YRoots.Legacy
