import Verif.Props.MacMatrix
import Verif.Props.MacReduce

/-!
# C79: the Möller-Stetter matrices
-/

namespace YRoots.Legacy

open Matrix Finset

variable {dim : ℕ} {c b k n l : ℕ}

/-! ### Specification -/

/-- The columns of a Macaulay matrix of degree `D`: all exponents of degree at most `D`, once each, the first `p` columns
including all those of degree `D`. -/
structure TermsOK (D : ℕ) {p q : ℕ} (terms : Fin (p + q) → Fin dim → ℕ) : Prop where
  all : ∀ t : Fin dim → ℕ, ∑ i, t i ≤ D → ∃ j, terms j = t
  low : ∀ j : Fin q, ∑ i, terms (Fin.natAdd p j) i < D

/-! ### Helper lemmas -/

theorem nearestTerm_eq {N : ℕ} (terms : Fin N → Fin dim → ℕ) (j₀ : Fin N) (t : Fin dim → ℕ) (h : ∃ j, terms j = t) :
    terms (nearestTerm terms j₀ t) = t := by
  obtain ⟨j, hj⟩ := h
  rw [nearestTerm]
  rcases hm : (List.finRange N).argmin (fun j => ∑ i, ((t i : ℤ) - terms j i).natAbs) with _ | m
  · rw [List.argmin_eq_none] at hm
    have := List.mem_finRange j
    rw [hm] at this
    simp at this
  · rw [Option.getD_some]
    have h1 := List.le_of_mem_argmin (List.mem_finRange j) hm
    have h0 : ∑ i, ((t i : ℤ) - terms j i).natAbs = 0 := by simp [hj]
    rw [h0, Nat.le_zero, Finset.sum_eq_zero_iff] at h1
    funext i
    have := h1 i (mem_univ i)
    omega

theorem sum_update_le (t : Fin dim → ℕ) (i : Fin dim) (a D : ℕ) (ha : a ≤ t i + 1) (h : ∑ i, t i < D) : ∑ j, Function.update t i a j ≤ D := by
  have h1 := Finset.add_sum_erase univ t (mem_univ i)
  have h2 := Finset.add_sum_erase univ (Function.update t i a) (mem_univ i)
  have h3 : ∑ j ∈ univ.erase i, Function.update t i a j = ∑ j ∈ univ.erase i, t j :=
    Finset.sum_congr rfl fun j hj => Function.update_of_ne (Finset.ne_of_mem_erase hj) _ _
  rw [Function.update_self, h3] at h2
  omega

theorem basisAt_update (power : Bool) (t : Fin dim → ℕ) (i : Fin dim) (a : ℕ) (z : Fin dim → ℂ) :
    basisAt power (Function.update t i a) z = (if power then z i ^ a else chebT a (z i)) *
      ∏ j ∈ univ.erase i, if power then z j ^ t j else chebT (t j) (z j) := by
  rw [basisAt, ← Finset.mul_prod_erase univ _ (mem_univ i)]
  congr 1
  · rw [Function.update_self]
  · refine Finset.prod_congr rfl fun j hj => ?_
    rw [Function.update_of_ne (Finset.ne_of_mem_erase hj)]

theorem basisAt_split (power : Bool) (t : Fin dim → ℕ) (i : Fin dim) (z : Fin dim → ℂ) :
    basisAt power t z = (if power then z i ^ t i else chebT (t i) (z i)) *
      ∏ j ∈ univ.erase i, if power then z j ^ t j else chebT (t j) (z j) := by
  have := basisAt_update power t i (t i) z
  rwa [Function.update_eq_self] at this

theorem basisAt_up (t : Fin dim → ℕ) (i : Fin dim) (z : Fin dim → ℂ) : basisAt true (upTerm t i) z = z i * basisAt true t z := by
  rw [upTerm, basisAt_update, basisAt_split true t i]
  simp only [if_true, pow_succ]
  ring

theorem basisAt_cheb (t : Fin dim → ℕ) (i : Fin dim) (z : Fin dim → ℂ) :
    1 / 2 * (basisAt false (upTerm t i) z + basisAt false (downTerm t i) z) = z i * basisAt false t z := by
  rw [upTerm, downTerm, basisAt_update, basisAt_update, basisAt_split false t i]
  simp only [Bool.false_eq_true, if_false]
  rcases ht : t i with _ | m
  · simp; ring
  · rw [if_neg (by omega), Nat.add_sub_cancel, show m + 1 + 1 = m + 2 from rfl, chebT_add_two]
    ring

theorem basisAt_const (power : Bool) (z : Fin dim → ℂ) : basisAt power (fun _ => 0) z = 1 := by
  cases power <;> simp [basisAt]

theorem hstackA_left {p q : ℕ} (E : Matrix (Fin p) (Fin n) ℝ) (Q : Matrix (Fin q) (Fin n) ℝ) (r : Fin n) (j : Fin p) :
    hstackA E Q r (Fin.castAdd q j) = -E j r := Fin.addCases_left j

theorem hstackA_right {p q : ℕ} (E : Matrix (Fin p) (Fin n) ℝ) (Q : Matrix (Fin q) (Fin n) ℝ) (r : Fin n) (j : Fin q) :
    hstackA E Q r (Fin.natAdd p j) = Q j r := Fin.addCases_right j

/-- If the columns of `A` express the basis polynomials at `z` by the numbers `u`, the shifted columns express `z_i` times the lower ones. -/
theorem shifted_eigen (power : Bool) {D p q : ℕ} (terms : Fin (p + q) → Fin dim → ℕ) (ht : TermsOK D terms) (z : Fin dim → ℂ)
    (A : Matrix (Fin n) (Fin (p + q)) ℝ) (u : Fin n → ℂ) (hA : ∀ j, basisAt power (terms j) z = ∑ r, u r * (A r j : ℂ)) (i : Fin dim) (j : Fin q) :
    ∑ r, u r * (shifted power A terms i r j : ℂ) = z i * basisAt power (terms (Fin.natAdd p j)) z := by
  have hup := nearestTerm_eq terms (Fin.natAdd p j) (upTerm (terms (Fin.natAdd p j)) i)
    (ht.all _ (sum_update_le _ _ _ _ le_rfl (ht.low j)))
  have hdn := nearestTerm_eq terms (Fin.natAdd p j) (downTerm (terms (Fin.natAdd p j)) i)
    (ht.all _ (sum_update_le _ _ _ _ (by split_ifs <;> omega) (ht.low j)))
  cases power
  · simp only [shifted, Bool.false_eq_true, if_false]
    rw [← basisAt_cheb, ← hup, hA, hup, ← hdn, hA, hdn, ← Finset.sum_add_distrib, Finset.mul_sum]
    refine Finset.sum_congr rfl fun r _ => ?_
    push_cast
    ring
  · simp only [shifted, if_true]
    rw [← basisAt_up, ← hup, hA, hup]

/-- The list of `sorted_matrix_terms`. -/
theorem termsOK_sorted {D : ℕ} (hd : 1 ≤ dim) (hD : 2 ≤ D) {c q : ℕ} (hc : (sortedMatrixTerms D dim).2 = c)
    (hq : c + q = (sortedMatrixTerms D dim).1.length) :
    TermsOK D (p := c) (q := q) fun j => (asMon ((sortedMatrixTerms D dim).1.getD j []) : Fin dim → ℕ) := by
  obtain ⟨hmem, -, -, -, -, -, hcut⟩ := C76_terms D dim (by omega) hd
  refine ⟨fun t ht => ?_, fun j => ?_⟩
  · have h1 := (hmem (List.ofFn t)).2 ⟨by simp, by rw [List.sum_ofFn]; exact ht⟩
    obtain ⟨j, hj, he⟩ := List.getElem_of_mem h1
    refine ⟨⟨j, by omega⟩, ?_⟩
    beta_reduce
    rw [List.getD_eq_getElem _ _ hj, he, asMon_ofFn]
  · have hj : (Fin.natAdd c j : Fin (c + q)).1 < (sortedMatrixTerms D dim).1.length := by have := (Fin.natAdd c j).2; omega
    have h1 := (hmem _).1 (List.getElem_mem hj)
    have h2 := (not_congr (hcut hD _ hj)).1 (by simp; omega)
    beta_reduce
    rw [List.getD_eq_getElem _ _ hj, sum_asMon h1.1]
    omega

/-! ### The properties -/

/-- **C79**, `ms_matrices` and `ms_matrices_cheb`.  For every point `z` at which all rows of the Macaulay matrix vanish, the matrices of
multiplication have a common left eigenvector, with the eigenvalues `z_1, ..., z_dim`; its entries are the coordinates of the lower basis
polynomials at `z`. -/
theorem C79_cols {L : MacLib} (hL : L.Correct) (meth : ColMethod) (t : ℝ) (M : Matrix (Fin (c + b)) (Fin (c + (k + n))) ℝ) (hr : c + k ≤ M.rank)
    (E : Matrix (Fin c) (Fin n) ℝ) (Q : Matrix (Fin (k + n)) (Fin n) ℝ) (h : reduceCols L meth t M = .ok (E, Q)) (power : Bool) {D : ℕ}
    (terms : Fin (c + (k + n)) → Fin dim → ℕ) (ht : TermsOK D terms) (z : Fin dim → ℂ) (hz : NullVec M fun j => basisAt power (terms j) z) :
    ∃ u : Fin n → ℂ, u ≠ 0 ∧ (∀ r, u r = ∑ j, (Q j r : ℂ) * basisAt power (terms (Fin.natAdd c j)) z) ∧
      ∀ i r, ∑ s, u s * (msMatrices power E Q terms i s r : ℂ) = z i * u r := by
  set u : Fin n → ℂ := fun r => ∑ j, (Q j r : ℂ) * basisAt power (terms (Fin.natAdd c j)) z with hu
  obtain ⟨hlow, htop⟩ := (C78_cols hL meth t M hr E Q h).2 _ hz u fun r => rfl
  have hA : ∀ j, basisAt power (terms j) z = ∑ r, u r * ((hstackA E Q r j : ℝ) : ℂ) := by
    refine fun j => Fin.addCases (fun i => ?_) (fun i => ?_) j
    · rw [htop, ← Finset.sum_neg_distrib]
      refine Finset.sum_congr rfl fun r _ => ?_
      rw [hstackA_left]; push_cast; ring
    · rw [hlow]
      refine Finset.sum_congr rfl fun r _ => ?_
      rw [hstackA_right]; ring
  refine ⟨u, fun h0 => ?_, fun r => rfl, fun i r => ?_⟩
  · obtain ⟨j, hj⟩ := ht.all (fun _ => 0) (by simp)
    have h1 := hA j
    rw [hj, basisAt_const, h0] at h1
    simp at h1
  · simp only [msMatrices, mul_apply]
    push_cast
    simp only [Finset.mul_sum]
    rw [Finset.sum_comm]
    have e : ∀ j, ∑ s, u s * ((shifted power (hstackA E Q) terms i s j : ℂ) * (Q j r : ℂ)) =
        z i * ((Q j r : ℂ) * basisAt power (terms (Fin.natAdd c j)) z) := fun j => by
      rw [mul_left_comm, ← shifted_eigen power terms ht z _ u hA i j, Finset.mul_sum]
      exact Finset.sum_congr rfl fun s _ => by ring
    rw [Finset.sum_congr rfl fun j _ => e j, ← Finset.mul_sum]

/-- **C79**, `ms_matrices_p` and `ms_matrices_p_cheb`; here the entries of the eigenvector are the values of the basis polynomials chosen by the pivoting. -/
theorem C79_tvb {L : MacLib} (hL : L.Correct) (t : ℝ) (M : Matrix (Fin (c + b)) (Fin (c + (k + n))) ℝ)
    (E : Matrix (Fin (c + k)) (Fin n) ℝ) (P : Equiv.Perm (Fin (k + n))) (h : reduceTvb L t M = .ok (E, P)) (power : Bool) {D : ℕ}
    (terms : Fin (c + (k + n)) → Fin dim → ℕ) (ht : TermsOK D terms) (z : Fin dim → ℂ) (hz : NullVec M fun j => basisAt power (terms j) z) :
    ∃ u : Fin n → ℂ, u ≠ 0 ∧ (∀ r, u r = basisAt power (terms (Fin.natAdd c (P (Fin.natAdd k r)))) z) ∧
      ∀ i r, ∑ s, u s * (msMatricesP power E P terms i s r : ℂ) = z i * u r := by
  set terms' : Fin (c + k + n) → Fin dim → ℕ := fun j => permTerms terms P (Fin.cast (Nat.add_assoc c k n) j) with hterms'
  have hpv : ∀ j, permVec P (fun j => basisAt power (terms j) z) j = basisAt power (terms' j) z := by
    intro j
    simp only [permVec, hterms', permTerms]
    refine Fin.addCases (fun i => ?_) (fun i => ?_) (Fin.cast (Nat.add_assoc c k n) j)
    · rw [Fin.addCases_left, Fin.addCases_left]
    · rw [Fin.addCases_right, Fin.addCases_right]
  have hlast : ∀ r : Fin n, terms' (Fin.natAdd (c + k) r) = terms (Fin.natAdd c (P (Fin.natAdd k r))) := by
    intro r
    have e : Fin.cast (Nat.add_assoc c k n) (Fin.natAdd (c + k) r) = Fin.natAdd c (Fin.natAdd k r) := Fin.ext (by simp [Nat.add_assoc])
    simp only [hterms', e, permTerms, Fin.addCases_right]
  have ht' : TermsOK D (p := c + k) (q := n) terms' := by
    refine ⟨fun s hs => ?_, fun j => ?_⟩
    · obtain ⟨j, hj⟩ := ht.all s hs
      revert hj
      refine Fin.addCases (fun i hi => ?_) (fun i hi => ?_) j
      · refine ⟨Fin.cast (Nat.add_assoc c k n).symm (Fin.castAdd (k + n) i), ?_⟩
        simp only [hterms', Fin.cast_cast, Fin.cast_eq_self, permTerms, Fin.addCases_left]
        exact hi
      · refine ⟨Fin.cast (Nat.add_assoc c k n).symm (Fin.natAdd c (P.symm i)), ?_⟩
        simp only [hterms', Fin.cast_cast, Fin.cast_eq_self, permTerms, Fin.addCases_right, Equiv.apply_symm_apply]
        exact hi
    · rw [hlast]; exact ht.low _
  set u : Fin n → ℂ := fun r => basisAt power (terms (Fin.natAdd c (P (Fin.natAdd k r)))) z with hu
  have hA : ∀ j, basisAt power (terms' j) z = ∑ r, u r * ((hstackA E 1 r j : ℝ) : ℂ) := by
    refine fun j => Fin.addCases (fun i => ?_) (fun i => ?_) j
    · rw [← hpv, C78_tvb hL t M E P h _ hz i, ← Finset.sum_neg_distrib]
      refine Finset.sum_congr rfl fun r _ => ?_
      rw [hpv, hlast, hstackA_left]; push_cast; ring
    · rw [hlast]
      rw [Finset.sum_eq_single i (fun r _ hr => by rw [hstackA_right, one_apply_ne (Ne.symm hr)]; simp) (by simp), hstackA_right, one_apply_eq]
      simp [hu]
  refine ⟨u, fun h0 => ?_, fun r => rfl, fun i r => ?_⟩
  · obtain ⟨j, hj⟩ := ht'.all (fun _ => 0) (by simp)
    have h1 := hA j
    rw [hj, basisAt_const, h0] at h1
    simp at h1
  · have := shifted_eigen power terms' ht' z _ u hA i r
    rw [hlast] at this
    exact this

/-! ### Non-vacuity -/

/-- The monomials `x², xy, y², x, y, 1`, of which three have degree two. -/
def exMacTerms (j : Fin (3 + (1 + 2))) : Fin 2 → ℕ := asMon ((sortedMatrixTerms 2 2).1.getD j [])

theorem exMacTerms_ok : TermsOK 2 exMacTerms := termsOK_sorted (by norm_num) (by norm_num) (by decide) (by decide)

theorem exMatrix_root (a : ℂ) (ha : a ^ 2 = 1) : NullVec exMatrix fun j => basisAt true (exMacTerms j) fun _ => a := by
  have e : ∀ j, basisAt true (exMacTerms j) (fun _ => a) = ![a ^ 2, a ^ 2, a ^ 2, a, a, 1] j := by
    have h : (sortedMatrixTerms 2 2).1 = [[2, 0], [1, 1], [0, 2], [1, 0], [0, 1], [0, 0]] := by decide
    intro j
    simp only [basisAt, exMacTerms, h, asMon, Fin.prod_univ_two]
    fin_cases j <;> simp [pow_two]
  intro i
  simp only [e, ha]
  fin_cases i <;> simp [exMatrix, Fin.sum_univ_succ]

/-- The system `x - y = 0`, `x² = 1`: both matrices have the eigenvalues `1` and `-1`. -/
example (meth : ColMethod) : ∃ E Q, reduceCols exactMacLib meth 10 exMatrix = .ok (E, Q) ∧ ∀ a : ℂ, a ^ 2 = 1 →
    ∃ u : Fin 2 → ℂ, u ≠ 0 ∧ ∀ i r, ∑ s, u s * (msMatrices true E Q exMacTerms i s r : ℂ) = a * u r := by
  have h := C78_cols_total exactMacLib_correct meth 10 exMatrix (exMatrix_cond 10)
  rw [if_neg one_ne_zero] at h
  obtain ⟨⟨E, Q⟩, h⟩ := h
  refine ⟨E, Q, h, fun a ha => ?_⟩
  obtain ⟨u, h1, -, h2⟩ := C79_cols exactMacLib_correct meth 10 exMatrix (by rw [exMatrix_rank]) E Q h true exMacTerms exMacTerms_ok _ (exMatrix_root a ha)
  exact ⟨u, h1, h2⟩

example : ∃ E P, reduceTvb exactMacLib 10 exMatrix = .ok (E, P) ∧ ∀ a : ℂ, a ^ 2 = 1 →
    ∃ u : Fin 2 → ℂ, u ≠ 0 ∧ ∀ i r, ∑ s, u s * (msMatricesP true E P exMacTerms i s r : ℂ) = a * u r := by
  obtain ⟨⟨E, P⟩, h⟩ := exMatrix_tvb
  refine ⟨E, P, h, fun a ha => ?_⟩
  obtain ⟨u, h1, -, h2⟩ := C79_tvb exactMacLib_correct 10 exMatrix E P h true exMacTerms exMacTerms_ok _ (exMatrix_root a ha)
  exact ⟨u, h1, h2⟩

end YRoots.Legacy
