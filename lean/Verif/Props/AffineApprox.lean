import Verif.Props.SolveNDAffine
import Verif.Props.BlockCopy

/-!
# Property C92, continued: the approximations of affine functions (`subdivision.py`, lines 211-518)
-/

namespace YRoots.Legacy

open Finset

variable {n : ℕ}

/-- A tensor of the right shape that interpolates an affine function has no coefficients of total degree above one. -/
theorem interpolates_affine {F : MakerFn (n + 1)} {p : Fin (n + 1) → ℝ} {r : ℝ} (hF : ∀ y, F.f y = ∑ i, p i * y i + r) {deg : ℕ} (hd : 1 ≤ deg)
    {M : Tensor (n + 1) ℝ} (hM : Interpolates F (fun _ => deg) M) : ∀ k ∈ M.idx, 2 ≤ ∑ i, k i → M.coef k = 0 := by
  intro k hk h2
  have hidx : M.idx = gridIdx (n := n + 1) fun _ => deg := by
    unfold Tensor.idx gridIdx
    rw [hM.shape]
  rw [hidx] at hk
  set v : (Fin (n + 1) → ℕ) → ℝ := fun j => M.eval fun i => chebPt deg (j i) with hv
  have h1 := fullCoef_recover (fun _ : Fin (n + 1) => deg) (fun _ => hd) M.coef v (fun j _ => by simp only [hv, Tensor.eval, hidx]) k hk
  set c : (Fin (n + 1) → ℕ) → ℝ := fun m => (if m = 0 then ∑ i, p i * ((F.b i + F.a i) / 2) + r else 0) +
    ∑ i, if m = Pi.single i 1 then p i * ((F.b i - F.a i) / 2) else 0 with hc
  have h2' := fullCoef_recover (fun _ : Fin (n + 1) => deg) (fun _ => hd) c v (fun j hj => ?_) k hk
  · rw [← h1, h2', hc]
    have hk0 : k ≠ 0 := by rintro rfl; simp at h2
    have hk1 : ∀ i, k ≠ Pi.single i 1 := by rintro i rfl; simp at h2
    simp [hk0, hk1]
  · have e := hM.interpolates j (mem_gridIdx.1 hj)
    have e' : v j = F.f (onBox F fun i => chebPt deg (j i)) := e
    have h0 : (0 : Fin (n + 1) → ℕ) ∈ gridIdx (n := n + 1) fun _ => deg := by rw [mem_gridIdx]; simp
    have hs : ∀ i : Fin (n + 1), (Pi.single i 1 : Fin (n + 1) → ℕ) ∈ gridIdx (n := n + 1) fun _ => deg := by
      intro i
      rw [mem_gridIdx]
      intro l
      by_cases h : l = i
      · subst h; simpa using hd
      · rw [Pi.single_eq_of_ne h]; omega
    rw [e', hF]
    simp only [hc, add_mul, sum_add_distrib, ite_mul, zero_mul, sum_mul]
    rw [sum_ite_eq' (gridIdx _) (0 : Fin (n + 1) → ℕ), if_pos h0, sum_comm]
    have : ∀ i : Fin (n + 1), ∑ m ∈ gridIdx (n := n + 1) (fun _ => deg), (if m = Pi.single i 1 then
        p i * ((F.b i - F.a i) / 2) * ∏ l, chebT (m l) (chebPt deg (j l)) else 0) = p i * ((F.b i - F.a i) / 2) * chebPt deg (j i) := by
      intro i
      rw [sum_ite_eq' (gridIdx _) (Pi.single i 1 : Fin (n + 1) → ℕ), if_pos (hs i)]
      congr 1
      rw [Finset.prod_eq_single i]
      · rw [Pi.single_eq_same]; exact chebT_one _
      · intro l _ hl
        rw [Pi.single_eq_of_ne hl]; exact chebT_zero _
      · simp
    rw [sum_congr rfl fun i _ => this i]
    simp only [Pi.zero_apply, chebT_zero, prod_const_one, mul_one, onBox]
    rw [add_right_comm, ← sum_add_distrib]
    congr 1
    refine sum_congr rfl fun i _ => ?_
    ring

/-- **C92** (approximations).  What `full_cheb_approximate` returns for affine functions meets the hypothesis of `C92_inside` and `C92_outside`, provided that the
shared array has a suitable size (see C73 and C74). -/
theorem C92_approx (lib : NDLib (n + 1) ℝ) {relTol : ℝ} (hr : 0 ≤ relTol)
    (hlib : ∀ f B deg tol g, ∃ g1 g2 grid st, 2 ∣ st.size ∧ (4 * g.getD deg ≤ st.size ∨ st.size = 2 * g.getD deg ∨ st.size ≤ g.getD deg) ∧
      lib.approx f B deg tol g = (fullCheb g1 g2 ⟨f, B.lo, B.hi, grid⟩ (g.getD deg) tol relTol st).1)
    (p : Fin (n + 1) → ℝ) (r : ℝ) : ExactAffine lib fun y => ∑ i, p i * y i + r := by
  intro B deg tol g hB hd htol hg
  obtain ⟨g1, g2, grid, st, hdvd, hsize, he⟩ := hlib (fun y => ∑ i, p i * y i + r) B deg tol g
  have hgd : 2 ≤ g.getD deg := by
    cases h : g with
    | none => exact hd
    | some d => exact hg d h
  obtain ⟨M, M2, norm, err, h1, -, h3, -, h5, h6⟩ := C74_full_partial (n := n + 1) (by omega) (deg := g.getD deg) (by omega) g1 g2
    ⟨fun y => ∑ i, p i * y i + r, B.lo, B.hi, grid⟩ tol relTol st hdvd hsize
  have hdeg : ∀ i, (∑ i, MvPolynomial.C (p i) * MvPolynomial.X i + MvPolynomial.C r : MvPolynomial (Fin (n + 1)) ℝ).degreeOf i ≤ g.getD deg := by
    intro i
    refine (MvPolynomial.degreeOf_add_le _ _ _).trans (max_le ((MvPolynomial.degreeOf_sum_le _ _ _).trans (Finset.sup_le fun l _ => ?_)) ?_)
    · refine (MvPolynomial.degreeOf_C_mul_le _ _ _).trans ?_
      rw [MvPolynomial.degreeOf_X]
      split_ifs <;> omega
    · rw [MvPolynomial.degreeOf_C]; omega
  obtain ⟨rfl, hM⟩ := h5 _ hdeg (by funext x; simp)
  have hnorm : 0 ≤ norm := (abs_nonneg _).trans (h3.1 0 (by simp))
  refine ⟨M, norm, ?_, hnorm, fun i => ?_, interpolates_affine (fun y => rfl) (by omega) h1, fun t => ?_⟩
  · rw [he, h6]
    have : ¬ (0 : ℝ) > tol + relTol * norm := not_lt.2 (by positivity)
    simp [test, this]
  · rw [h1.shape]; dsimp only; omega
  · rw [hM t]
    have : onBox ⟨fun y => ∑ i, p i * y i + r, B.lo, B.hi, grid⟩ t = toBox B.lo B.hi t := by
      funext i
      simp only [onBox, toBox]
      ring
    rw [this]

/-- Non-vacuity: an array that is made for each call. -/
example (S : LinSolve 2 ℝ) (la : LinAlg 2 ℝ) : ∃ lib : NDLib 2 ℝ, lib.solve = S ∧ ExactAffine lib fun y => 3 * y 0 - y 1 + 5 := by
  refine ⟨⟨fun f B deg tol g => (fullCheb (fun _ => 0) (fun _ => 0) ⟨f, B.lo, B.hi, false⟩ (g.getD deg) tol (1 / 10) ⟨4 * g.getD deg, fun _ => 0⟩).1,
    fun _ _ => 0, S, la, fun _ => .ok none⟩, rfl, ?_⟩
  have := C92_approx (n := 1) ⟨fun f B deg tol g =>
    (fullCheb (fun _ => 0) (fun _ => 0) ⟨f, B.lo, B.hi, false⟩ (g.getD deg) tol (1 / 10) ⟨4 * g.getD deg, fun _ => 0⟩).1,
    fun _ _ => 0, S, la, fun _ => .ok none⟩ (relTol := 1 / 10) (by norm_num)
    (fun f B deg tol g => ⟨_, _, _, _, ⟨2 * g.getD deg, by dsimp only; ring⟩, .inl le_rfl, rfl⟩) ![3, -1] 5
  convert this using 2
  rw [Fin.sum_univ_two]
  simp only [Matrix.cons_val_zero, Matrix.cons_val_one]
  ring

end YRoots.Legacy
