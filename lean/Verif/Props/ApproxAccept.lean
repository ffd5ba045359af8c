import Verif.Props.Approx

/-!
# Property C39, acceptance: which interpolants the degree search accepts

Specification: `meanAbs M d k` is the average of the absolute coefficients with index `k` in direction `d`.
-/

set_option linter.unusedSectionVars false
set_option linter.unusedVariables false

namespace YRoots

open Finset

variable {n : ℕ}

/-- Spec: the average absolute coefficient of degree `k` in direction `d`. -/
noncomputable def meanAbs (M : Tensor n ℝ) (d : Fin n) (k : ℕ) : ℝ :=
  (∑ j ∈ (Fintype.piFinset fun i => range (M.shape i)).filter (fun j => j d = k), |M.coef j|) /
    ∏ i ∈ univ.erase d, (M.shape i : ℝ)

theorem coeffChunk_eq (M : Tensor n ℝ) (d : Fin n) : coeffChunk M d = meanAbs M d := rfl

/-- Spec: the result `r` was accepted for the guess `G`: the interpolant `R` of degree `G` in direction `d` has its last
five averaged coefficients below the tolerance relative to its samples; the interpolant `R2` of degree `2G + 1` differs from
it by less than the tolerance in every coefficient, a coefficient that only `R2` has being itself below it; and `r` was
chosen from the averaged coefficients of `R2`. -/
def AcceptedAt (f : (Fin n → ℝ) → ℝ) (a b : Fin n → ℝ) (rtol atol : ℝ) (d : Fin n) (degs : Fin n → ℕ) (G : ℕ)
    (r : FinalDegree) : Prop :=
  ∃ e e2 : Fin n → ℕ, e d = G ∧ e2 d = 2 * G + 1 ∧
    (∀ i, i ≠ d → e2 i = max 1 (e i) ∧ max 1 (e i) = max 1 (degs i)) ∧
    let R := intervalApproximate f e a b
    let R2 := intervalApproximate f e2 a b
    (∀ m, G < m + 5 → m ≤ G → meanAbs R.coeffs d m < atol + R.supNorm * rtol) ∧
    (∀ j, (∀ i, j i ≤ e2 i) →
      |R2.coeffs.coef j - if ∀ i, j i ≤ e i then R.coeffs.coef j else 0| < atol + max R.supNorm R2.supNorm * rtol) ∧
    r = getFinalDegree (2 * G + 2) (meanAbs R2.coeffs d) (atol + max R.supNorm R2.supNorm * rtol)

/-- **C39, acceptance.**  If the degree search in one direction ends, then it was accepted for a doubled guess `g·2^k` (see
`C39_final_degree` for the degree chosen). -/
theorem C39_accepted (f : (Fin n → ℝ) → ℝ) (a b : Fin n → ℝ) (rtol atol : ℝ) (d : Fin n) (fuel : ℕ) (degs : Fin n → ℕ)
    (g : ℕ) (r : FinalDegree) (h : degreeLoop f a b rtol atol d fuel degs g = .ok r) :
    ∃ k, AcceptedAt f a b rtol atol d degs (g * 2 ^ k) r := by
  induction fuel generalizing degs g with
  | zero => cases h
  | succ fuel ih =>
    unfold degreeLoop at h
    simp only at h
    have bump : ∀ (e : Fin n → ℕ), (intervalApproximate f e a b).degs = bumpDegs e := fun e => rfl
    have hb : ∀ (e : Fin n → ℕ) i, bumpDegs e i = max 1 (e i) := by
      intro e i; unfold bumpDegs; split_ifs <;> omega
    have step : ∀ (degs' : Fin n → ℕ), (∀ i, i ≠ d → max 1 (degs' i) = max 1 (degs i)) →
        degreeLoop f a b rtol atol d fuel degs' (g * 2) = .ok r →
        ∃ k, AcceptedAt f a b rtol atol d degs (g * 2 ^ k) r := by
      intro degs' hd h'
      obtain ⟨k, e, e2, h1, h2, h3, h4⟩ := ih degs' (g * 2) h'
      have hk : g * 2 * 2 ^ k = g * 2 ^ (k + 1) := by ring
      rw [hk] at h1 h2 h4
      exact ⟨k + 1, e, e2, h1, h2, fun i hi => ⟨(h3 i hi).1, (h3 i hi).2.trans (hd i hi)⟩, h4⟩
    set e := Function.update degs d g with he
    set R := intervalApproximate f e a b with hR
    set e2 := Function.update R.degs d (g * 2 + 1) with he2
    set R2 := intervalApproximate f e2 a b with hR2
    have hed : ∀ i, i ≠ d → e i = degs i := fun i hi => Function.update_of_ne hi _ _
    have he2d : ∀ i, i ≠ d → e2 i = max 1 (degs i) := fun i hi => by
      rw [he2, Function.update_of_ne hi, hR, bump, hb, hed i hi]
    split_ifs at h with c1 c2
    · refine step _ (fun i hi => ?_) h
      rw [hR, bump, hb, hed i hi]; omega
    · refine step _ (fun i hi => ?_) h
      rw [hR2, bump, hb, he2d i hi]; omega
    · cases h
      simp only [Bool.not_eq_true', Bool.not_eq_false] at c1 c2
      have hs : R.coeffs.shape = fun i => e i + 1 := rfl
      have hs2 : R2.coeffs.shape = fun i => e2 i + 1 := rfl
      have ed : e d = g := Function.update_self _ _ _
      have e2d : e2 d = g * 2 + 1 := Function.update_self _ _ _
      unfold startedConverging at c1
      unfold hasConverged at c2
      rw [test_iff] at c1
      simp only at c2
      rw [test_iff] at c2
      refine ⟨0, e, e2, by rw [ed]; simp, by rw [e2d]; omega, fun i hi => ⟨by rw [he2d i hi, hed i hi], by rw [hed i hi]⟩, ?_⟩
      simp only [pow_zero, mul_one]
      refine ⟨fun m h1 h2 => ?_, fun j hj => ?_, ?_⟩
      · rw [← coeffChunk_eq]
        exact c1 m (by rw [hs]; simp only [ed]; omega) (by rw [hs]; simp only [ed]; omega)
      · have := c2 j (by
          unfold Tensor.idx
          rw [Fintype.mem_piFinset]
          intro i
          rw [hs2]
          simp only [mem_range]
          have := hj i
          omega)
        rw [hs] at this
        simp only [Nat.lt_succ_iff] at this
        by_cases hc : ∀ i, j i ≤ e i
        · rw [if_pos hc] at this ⊢; exact this
        · rw [if_neg hc] at this ⊢; rw [sub_zero]; exact this
      · rw [← coeffChunk_eq, hs2]
        simp only [e2d]
        rw [show g * 2 + 1 + 1 = 2 * g + 2 by ring]

/-- Instance: the search ends for `x + 2` on `[-1,1]`. -/
example : ∃ r k, AcceptedAt (n := 1) (fun x => MvPolynomial.eval x (MvPolynomial.X 0 + MvPolynomial.C 2)) (fun _ => -1) (fun _ => 1)
    (1 / 10 ^ 10) 0 0 (fun _ => 5) (8 * 2 ^ k) r := by
  have hpos : ∀ N : Fin 1 → ℕ, (∀ i, 1 ≤ N i) → ∃ j ∈ gridIdx N,
      (fun x => MvPolynomial.eval x (MvPolynomial.X (R := ℝ) (0 : Fin 1) + MvPolynomial.C 2)) (gridPt N (fun _ => -1) (fun _ => 1) j) ≠ 0 := by
    intro N hN
    refine ⟨fun _ => 0, mem_gridIdx.2 fun i => by omega, ?_⟩
    simp only [map_add, MvPolynomial.eval_X, MvPolynomial.eval_C]
    unfold gridPt transformPt chebPt
    norm_num
  obtain ⟨r, hr⟩ := loop_terminates (n := 1) (fun x => MvPolynomial.eval x (MvPolynomial.X 0 + MvPolynomial.C 2)) (fun _ => 5)
    (fun _ => -1) (fun _ => 1) 0 _ (le_max_left 1 _) ((mvPolynomial_polyAlong _ 0).mono (le_max_right 1 _)) (1 / 10 ^ 10)
    (by norm_num) (fun N hN _ => hpos N hN) _ le_rfl
  exact ⟨r, C39_accepted _ _ _ _ _ _ _ _ _ _ hr⟩

end YRoots
