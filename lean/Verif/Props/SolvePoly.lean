import Verif.Props.Approx
import Verif.Props.Solve

/-!
# Property C03 with the library's own approximator, for polynomials

`solve` takes coefficients and errors from `chebApproximate` (C36-C40).  For polynomials the hypothesis of C03 can be read off
from what the approximator returned: the number of coefficients and the sign of the error.
-/

set_option linter.unusedSectionVars false
set_option linter.unusedVariables false

namespace YRoots

variable {n : ℕ}

/-- `chebApproximate` in the role of the approximator of `solve`, applied to the values of the function
(`/repo/yroots/Combined_Solver.py` lines 117-126). -/
noncomputable def chebApproximator (fuel : ℕ) (rtol : ℝ) : Approximator n ℝ :=
  fun f a b => chebApproximate fuel f.value a b rtol

/-- **C03, polynomials, one box.**  If `chebApproximate` returns more coefficients per direction than the degree of the
polynomial, and a positive error, then the result is a strict approximation of the polynomial on the box. -/
theorem C03_polynomial_box (N fuel : ℕ) (rtol : ℝ) (p : MvPolynomial (Fin n) ℝ) (a b : Fin n → ℝ) (M : Tensor n ℝ) (e : ℝ)
    (h : chebApproximator fuel rtol (.call fun x => MvPolynomial.eval x p) a b = .ok (M, e))
    (hd : ∀ j, p.degreeOf j < M.shape j ∧ M.shape j ≤ N) (he : 0 < e) :
    StrictOn N (fun x => MvPolynomial.eval x p) a b M e := by
  refine ⟨fun j => ⟨lt_of_le_of_lt (Nat.zero_le _) (hd j).1, (hd j).2⟩, fun x _ => ?_⟩
  rw [C38_exact_partial p a b rtol fuel M e h (fun i => (hd i).1) x]
  have : (Box.mk a b).map x = fun i => ((b i - a i) * x i + (b i + a i)) / 2 := by
    funext i; simp only [Box.map]; ring
  rw [this, sub_self, abs_zero]
  exact he

/-- **C03, polynomials** (`_partial` as C03: axes of at most `10^16` entries with `exact=True`, 7 by default).  `solve` with
the library's approximator loses no common zero of polynomials, in any run that returns, if on every box visited the
approximator found at least the degree of each polynomial and reported a positive error. -/
theorem C03_polynomial_partial (env : Env n ℝ) (la : LinAlg n ℝ) (henv : env.OK la false) (fuel' : ℕ) (rtol : ℝ)
    (p : Fin n → MvPolynomial (Fin n) ℝ) (exact : Bool) (minSize : ℝ) (fuel : ℕ) (a b : Fin n → ℝ)
    (roots : List (Fin n → ℝ)) (boxes : List (Box n ℝ))
    (h : solve env (chebApproximator fuel' rtol) (fun i => .call fun x => MvPolynomial.eval x (p i)) exact minSize fuel a b =
      .ok (roots, boxes))
    (hA : ∀ a' b', Visited env (chebApproximator fuel' rtol) (fun i => .call fun x => MvPolynomial.eval x (p i)) exact minSize
      fuel a b a' b' → ∀ i M e, chebApproximate fuel' (fun x => MvPolynomial.eval x (p i)) a' b' rtol = .ok (M, e) →
        (∀ j, (p i).degreeOf j < M.shape j ∧ M.shape j ≤ if exact then 10 ^ 16 else 7) ∧ 0 < e)
    (y : Fin n → ℝ) (hy : ∀ i, a i ≤ y i ∧ y i ≤ b i) (hroot : ∀ i, MvPolynomial.eval y (p i) = 0) :
    ∃ B ∈ boxes, ∀ i, B.lo i ≤ y i ∧ y i ≤ B.hi i := by
  have hS : StrictApproximations (if exact then 10 ^ 16 else 7) env (chebApproximator fuel' rtol)
      (fun i => .call fun x => MvPolynomial.eval x (p i)) exact minSize fuel a b := by
    intro a' b' hv i M e hM
    rw [approxOne_call] at hM
    obtain ⟨h1, h2⟩ := hA a' b' hv i M e hM
    exact C03_polynomial_box _ fuel' rtol (p i) a' b' M e hM h1 h2
  cases exact
  · exact C03_solve_default_partial env la henv _ _ minSize fuel a b roots boxes h hS y hy hroot
  · exact C03_solve_exact_partial env la henv _ _ minSize fuel a b roots boxes h hS y hy hroot

/-- Instance of the hypotheses on a box: `3 x` on `[-1,1]`. -/
example : ∃ M e, chebApproximator (n := 1) 1 (1 / 10 ^ 10) (.call fun x => MvPolynomial.eval x (MvPolynomial.C 3 * MvPolynomial.X 0))
      (fun _ => -1) (fun _ => 1) = .ok (M, e) ∧
    (∀ j, (MvPolynomial.C 3 * MvPolynomial.X 0 : MvPolynomial (Fin 1) ℝ).degreeOf j < M.shape j ∧ M.shape j ≤ 7) ∧ 0 < e := by
  have hf : (fun x : Fin 1 → ℝ => MvPolynomial.eval x (MvPolynomial.C 3 * MvPolynomial.X 0)) = linFun 3 := by
    funext x; simp [linFun]
  have hs := linFun_degrees 3 (by norm_num) 1 le_rfl
  unfold chebApproximator Func.value
  rw [hf]
  unfold chebApproximate
  rw [if_neg (by push Not; intro i; norm_num), hs]
  refine ⟨_, _, rfl, fun j => ?_, ?_⟩
  · constructor
    · refine lt_of_le_of_lt (MvPolynomial.degreeOf_mul_le j _ _) ?_
      rw [Subsingleton.elim j 0]
      simp [intervalApproximate]
    · simp [intervalApproximate]
  · rw [getApproxError_eq]
    have : (Finset.univ.filter fun idxs : Fin 1 → Bool => ∃ i, idxs i = true) = {fun _ => true} := by decide
    rw [this, Finset.sum_singleton, errorTerm_eq]
    simp only [tailFactor, Finset.univ_unique, Finset.prod_singleton]
    norm_num [usedEps, List.finRange_succ]

end YRoots
