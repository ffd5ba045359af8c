import Verif.Proofs.ApproxAlias
import Mathlib.Algebra.MvPolynomial.Degrees
import Mathlib.Topology.Algebra.InfiniteSum.Real
import Mathlib.Analysis.Real.Pi.Bounds

/-!
# Properties C36-C40: the Chebyshev approximator

Specification side: Mathlib's multivariate polynomials and their degrees, the defining sum `Tensor.eval`, absolute sums
of coefficient families, the cube.
-/

set_option linter.unusedSectionVars false
set_option linter.unusedVariables false
set_option linter.unusedSimpArgs false

namespace YRoots

open Finset Real

variable {n : ℕ}

/-! ### C36 -/

/-- C36.  With all degrees at least 1, the computed series agrees with `f` at all Chebyshev points of the box: at the point
`cos(j_i π / degs_i)` of the cube the series has the value of `f` at the corresponding point of `[a, b]`. -/
theorem C36_interpolates (f : (Fin n → ℝ) → ℝ) (degs : Fin n → ℕ) (hdegs : ∀ i, 1 ≤ degs i) (a b : Fin n → ℝ)
    (j : Fin n → ℕ) (hj : ∀ i, j i ≤ degs i) :
    (intervalApproximate f degs a b).coeffs.eval (fun i => cos (j i * π / degs i)) =
      f fun i => ((b i - a i) * cos (j i * π / degs i) + (b i + a i)) / 2 := by
  have h := fullCoef_interp degs hdegs (fun j => f (gridPt degs a b j)) j (mem_gridIdx.2 hj)
  unfold Tensor.eval
  rw [intervalApproximate_idx]
  simp_rw [intervalApproximate_coef, bumpDegs_eq hdegs]
  exact h

theorem mvPolynomial_polyAlong (p : MvPolynomial (Fin n) ℝ) (d : Fin n) :
    PolyAlong d (p.degreeOf d) (fun x => MvPolynomial.eval x p) := fun x => by
  refine ⟨∑ k ∈ p.support, Polynomial.C (p.coeff k * ∏ i ∈ univ.erase d, (x i) ^ (k i)) * Polynomial.X ^ (k d), ?_,
    fun t => ?_⟩
  · apply Polynomial.natDegree_sum_le_of_forall_le
    intro k hk
    exact (Polynomial.natDegree_C_mul_X_pow_le _ _).trans (MvPolynomial.monomial_le_degreeOf d hk)
  · beta_reduce
    rw [Polynomial.eval_finset_sum, MvPolynomial.eval_eq']
    apply sum_congr rfl
    intro k _
    rw [Polynomial.eval_mul, Polynomial.eval_C, Polynomial.eval_pow, Polynomial.eval_X, ← mul_prod_erase _ _ (mem_univ d),
      mul_assoc, mul_comm (Function.update x d t d ^ k d), Function.update_self]
    congr 2
    apply prod_congr rfl
    intro i hi
    rw [Function.update_of_ne (ne_of_mem_erase hi)]

/-- C36, second part.  If `f` is a polynomial of degree at most `degs i` in variable `i` (degree 0 allowed), the series is
`f` after the change of variable, at every point. -/
theorem C36_exact (p : MvPolynomial (Fin n) ℝ) (degs : Fin n → ℕ) (hp : ∀ i, p.degreeOf i ≤ degs i) (a b : Fin n → ℝ)
    (x : Fin n → ℝ) :
    (intervalApproximate (fun x => MvPolynomial.eval x p) degs a b).coeffs.eval x =
      MvPolynomial.eval (fun i => ((b i - a i) * x i + (b i + a i)) / 2) p :=
  intervalApproximate_exact _ degs a b (fun i => (mvPolynomial_polyAlong p i).mono (hp i)) x

/-- Instance: `exp` with 3 points on `[0, 2]`; the series is right at the midpoint. -/
example : (intervalApproximate (n := 1) (fun x => exp (x 0)) (fun _ => 2) (fun _ => 0) (fun _ => 2)).coeffs.eval
    (fun _ => cos (((1 : ℕ) : ℝ) * π / ((2 : ℕ) : ℝ))) = exp 1 := by
  have h := C36_interpolates (n := 1) (fun x => exp (x 0)) (fun _ => 2) (fun _ => by norm_num) (fun _ => 0) (fun _ => 2)
    (fun _ => 1) (fun _ => by norm_num)
  rw [h]
  simp

/-- Instance: `x y` in two variables with degrees 1 and 3. -/
example (x : Fin 2 → ℝ) : (intervalApproximate (n := 2)
    (fun x => MvPolynomial.eval x (MvPolynomial.X 0 * MvPolynomial.X 1)) ![1, 3] ![0, 0] ![2, 4]).coeffs.eval x =
      (2 * x 0 + 2) / 2 * ((4 * x 1 + 4) / 2) := by
  rw [C36_exact]
  · simp
  · intro i
    fin_cases i
    · refine (MvPolynomial.degreeOf_mul_le 0 _ _).trans ?_
      simp [MvPolynomial.degreeOf_X]
    · refine (MvPolynomial.degreeOf_mul_le 1 _ _).trans ?_
      simp [MvPolynomial.degreeOf_X]

/-! ### C37 -/

section

variable {K : Type*} [Field K] [LinearOrder K] [IsStrictOrderedRing K]

/-- Specification: outside the kept box the coefficients decay from `epsilons` at the rates `1/rhos`: in the directions
`U` in which `k` exceeds the degrees, the coefficient is at most the largest epsilon of these directions times
`∏ (1/rho_i)^(k_i - degs_i)` (an infinite rate means that the coefficient vanishes). -/
def Decays (degs : Fin n → ℕ) (epsilons : Fin n → K) (rhos : Fin n → WithTop K) (c : (Fin n → ℕ) → K) : Prop :=
  ∀ k, ∀ hU : (univ.filter fun i => degs i < k i).Nonempty,
    |c k| ≤ (univ.filter fun i => degs i < k i).sup' hU epsilons *
      ∏ i ∈ univ.filter (fun i => degs i < k i), (match rhos i with | ⊤ => 0 | (r : K) => 1 / r) ^ (k i - degs i)

theorem Decays.tail_le {degs : Fin n → ℕ} {epsilons : Fin n → K} {rhos : Fin n → WithTop K} {c : (Fin n → ℕ) → K}
    (h : Decays degs epsilons rhos c) (hr : ∀ i, 1 < rhos i) (S : Finset (Fin n → ℕ))
    (hS : ∀ k ∈ S, ∃ i, degs i < k i) : ∑ k ∈ S, |c k| ≤ getApproxError degs epsilons rhos := by
  apply YRoots.tail_le degs epsilons rhos hr c _ S hS
  intro k hU
  refine (h k hU).trans (le_of_eq ?_)
  congr 1

/-- C37, in any ordered field: the reported error bounds the absolute sum over every finite set of discarded coefficients. -/
theorem C37_tail (degs : Fin n → ℕ) (epsilons : Fin n → K) (rhos : Fin n → WithTop K) (hr : ∀ i, 1 < rhos i)
    (c : (Fin n → ℕ) → K) (hc : Decays degs epsilons rhos c) (S : Finset (Fin n → ℕ))
    (hS : ∀ k ∈ S, ∃ i, degs i < k i) : ∑ k ∈ S, |c k| ≤ getApproxError degs epsilons rhos :=
  hc.tail_le hr S hS

end

/-- C37, over the reals: the discarded coefficients are absolutely summable, and the reported error bounds their sum. -/
theorem C37_tail_sum (degs : Fin n → ℕ) (epsilons : Fin n → ℝ) (rhos : Fin n → WithTop ℝ) (hr : ∀ i, 1 < rhos i)
    (c : (Fin n → ℕ) → ℝ) (hc : Decays degs epsilons rhos c) :
    Summable (fun k : {k : Fin n → ℕ // ∃ i, degs i < k i} => |c k|) ∧
      ∑' k : {k : Fin n → ℕ // ∃ i, degs i < k i}, |c k| ≤ getApproxError degs epsilons rhos := by
  have h : ∀ S : Finset {k : Fin n → ℕ // ∃ i, degs i < k i}, ∑ k ∈ S, |c k| ≤ getApproxError degs epsilons rhos := by
    intro S
    have := C37_tail degs epsilons rhos hr c hc (S.map (Function.Embedding.subtype _))
      (by intro k hk; obtain ⟨k', -, rfl⟩ := mem_map.1 hk; exact k'.2)
    rwa [sum_map] at this
  exact ⟨summable_of_sum_le (fun _ => abs_nonneg _) h, Real.tsum_le_of_sum_le (fun _ => abs_nonneg _) h⟩

/-- Instance: `c_k = 3^(1-k)` in one variable, kept degree 1, epsilon 1, rate 3; the bound is 1/2 and is attained. -/
example : getApproxError (n := 1) (K := ℚ) (fun _ => 1) (fun _ => 1) (fun _ => (3 : ℚ)) = 1 / 2 ∧
    Decays (n := 1) (K := ℚ) (fun _ => 1) (fun _ => 1) (fun _ => (3 : ℚ)) (fun k => (1 / 3) ^ (k 0 - 1)) := by
  constructor
  · decide +kernel
  · intro k hU
    have h : (univ.filter fun i : Fin 1 => 1 < k i) = {0} := by
      obtain ⟨i, hi⟩ := hU
      ext j
      simp only [mem_filter, mem_univ, true_and] at hi
      have : i = 0 := Subsingleton.elim _ _
      have : j = 0 := Subsingleton.elim _ _
      subst_vars
      simp [hi]
    simp only [h, sup'_singleton, prod_singleton, one_mul]
    rw [abs_of_nonneg (by positivity)]

/-! ### C39 -/

theorem foldl_max_ge (l : List ℕ) (c : ℕ → ℝ) (m : ℝ) :
    m ≤ l.foldl (fun m k => max m (c k)) m ∧ ∀ k ∈ l, c k ≤ l.foldl (fun m k => max m (c k)) m := by
  induction l generalizing m with
  | nil => simp
  | cons j l ih =>
    rw [List.foldl_cons]
    refine ⟨(le_max_left _ _).trans (ih _).1, ?_⟩
    intro k hk
    rcases List.mem_cons.1 hk with rfl | hk
    · exact (le_max_right _ _).trans (ih _).1
    · exact (ih _).2 k hk

/-- C39.  For a list of at least two averaged coefficients, `getFinalDegree` returns an `epsVal` that is at least twice the
machine epsilon and twice every coefficient past three quarters of the list, and a degree inside the list such that every
coefficient beyond it is at most `epsVal`, or, when degree 0 is chosen, below `tol`.  Degree 0 is chosen exactly when all
coefficients but the first are below `tol`, and a degree above 1 has a coefficient above `epsVal`. -/
theorem C39_final_degree (len : ℕ) (hlen : 2 ≤ len) (c : ℕ → ℝ) (tol : ℝ) :
    let r := getFinalDegree len c tol
    2 * (1 / 2 ^ 52) ≤ r.epsVal ∧ (∀ k, 3 * (len - 1) / 4 ≤ k → k < len → 2 * c k ≤ r.epsVal) ∧
      r.degree < len ∧
      (∀ k, r.degree < k → k < len → c k ≤ r.epsVal ∨ (r.degree = 0 ∧ c k < tol)) ∧
      (r.degree = 0 ↔ ∀ k, 1 ≤ k → k < len → c k < tol) ∧ (2 ≤ r.degree → c r.degree > r.epsVal) := by
  intro r
  set cd := 3 * (len - 1) / 4 with hcd
  set m : ℝ := (List.range' cd (len - cd)).foldl (fun m k => max m (c k)) (macheps : ℝ) with hm
  have hm1 := foldl_max_ge (List.range' cd (len - cd)) c (macheps : ℝ)
  rw [← hm] at hm1
  have hmac : (macheps : ℝ) = 1 / 2 ^ 52 := rfl
  have hmpos : (0 : ℝ) < m := lt_of_lt_of_le (by rw [hmac]; positivity) hm1.1
  have heps : r.epsVal = 2 * m := by
    change (if 2 * m = 0 then _ else 2 * m) = 2 * m
    rw [if_neg (by linarith)]
  set l := (List.range len).filter fun k => test (c k > 2 * m) with hl
  set dg : ℕ := match l.getLast? with
    | none => 1
    | some k => max 1 k with hdg
  have hdeg : r.degree = if test (∀ k, 1 ≤ k → k < len → c k < tol) then 0 else dg := rfl
  have hlast : (∀ k < len, c k > 2 * m → k ≤ dg) ∧ 1 ≤ dg ∧ dg < len ∧ (2 ≤ dg → c dg > 2 * m) := by
    rw [hdg]
    cases hg : l.getLast? with
    | none =>
      have hnil : l = [] := List.getLast?_eq_none_iff.1 hg
      refine ⟨?_, le_rfl, by simp only; omega, by simp⟩
      intro k hk hc
      have : k ∈ l := by rw [hl, List.mem_filter]; exact ⟨List.mem_range.2 hk, (test_iff _).2 hc⟩
      rw [hnil] at this
      simp at this
    | some k0 =>
      have hmem : k0 ∈ l := List.mem_of_getLast? hg
      have h1 := List.mem_filter.1 hmem
      have h2 := List.mem_range.1 h1.1
      refine ⟨?_, by simp only; omega, by simp only; omega, ?_⟩
      · intro k hk hc
        have hkl : k ∈ l := by rw [hl, List.mem_filter]; exact ⟨List.mem_range.2 hk, (test_iff _).2 hc⟩
        have hs : l.Pairwise (· < ·) := List.Pairwise.filter _ List.pairwise_lt_range
        obtain ⟨l', hl'⟩ := List.getLast?_eq_some_iff.1 hg
        rw [hl'] at hs hkl
        rcases List.mem_append.1 hkl with h | h
        · have := (List.pairwise_append.1 hs).2.2 k h k0 (by simp)
          simp only; omega
        · have : k = k0 := by simpa using h
          simp only; omega
      · intro h
        simp only at h ⊢
        have : max 1 k0 = k0 := by omega
        rw [this]
        exact (test_iff _).1 h1.2
  obtain ⟨g1, g2, g3, g4⟩ := hlast
  refine ⟨by rw [heps, ← hmac]; linarith [hm1.1], ?_, ?_, ?_, ?_, ?_⟩
  · intro k hk1 hk2
    rw [heps]
    have := hm1.2 k (by rw [List.mem_range'_1]; omega)
    linarith
  · rw [hdeg]; split <;> omega
  · intro k hk1 hk2
    rw [hdeg] at hk1 ⊢
    by_cases ht : test (∀ k, 1 ≤ k → k < len → c k < tol) = true
    · rw [if_pos ht] at hk1 ⊢
      exact Or.inr ⟨rfl, (test_iff _).1 ht k (by omega) hk2⟩
    · rw [if_neg ht] at hk1 ⊢
      left
      rw [heps]
      by_contra hc
      have := g1 k hk2 (by linarith)
      omega
  · rw [hdeg]
    constructor
    · intro h
      by_contra hc
      rw [if_neg (by rw [test_iff]; exact hc)] at h
      omega
    · intro h
      rw [if_pos ((test_iff _).2 h)]
  · intro h
    rw [hdeg] at h ⊢
    split
    · rename_i ht; rw [if_pos ht] at h; omega
    · rename_i ht
      rw [if_neg ht] at h
      rw [heps]
      exact g4 h

/-- Instance: coefficients `4, 2, 1, 0, 0`; the degree is 2. -/
example : (getFinalDegree 5 (fun k => if k = 0 then 4 else if k = 1 then 2 else if k = 2 then 1 else 0) (1 / 10)).degree = 2 := by
  obtain ⟨h1, h2, h3, h4, h5, h6⟩ := C39_final_degree 5 (by norm_num)
    (fun k => if k = 0 then 4 else if k = 1 then 2 else if k = 2 then 1 else 0) (1 / 10)
  set r := getFinalDegree 5 (fun k => if k = 0 then 4 else if k = 1 then 2 else if k = 2 then 1 else 0) (1 / 10)
  have h0 : r.degree ≠ 0 := by
    intro h
    have := h5.1 h 1 (by norm_num) (by norm_num)
    norm_num at this
  have hle : r.epsVal < 1 := by
    change (if _ then _ else _) < (1 : ℝ)
    have : (macheps : ℝ) < 1 / 2 := by unfold macheps; norm_num
    have hp : (0 : ℝ) < macheps := by unfold macheps; norm_num
    have e : (List.range' (3 * (5 - 1) / 4) (5 - 3 * (5 - 1) / 4)).foldl (fun m k => max m
        (if k = 0 then (4 : ℝ) else if k = 1 then 2 else if k = 2 then 1 else 0)) (macheps : ℝ) = macheps := by
      simp [List.range', hp.le]
    rw [e, if_neg (by linarith)]
    linarith
  by_contra hne
  rcases lt_or_gt_of_ne hne with h | h
  · rcases h4 2 h (by norm_num) with h | h
    · norm_num at h; linarith
    · exact h0 h.1
  · have h7 := h6 (by omega)
    rw [if_neg (by omega), if_neg (by omega), if_neg (by omega)] at h7
    have : (0 : ℝ) < 2 * (1 / 2 ^ 52) := by positivity
    linarith

/-! ### C38 -/

theorem argmax_spec (len : ℕ) (hlen : 1 ≤ len) (c : ℕ → ℝ) : argmax len c < len ∧ ∀ k < len, c k ≤ c (argmax len c) := by
  have gen : ∀ m, argmax m c < max m 1 ∧ ∀ k < m, c k ≤ c (argmax m c) := by
    intro m
    induction m with
    | zero => simp [argmax]
    | succ m ih =>
      have e : argmax (m + 1) c = if c m > c (argmax m c) then m else argmax m c := by
        simp [argmax, List.range_succ]
      rw [e]
      split
      · rename_i h
        refine ⟨by omega, fun k hk => ?_⟩
        rcases Nat.lt_succ_iff_lt_or_eq.1 hk with hk | rfl
        · exact (ih.2 k hk).trans h.le
        · exact le_rfl
      · rename_i h
        refine ⟨by have := ih.1; omega, fun k hk => ?_⟩
        rcases Nat.lt_succ_iff_lt_or_eq.1 hk with hk | rfl
        · exact ih.2 k hk
        · exact not_lt.1 h
  have := gen len
  rwa [max_eq_left hlen] at this

/-- Chunks of a one-dimensional tensor. -/
theorem coeffChunk_one (M : Tensor 1 ℝ) (k : ℕ) :
    coeffChunk M 0 k = if k < M.shape 0 then |M.coef fun _ => k| else 0 := by
  unfold coeffChunk
  have he : (univ.erase (0 : Fin 1)) = ∅ := by decide
  rw [he, prod_empty, div_one]
  split
  · rename_i h
    rw [show M.idx.filter (fun j => j 0 = k) = {fun _ => k} from ?_, sum_singleton]
    ext j
    simp only [Tensor.idx, mem_filter, Fintype.mem_piFinset, mem_range, mem_singleton]
    constructor
    · rintro ⟨-, h⟩; ext i; rw [Subsingleton.elim i 0]; exact h
    · rintro rfl; exact ⟨fun i => by rw [Subsingleton.elim i 0]; exact h, rfl⟩
  · rename_i h
    rw [show M.idx.filter (fun j => j 0 = k) = ∅ from ?_, sum_empty]
    ext j
    simp only [Tensor.idx, mem_filter, Fintype.mem_piFinset, mem_range, notMem_empty, iff_false]
    rintro ⟨h1, rfl⟩
    exact h (h1 0)

section Linear

/-- The function `c x` of one variable. -/
noncomputable def linFun (c : ℝ) : (Fin 1 → ℝ) → ℝ := fun x => c * x 0

theorem linFun_coef (c : ℝ) (N : Fin 1 → ℕ) (hN : 1 ≤ N 0) (k : Fin 1 → ℕ) (hk : k 0 ≤ N 0) :
    (intervalApproximate (linFun c) N (fun _ => -1) (fun _ => 1)).coeffs.coef k = if k 0 = 1 then c else 0 := by
  have hN' : ∀ i, 1 ≤ N i := fun i => by rw [Subsingleton.elim i 0]; exact hN
  rw [intervalApproximate_coef, bumpDegs_eq hN']
  apply fullCoef_recover N hN' (fun k => if k 0 = 1 then c else 0)
  · intro j hj
    rw [sum_eq_single (fun _ => 1)]
    · simp only [linFun, gridPt, transformPt, if_true, univ_unique, prod_singleton, chebT_one, Fin.default_eq_zero]
      ring
    · intro m _ hm
      rw [if_neg, zero_mul]
      intro h; apply hm; ext i; rw [Subsingleton.elim i 0]; exact h
    · intro h; exact absurd (mem_gridIdx.2 hN') h
  · exact mem_gridIdx.2 fun i => by rw [Subsingleton.elim i 0]; exact hk

theorem linFun_chunk (c : ℝ) (hc : 0 < c) (N : Fin 1 → ℕ) (hN : 1 ≤ N 0) :
    coeffChunk (intervalApproximate (linFun c) N (fun _ => -1) (fun _ => 1)).coeffs 0 = fun k => if k = 1 then c else 0 := by
  ext k
  rw [coeffChunk_one]
  have hsh : (intervalApproximate (linFun c) N (fun _ => -1) (fun _ => 1)).coeffs.shape 0 = N 0 + 1 := rfl
  rw [hsh]
  split
  · rename_i h
    rw [linFun_coef c N hN _ (Nat.lt_succ_iff.1 h)]
    by_cases h1 : k = 1
    · simp [h1, abs_of_pos hc]
    · simp [h1]
  · rename_i h
    rw [if_neg (by omega)]

theorem linFun_supNorm (c : ℝ) (hc : 0 < c) (N : Fin 1 → ℕ) (hN : 1 ≤ N 0) :
    (intervalApproximate (linFun c) N (fun _ => -1) (fun _ => 1)).supNorm = c := by
  have hN' : ∀ i, 1 ≤ N i := fun i => by rw [Subsingleton.elim i 0]; exact hN
  apply le_antisymm
  · apply supNorm_le _ _ _ _ hc.le
    intro j _
    simp only [linFun, gridPt, transformPt, abs_mul, abs_of_pos hc]
    have : |chebPt (bumpDegs N 0) (j 0)| ≤ 1 := abs_cos_le_one _
    rw [show ((1 - -1) * chebPt (bumpDegs N 0) (j 0) + (1 + -1)) / 2 = chebPt (bumpDegs N 0) (j 0) by ring]
    nlinarith
  · have := le_supNorm (linFun c) N (fun _ => -1) (fun _ => 1) (j := fun _ => 0) (mem_gridIdx.2 fun i => Nat.zero_le _)
    refine le_trans (le_of_eq ?_) this
    simp [linFun, gridPt, transformPt, chebPt, abs_of_pos hc]

theorem linFun_final (c : ℝ) (hc : 0 < c) :
    getFinalDegree 18 (fun k => if k = 1 then c else 0) (0 + c * (1 / 10 ^ 10)) = ⟨1, 2 / 2 ^ 52, c / (2 / 2 ^ 52)⟩ := by
  have h39 := C39_final_degree 18 (by norm_num) (fun k => if k = 1 then c else 0) (0 + c * (1 / 10 ^ 10))
  have heps : (getFinalDegree 18 (fun k => if k = 1 then c else 0) (0 + c * (1 / 10 ^ 10))).epsVal = 2 / 2 ^ 52 := by
    have hp : (0 : ℝ) < macheps := by unfold macheps; norm_num
    have e : (List.range' (3 * (18 - 1) / 4) (18 - 3 * (18 - 1) / 4)).foldl
        (fun m k => max m (if k = 1 then c else 0)) (macheps : ℝ) = macheps := by
      simp [List.range', hp.le]
    change (if 2 * (List.range' (3 * (18 - 1) / 4) (18 - 3 * (18 - 1) / 4)).foldl
        (fun m k => max m (if k = 1 then c else 0)) (macheps : ℝ) = 0 then _ else 2 * (List.range' (3 * (18 - 1) / 4)
        (18 - 3 * (18 - 1) / 4)).foldl (fun m k => max m (if k = 1 then c else 0)) (macheps : ℝ)) = _
    rw [e, if_neg (by linarith)]
    unfold macheps
    ring
  set r := getFinalDegree 18 (fun k => if k = 1 then c else 0) (0 + c * (1 / 10 ^ 10)) with hr
  obtain ⟨-, -, h3, h4, h5, h6⟩ := h39
  have hdeg : r.degree = 1 := by
    have h0 : r.degree ≠ 0 := by
      intro h
      have := h5.1 h 1 (by norm_num) (by norm_num)
      simp only [if_true] at this
      norm_num at this
      linarith
    by_contra h1
    have := h6 (by omega)
    rw [if_neg h1, heps] at this
    norm_num at this
  have hmax : argmax 18 (fun k => if k = 1 then c else 0) = 1 := by
    obtain ⟨-, h⟩ := argmax_spec 18 (by norm_num) (fun k => if k = 1 then c else 0)
    have := h 1 (by norm_num)
    by_contra h1
    rw [if_pos rfl, if_neg h1] at this
    linarith
  have hrho : r.rho = c / (2 / 2 ^ 52) := by
    have : r.rho = ((fun k => if k = 1 then c else 0) (argmax 18 fun k => if k = 1 then c else 0) / r.epsVal) ^
        ((1 : ℝ) / (((r.degree : ℝ) - (argmax 18 fun k => if k = 1 then c else 0 : ℕ)) + 1)) := rfl
    rw [this, hmax, hdeg, heps]
    simp
  cases hrr : r with
  | mk d e rho =>
    rw [hrr] at hdeg heps hrho
    simp only at hdeg heps hrho
    rw [hdeg, heps, hrho]

theorem linFun_degrees (c : ℝ) (hc : 0 < c) (fuel : ℕ) (hfuel : 1 ≤ fuel) :
    getChebyshevDegrees (linFun c) (fun _ => -1) (fun _ => 1) (1 / 10 ^ 10) 0 fuel =
      .ok ⟨fun _ => some 1, fun _ => 2 / 2 ^ 52, fun _ => ((c / (2 / 2 ^ 52) : ℝ) : WithTop ℝ)⟩ := by
  obtain ⟨fuel, rfl⟩ : ∃ k, fuel = k + 1 := ⟨fuel - 1, by omega⟩
  have hconst : checkConstantInDimension (linFun c) (fun _ => -1) (fun _ => 1) 0 (1 / 10 ^ 10) 0 = false := by
    unfold checkConstantInDimension
    simp only [Bool.and_eq_false_iff]
    left
    rw [← Bool.not_eq_true]
    unfold constantAlong
    rw [Bool.and_eq_true, test_iff]
    rintro ⟨-, h⟩
    have := h 0 (by simp [testVals1])
    simp only [isCloseTol, linFun, transformPt, Function.update_self, transform1] at this
    norm_num [abs_of_pos, hc.ne', abs_mul] at this
    rw [abs_of_pos hc] at this
    linarith
  have hloop : degreeLoop (linFun c) (fun _ => -1) (fun _ => 1) (1 / 10 ^ 10) 0 0 (fuel + 1) (fun _ => 5) 8 =
      .ok ⟨1, 2 / 2 ^ 52, c / (2 / 2 ^ 52)⟩ := by
    have hu : ∀ g, 1 ≤ g → ∀ N : Fin 1 → ℕ, 1 ≤ Function.update N 0 g 0 := by intro g hg N; simpa using hg
    have hb : ∀ g, 1 ≤ g → ∀ N : Fin 1 → ℕ,
        (intervalApproximate (linFun c) (Function.update N 0 g) (fun _ => -1) (fun _ => 1)).degs = fun _ => g := by
      intro g hg N
      rw [intervalApproximate_degs, bumpDegs_eq (fun i => by rw [Subsingleton.elim i 0]; exact hu g hg N)]
      ext i; rw [Subsingleton.elim i 0]; simp
    rw [degreeLoop]
    simp only
    rw [linFun_supNorm c hc _ (hu 8 (by norm_num) _), linFun_chunk c hc _ (hu 8 (by norm_num) _), hb 8 (by norm_num),
      linFun_supNorm c hc _ (hu (8 * 2 + 1) (by norm_num) _), linFun_chunk c hc _ (hu (8 * 2 + 1) (by norm_num) _), max_self]
    rw [if_neg, if_neg]
    · congr 1
      exact linFun_final c hc
    · rw [Bool.not_eq_true', Bool.not_eq_false]
      unfold hasConverged
      rw [test_iff]
      intro k hk
      have hk0 : k 0 ≤ 17 := by
        have := Fintype.mem_piFinset.1 hk 0
        have h2 := mem_range.1 this
        have : (intervalApproximate (linFun c) (Function.update (fun _ => 8) 0 (8 * 2 + 1)) (fun _ => -1)
          (fun _ => 1)).coeffs.shape 0 = 18 := rfl
        omega
      have h2 := linFun_coef c (Function.update (fun _ => 8) 0 (8 * 2 + 1)) (hu _ (by norm_num) _) k (by simpa using hk0)
      have hpos : 0 < 0 + c * (1 / 10 ^ 10) := by positivity
      simp only
      split
      · rename_i h
        have hk1 : k 0 < 9 := h 0
        rw [h2, linFun_coef c _ (hu 8 (by norm_num) _) k (by simp; omega), sub_self, abs_zero]
        exact hpos
      · rename_i h
        have hk1 : ¬ k 0 < 9 := by
          intro h9; apply h; intro i; rw [Subsingleton.elim i 0]; exact h9
        rw [h2, if_neg (by omega), abs_zero]
        exact hpos
    · rw [Bool.not_eq_true', Bool.not_eq_false]
      unfold startedConverging
      rw [test_iff]
      intro k hk1 hk2
      have : (intervalApproximate (linFun c) (Function.update (fun _ => 5) 0 8) (fun _ => -1)
          (fun _ => 1)).coeffs.shape 0 = 9 := rfl
      rw [this] at hk1
      beta_reduce
      rw [if_neg (by omega)]
      positivity
  unfold getChebyshevDegrees
  simp only [List.finRange_succ, List.finRange_zero, List.map_nil, List.foldlM_cons, List.foldlM_nil]
  have h1 : degStep (linFun c) (fun _ => -1) (fun _ => 1) (1 / 10 ^ 10) 0 (fuel + 1)
      ⟨fun d => if checkConstantInDimension (linFun c) (fun _ => -1) (fun _ => 1) d (1 / 10 ^ 10) 0 then some 0 else none,
        fun _ => 0, fun _ => ⊤⟩ 0 =
      .ok ⟨fun _ => some 1, fun _ => 2 / 2 ^ 52, fun _ => ((c / (2 / 2 ^ 52) : ℝ) : WithTop ℝ)⟩ := by
    unfold degStep
    simp only
    rw [hconst]
    rw [if_neg (by simp)]
    have hfix : fixedDegs (n := 1) ⟨fun d => if checkConstantInDimension (linFun c) (fun _ => -1) (fun _ => 1) d
        (1 / 10 ^ 10) 0 then some 0 else none, fun _ => 0, fun _ => ⊤⟩ = fun _ => 5 := by
      ext i
      rw [Subsingleton.elim i 0]
      simp only [fixedDegs, hconst]
      simp
    rw [hfix, hloop]
    simp only
    congr 2
    · ext i; rw [Subsingleton.elim i 0]; simp
    · ext i; rw [Subsingleton.elim i 0]; simp
    · ext i; rw [Subsingleton.elim i 0]; simp
  rw [h1]
  rfl

/-- The complete run on `c x`. -/
theorem linFun_run (c : ℝ) (hc : 0 < c) (fuel : ℕ) (hfuel : 1 ≤ fuel) :
    ∃ M, chebApproximate fuel (linFun c) (fun _ => -1) (fun _ => 1) =
      .ok (M, 1 / (c / (2 / 2 ^ 52) - 1) * (2 / 2 ^ 52)) := by
  unfold chebApproximate
  rw [if_neg (by simp), linFun_degrees c hc fuel hfuel]
  refine ⟨(intervalApproximate (linFun c) (fun _ => 1) (fun _ => -1) (fun _ => 1)).coeffs, ?_⟩
  have h : getApproxError (intervalApproximate (linFun c) (fun _ => 1) (fun _ => -1) (fun _ => 1)).degs
      (fun _ => (2 / 2 ^ 52 : ℝ)) (fun _ => ((c / (2 / 2 ^ 52) : ℝ) : WithTop ℝ)) =
      1 / (c / (2 / 2 ^ 52) - 1) * (2 / 2 ^ 52) := by
    rw [getApproxError_eq]
    have : (univ.filter fun idxs : Fin 1 → Bool => ∃ i, idxs i = true) = {fun _ => true} := by decide
    rw [this, sum_singleton, errorTerm_eq]
    have h2 : usedEps (n := 1) (fun _ => (2 / 2 ^ 52 : ℝ)) (fun _ => true) = 2 / 2 ^ 52 := by
      simp [usedEps, List.finRange_succ]
      positivity
    rw [h2]
    simp [tailFactor]
  rw [← h]
  rfl

end Linear

/-- C38 is false of the code, first reason: for every linear function `c x` with `0 < c < 2^-51` on `[-1, 1]` the
returned error is negative. -/
theorem C38_false_negative (c : ℝ) (h0 : 0 < c) (h1 : c < 1 / 2 ^ 51) (fuel : ℕ) (hfuel : 1 ≤ fuel) :
    ∃ M err, chebApproximate fuel (fun x : Fin 1 → ℝ => c * x 0) (fun _ => -1) (fun _ => 1) = .ok (M, err) ∧ err < 0 := by
  obtain ⟨M, hM⟩ := linFun_run c h0 fuel hfuel
  refine ⟨M, _, hM, ?_⟩
  apply mul_neg_of_neg_of_pos _ (by positivity)
  apply div_neg_of_pos_of_neg one_pos
  rw [sub_neg, div_lt_one (by positivity)]
  linarith

/-- All points of `[-1, 1]` at which `checkConstantInDimension` looks for one variable. -/
noncomputable def sampled : List ℝ :=
  [8984743990614998 / 10 ^ 16, (2598647169391334 / 10 ^ 16) ^ 2, -7996847717584993 / 10 ^ 16,
    18546110255464776 / 10 ^ 17, -13975937255055182 / 10 ^ 17, 0, 1, -1, -17223860129797386 / 10 ^ 17,
    10828286380141305 / 10 ^ 17, -5333148248321931 / 10 ^ 16, 46471703497219596 / 10 ^ 17]

/-- C38 is false of the code, second reason: the polynomial `1 + ∏ (x - t)`, over the twelve sampled points, is taken for a
constant: the returned error is 0, the returned series is 1 everywhere, and the polynomial is not 1 at `1/2`. -/
theorem C38_false_constant (fuel : ℕ) :
    ∃ M, chebApproximate fuel (fun x : Fin 1 → ℝ => 1 + (sampled.map fun t => x 0 - t).prod) (fun _ => -1) (fun _ => 1) =
        .ok (M, 0) ∧ (∀ x, M.eval x = 1) ∧ 1 + (sampled.map fun t => (1 / 2 : ℝ) - t).prod ≠ 1 := by
  set f : (Fin 1 → ℝ) → ℝ := fun x => 1 + (sampled.map fun t => x 0 - t).prod with hf
  have hone : ∀ x : Fin 1 → ℝ, x 0 ∈ sampled → f x = 1 := by
    intro x hx
    have : (sampled.map fun t => x 0 - t).prod = 0 := by
      rw [List.prod_eq_zero_iff, List.mem_map]
      exact ⟨x 0, hx, sub_self _⟩
    rw [hf]
    simp only
    rw [this, add_zero]
  have hconst : checkConstantInDimension f (fun _ => -1) (fun _ => 1) 0 (1 / 10 ^ 10) 0 = true := by
    have key : ∀ (x : Fin 1 → ℝ) (vals : List ℝ), x 0 ∈ sampled → (∀ v ∈ vals, v ∈ sampled) →
        constantAlong f (fun _ => -1) (fun _ => 1) 0 (1 / 10 ^ 10) 0 x vals = true := by
      intro x vals hx hvals
      unfold constantAlong
      rw [Bool.and_eq_true, Bool.not_eq_true', ← Bool.not_eq_true, test_iff, test_iff, hone x hx]
      refine ⟨by simp [isCloseTol], ?_⟩
      intro v hv
      rw [hone]
      · simp [isCloseTol]
      · rw [Function.update_self]
        have : transform1 v (-1) 1 = v := by unfold transform1; ring
        rw [this]
        exact hvals v hv
    unfold checkConstantInDimension
    rw [Bool.and_eq_true]
    constructor
    · apply key
      · have : transformPt (fun i : Fin 1 => (8984743990614998 / 10 ^ 16 : ℝ) ^ (i.1 + 1)) (fun _ => -1) (fun _ => 1) 0 =
            8984743990614998 / 10 ^ 16 := by simp [transformPt]; ring
        rw [this]
        simp [sampled]
      · intro v hv
        simp only [testVals1, List.mem_cons, List.not_mem_nil, or_false] at hv
        rcases hv with h | h | h | h | h | h <;> simp [h, sampled]
    · apply key
      · have : transformPt (fun i : Fin 1 => (-(2598647169391334 / 10 ^ 16) * ((i.1 : ℝ) + 1) / (1 : ℕ) : ℝ) ^ 2)
            (fun _ => -1) (fun _ => 1) 0 = (2598647169391334 / 10 ^ 16) ^ 2 := by simp [transformPt]; ring
        rw [this]
        simp [sampled]
      · intro v hv
        simp only [testVals2, List.mem_cons, List.not_mem_nil, or_false] at hv
        rcases hv with h | h | h | h <;> simp [h, sampled]
  have hs : getChebyshevDegrees f (fun _ => -1) (fun _ => 1) (1 / 10 ^ 10) 0 fuel =
      .ok ⟨fun _ => some 0, fun _ => 0, fun _ => ⊤⟩ := by
    have hinit : (⟨fun d => if checkConstantInDimension f (fun _ => -1) (fun _ => 1) d (1 / 10 ^ 10) 0 then some 0 else none,
        fun _ => 0, fun _ => ⊤⟩ : DegState 1) = ⟨fun _ => some 0, fun _ => 0, fun _ => ⊤⟩ := by
      congr 1
      ext1 i
      rw [Subsingleton.elim i 0, hconst, if_pos rfl]
    unfold getChebyshevDegrees
    rw [hinit]
    simp only [List.finRange_succ, List.finRange_zero, List.map_nil, List.foldlM_cons, List.foldlM_nil]
    have : degStep f (fun _ => -1) (fun _ => 1) (1 / 10 ^ 10) 0 fuel ⟨fun _ => some 0, fun _ => 0, fun _ => ⊤⟩ 0 =
        .ok ⟨fun _ => some 0, fun _ => 0, fun _ => ⊤⟩ := by
      unfold degStep
      rw [if_pos rfl]
      simp
    rw [this]
    rfl
  refine ⟨(intervalApproximate f (fun _ => 0) (fun _ => -1) (fun _ => 1)).coeffs, ?_, ?_, ?_⟩
  · have h : getApproxError (intervalApproximate f (fun _ => 0) (fun _ => -1) (fun _ => 1)).degs
      (fun _ => (0 : ℝ)) (fun _ => (⊤ : WithTop ℝ)) = 0 := by
      rw [getApproxError_eq]
      have : (univ.filter fun idxs : Fin 1 → Bool => ∃ i, idxs i = true) = {fun _ => true} := by decide
      rw [this, sum_singleton, errorTerm_eq]
      simp [tailFactor]
    unfold chebApproximate
    rw [if_neg (by simp), hs]
    nth_rewrite 2 [← h]
    rfl
  · intro x
    have hidx : (gridIdx (n := 1) fun _ => 0) = {fun _ => 0} := by decide
    unfold Tensor.eval
    rw [intervalApproximate_idx, hidx, sum_singleton, intervalApproximate_coef]
    have : fullCoef (bumpDegs fun _ : Fin 1 => 0) (fun j => f (gridPt (bumpDegs fun _ => 0) (fun _ => -1) (fun _ => 1) j))
        (fun _ => 0) = 1 := by
      apply fullCoef_recover _ (one_le_bumpDegs _) (fun k => if k 0 = 0 then 1 else 0)
      · intro j hj
        have hj0 : j 0 ≤ 1 := mem_gridIdx.1 hj 0
        rw [hone]
        · rw [sum_eq_single (fun _ => 0)]
          · simp
          · intro m _ hm
            rw [if_neg, zero_mul]
            intro h; apply hm; ext i; rw [Subsingleton.elim i 0]; exact h
          · intro h; exact absurd (mem_gridIdx.2 fun i => Nat.zero_le _) h
        · have h01 : j 0 = 0 ∨ j 0 = 1 := by omega
          rcases h01 with h | h
          · simp [gridPt, transformPt, chebPt, bumpDegs, h, sampled]
          · simp [gridPt, transformPt, chebPt, bumpDegs, h, sampled]
      · exact mem_gridIdx.2 fun i => Nat.zero_le _
    rw [this]
    simp
  · have : (sampled.map fun t => (1 / 2 : ℝ) - t).prod ≠ 0 := by
      rw [ne_eq, List.prod_eq_zero_iff]
      simp only [sampled, List.map_cons, List.map_nil, List.mem_cons, List.not_mem_nil, or_false, not_or]
      norm_num
    intro h
    exact this (by linarith)

/-- C38, the part that holds.  Full claim: for every polynomial, `0 ≤ error` and `|f - series| ≤ error` on the box (false,
see the two theorems above).  Here: if the search ends with rates above 1, and the Chebyshev coefficients of `f` outside
the kept box decay at the rates and from the epsilons found, then `0 ≤ error` and `|f - series| ≤ 2 error` on the box.
The factor 2 is needed as the code estimates the discarded tail only, not its aliasing onto the kept coefficients. -/
theorem C38_bound_partial (f : (Fin n → ℝ) → ℝ) (a b : Fin n → ℝ) (hab : ∀ i, a i ≤ b i) (rtol : ℝ) (fuel : ℕ)
    (s : DegState n) (hs : getChebyshevDegrees f a b rtol 0 fuel = .ok s) (hr : ∀ i, 1 < s.rhos i)
    (S : Finset (Fin n → ℕ)) (c : (Fin n → ℕ) → ℝ)
    (hf : ∀ x, InCube x → f (transformPt x a b) = ∑ k ∈ S, c k * ∏ i, chebT (k i) (x i))
    (hc : Decays (fun i => (s.degs i).getD 0) s.epsilons s.rhos c) :
    ∃ M err, chebApproximate fuel f a b rtol = .ok (M, err) ∧ 0 ≤ err ∧
      ∀ x, InCube x → |f (transformPt x a b) - M.eval x| ≤ 2 * err := by
  unfold chebApproximate
  rw [if_neg (by push Not; exact hab), hs]
  refine ⟨_, _, rfl, getApproxError_nonneg _ _ _ hr, fun x hx => ?_⟩
  refine (alias_error f _ a b S c hf x hx).trans ?_
  have h1 := hc.tail_le hr (S.filter fun k => ∃ i, (fun i => (s.degs i).getD 0) i < k i) (fun k hk => (mem_filter.1 hk).2)
  have h2 := getApproxError_mono _ _ (le_bumpDegs fun i => (s.degs i).getD 0) s.epsilons s.rhos hr
  have h3 := h1.trans h2
  rw [intervalApproximate_degs]
  linarith

/-- C38, another part: whenever the degrees found are at least those of the polynomial, the returned series is exact (so
that every nonnegative error is a bound). -/
theorem C38_exact_partial (p : MvPolynomial (Fin n) ℝ) (a b : Fin n → ℝ) (rtol : ℝ) (fuel : ℕ) (M : Tensor n ℝ) (err : ℝ)
    (h : chebApproximate fuel (fun x => MvPolynomial.eval x p) a b rtol = .ok (M, err))
    (hM : ∀ i, p.degreeOf i < M.shape i) (x : Fin n → ℝ) :
    M.eval x = MvPolynomial.eval (fun i => ((b i - a i) * x i + (b i + a i)) / 2) p := by
  unfold chebApproximate at h
  split at h
  · cases h
  · split at h
    · cases h
    · rename_i s _
      simp only [Except.ok.injEq, Prod.mk.injEq] at h
      obtain ⟨rfl, -⟩ := h
      exact C36_exact p _ (fun i => Nat.lt_succ_iff.1 (hM i)) a b x

/-- Instance of `C38_bound_partial`: `3 x` on `[-1, 1]`. -/
example : ∃ M err, chebApproximate 1 (linFun 3) (fun _ => -1) (fun _ => 1) = .ok (M, err) ∧ 0 ≤ err ∧
      ∀ x, InCube x → |linFun 3 (transformPt x (fun _ => -1) (fun _ => 1)) - M.eval x| ≤ 2 * err := by
  refine C38_bound_partial (linFun 3) _ _ (fun _ => by norm_num) _ 1 _ (linFun_degrees 3 (by norm_num) 1 le_rfl) ?_
    {fun _ => 1} (fun k => if k 0 = 1 then 3 else 0) ?_ ?_
  · intro i
    simp only
    rw [← WithTop.coe_one, WithTop.coe_lt_coe]
    norm_num
  · intro x _
    simp only [sum_singleton, if_true, univ_unique, prod_singleton, chebT_one, Fin.default_eq_zero, linFun, transformPt]
    ring
  · intro k hU
    obtain ⟨i, hi⟩ := hU
    have hi' := (mem_filter.1 hi).2
    rw [Subsingleton.elim i 0] at hi'
    simp only [Option.getD_some] at hi'
    have h0 : (fun k : Fin 1 → ℕ => if k 0 = 1 then (3 : ℝ) else 0) k = 0 := if_neg (by omega)
    refine le_trans (le_of_eq (by rw [h0, abs_zero])) (mul_nonneg ?_ ?_)
    · refine le_trans ?_ (le_sup' _ hi)
      simp only
      positivity
    · apply prod_nonneg
      intro j _
      apply pow_nonneg
      simp only
      positivity

/-- Instance of `C38_exact_partial`: `3 x` on `[-1, 1]`; the degree found is 1. -/
example : ∃ M err, chebApproximate 1 (fun x : Fin 1 → ℝ => MvPolynomial.eval x (MvPolynomial.C 3 * MvPolynomial.X 0))
    (fun _ => -1) (fun _ => 1) = .ok (M, err) ∧ M.eval (fun _ => 1 / 4) = 3 / 4 := by
  have hfun : (fun x : Fin 1 → ℝ => MvPolynomial.eval x (MvPolynomial.C 3 * MvPolynomial.X 0)) = linFun 3 := by
    ext x; simp [linFun]
  have h : ∃ e, chebApproximate 1 (linFun 3) (fun _ => -1) (fun _ => 1) =
      .ok ((intervalApproximate (linFun 3) (fun _ => 1) (fun _ => -1) (fun _ => 1)).coeffs, e) := by
    unfold chebApproximate
    rw [if_neg (by simp), linFun_degrees 3 (by norm_num) 1 le_rfl]
    exact ⟨_, rfl⟩
  rw [← hfun] at h
  obtain ⟨e, h⟩ := h
  refine ⟨_, _, h, ?_⟩
  rw [C38_exact_partial _ _ _ _ _ _ _ h]
  · simp
    norm_num
  · intro i
    change _ < 1 + 1
    rw [Nat.lt_succ_iff]
    refine (MvPolynomial.degreeOf_C_mul_le _ _ _).trans ?_
    rw [Subsingleton.elim i 0]
    simp [MvPolynomial.degreeOf_X]

/-! ### C40 -/

theorem degStep_diverges (f : (Fin n → ℝ) → ℝ) (a b : Fin n → ℝ) (hab : ∀ i, a i ≤ b i) (rtol : ℝ) (fuel : ℕ) (d : Fin n)
    (hd : d.1 = 0) (hconst : checkConstantInDimension f a b d rtol 0 = false)
    (hloop : ∀ s : DegState n, (∀ i, s.degs i = if checkConstantInDimension f a b i rtol 0 then some 0 else none) →
      degreeLoop f a b rtol 0 d fuel (fixedDegs s) 8 = .error .outOfFuel) :
    chebApproximate fuel f a b rtol = .error .outOfFuel := by
  unfold chebApproximate
  rw [if_neg (by push Not; exact hab)]
  have : getChebyshevDegrees f a b rtol 0 fuel = .error .outOfFuel := by
    unfold getChebyshevDegrees
    obtain ⟨m, rfl⟩ : ∃ m, n = m + 1 := ⟨n - 1, by have := d.2; omega⟩
    have hd0 : d = 0 := Fin.ext hd
    subst hd0
    rw [List.finRange_succ, List.foldlM_cons]
    have : ∀ s : DegState (m + 1), (∀ i, s.degs i = if checkConstantInDimension f a b i rtol 0 then some 0 else none) →
        degStep f a b rtol 0 fuel s 0 = .error .outOfFuel := by
      intro s hs
      unfold degStep
      rw [if_neg, hloop s hs]
      rw [hs 0, hconst]
      simp
    rw [this _ fun i => rfl]
    rfl
  rw [this]

/-- C40 is false of the code: on the zero polynomial, in every dimension and on every box, no number of passes is enough. -/
theorem C40_false_zero (a b : Fin (n + 1) → ℝ) (hab : ∀ i, a i ≤ b i) (rtol : ℝ) (fuel : ℕ) :
    chebApproximate fuel (fun _ => 0) a b rtol = .error .outOfFuel := by
  apply degStep_diverges _ a b hab rtol fuel 0 rfl
  · unfold checkConstantInDimension constantAlong
    simp [isCloseTol]
  · intro s _
    exact loop_diverges _ a b 0 rtol (fun _ => True) (fun _ _ _ => trivial) (fun _ _ _ _ _ => rfl) fuel _ _ trivial

/-- The polynomial `x ∏_{j ≤ 5} (y - cos(j π / 5))`. -/
noncomputable def unlucky : (Fin 2 → ℝ) → ℝ := fun x => x 0 * ∏ j ∈ range 6, (x 1 - cos (j * π / 5))

/-- C40 is false of the code also for a nonzero polynomial: `x ∏_{j ≤ 5} (y - cos(j π / 5))` on `[-1, 1]²` vanishes
whenever `y` is one of the six points that the search in direction `x` uses, and this search goes on without end. -/
theorem C40_false_nonzero (rtol : ℝ) (fuel : ℕ) :
    chebApproximate fuel (fun x : Fin 2 → ℝ => x 0 * ∏ j ∈ range 6, (x 1 - cos (j * π / 5))) (fun _ => -1) (fun _ => 1) rtol =
        .error .outOfFuel ∧
      ∃ x : Fin 2 → ℝ, x 0 * ∏ j ∈ range 6, (x 1 - cos (j * π / 5)) ≠ 0 := by
  constructor
  · change chebApproximate fuel unlucky (fun _ => -1) (fun _ => 1) rtol = _
    have hzero : ∀ x : Fin 2 → ℝ, x 0 = 0 ∨ x 1 = 1 → unlucky x = 0 := by
      intro x hx
      unfold unlucky
      rcases hx with hx | hx
      · rw [hx, zero_mul]
      · rw [prod_eq_zero (mem_range.2 (show 0 < 6 by norm_num)), mul_zero]
        simp [hx]
    have hconst : ∀ d, checkConstantInDimension unlucky (fun _ => -1) (fun _ => 1) d rtol 0 = false := by
      intro d
      rw [← Bool.not_eq_true]
      unfold checkConstantInDimension
      rw [Bool.and_eq_true]
      rintro ⟨h, -⟩
      unfold constantAlong at h
      rw [Bool.and_eq_true, Bool.not_eq_true', ← Bool.not_eq_true, test_iff, test_iff] at h
      obtain ⟨hne, hall⟩ := h
      apply hne
      fin_cases d
      · have := hall 0 (by simp [testVals1])
        rwa [hzero (Function.update _ _ _) (Or.inl _)] at this
        simp [transform1]
      · have := hall 1 (by simp [testVals1])
        rwa [hzero (Function.update _ _ _) (Or.inr _)] at this
        simp [transform1]
    apply degStep_diverges _ _ _ (fun _ => by norm_num) rtol fuel 0 rfl (hconst 0)
    intro s hs
    apply loop_diverges _ _ _ 0 rtol (fun N => N 1 = 5)
    · intro N g hN
      simp [bumpDegs, hN]
    · intro N g hN j hj
      have hj1 : j 1 ≤ 5 := by
        have := mem_gridIdx.1 hj 1
        simpa [bumpDegs, hN] using this
      unfold unlucky
      rw [prod_eq_zero (mem_range.2 (show j 1 < 6 by omega)), mul_zero]
      simp only [gridPt, transformPt, chebPt, bumpDegs, Function.update_of_ne (show (1 : Fin 2) ≠ 0 by decide), hN]
      norm_num
    · simp [fixedDegs, hs, hconst]
  · refine ⟨fun _ => 2, ?_⟩
    apply mul_ne_zero (by norm_num)
    rw [prod_ne_zero_iff]
    intro j _
    have := cos_le_one (j * π / 5)
    linarith

/-- C40, the part that holds.  Full claim: the search ends for every polynomial.  Here: for every polynomial that does not
vanish at all corners of the box, with the number of passes bounded by the degree plus 6. -/
theorem C40_corner_partial (p : MvPolynomial (Fin n) ℝ) (a b : Fin n → ℝ) (hab : ∀ i, a i ≤ b i) (rtol : ℝ) (hr : 0 < rtol)
    (v : Fin n → ℝ) (hv : ∀ i, v i = a i ∨ v i = b i) (hp : MvPolynomial.eval v p ≠ 0) (fuel : ℕ)
    (hfuel : ∀ i, p.degreeOf i + 6 ≤ fuel) :
    ∃ r, chebApproximate fuel (fun x => MvPolynomial.eval x p) a b rtol = .ok r := by
  apply chebApproximate_terminates _ a b rtol hr hab (fun i => p.degreeOf i) (mvPolynomial_polyAlong p) _ fuel hfuel
  intro d N hN _
  classical
  refine ⟨fun i => if v i = b i then 0 else N i, mem_gridIdx.2 fun i => by split <;> omega, ?_⟩
  have : gridPt N a b (fun i => if v i = b i then 0 else N i) = v := by
    ext i
    have hN0 : (N i : ℝ) ≠ 0 := by have := hN i; positivity
    unfold gridPt transformPt chebPt
    by_cases h : v i = b i
    · simp only [h, if_true]
      simp
    · have h' := (hv i).resolve_right h
      simp only [h, if_false]
      rw [mul_div_right_comm, div_self hN0, one_mul, cos_pi, h']
      ring
  rw [this]
  exact hp

/-- C40 in one variable: the search ends for every nonzero polynomial on every interval `a < b`. -/
theorem C40_one_variable_partial (p : Polynomial ℝ) (hp : p ≠ 0) (a b : ℝ) (hab : a < b) (rtol : ℝ) (hr : 0 < rtol)
    (fuel : ℕ) (hfuel : p.natDegree + 6 ≤ fuel) :
    ∃ r, chebApproximate fuel (fun x : Fin 1 → ℝ => p.eval (x 0)) (fun _ => a) (fun _ => b) rtol = .ok r := by
  have hpa : ∀ i : Fin 1, PolyAlong i p.natDegree (fun x : Fin 1 → ℝ => p.eval (x 0)) := by
    intro i x
    refine ⟨p, le_rfl, fun t => ?_⟩
    rw [Subsingleton.elim i 0]
    simp
  apply chebApproximate_terminates _ _ _ rtol hr (fun _ => hab.le) (fun _ => p.natDegree) hpa _ fuel (fun _ => hfuel)
  intro d N hN hD
  by_contra hall
  push Not at hall
  rw [Subsingleton.elim d 0] at hD
  have hsub : ((range (N 0 + 1)).image fun j => transform1 (chebPt (N 0) j) a b) ⊆ p.roots.toFinset := by
    intro t ht
    obtain ⟨j, hj, rfl⟩ := mem_image.1 ht
    rw [Multiset.mem_toFinset, Polynomial.mem_roots hp]
    have := hall (fun _ => j) (mem_gridIdx.2 fun i => by
      rw [Subsingleton.elim i 0]; exact Nat.lt_succ_iff.1 (mem_range.1 hj))
    exact this
  have hcard := card_le_card hsub
  rw [card_image_of_injOn, card_range] at hcard
  · have h1 := Multiset.toFinset_card_le p.roots
    have h2 := Polynomial.card_roots' p
    omega
  · intro i hi j hj h
    apply chebPt_injOn (N 0) (hN 0) (Nat.lt_succ_iff.1 (mem_range.1 hi)) (Nat.lt_succ_iff.1 (mem_range.1 hj))
    simp only [transform1] at h
    have hba : b - a ≠ 0 := by linarith
    have : (b - a) * chebPt (N 0) i = (b - a) * chebPt (N 0) j := by linarith
    exact mul_left_cancel₀ hba this

/-- Instance: `X Y + 1` on `[0, 1]²` is 1 at the corner `(0, 0)`; eight passes are enough. -/
example : ∃ r, chebApproximate 8 (fun x => MvPolynomial.eval x (MvPolynomial.X 0 * MvPolynomial.X 1 + 1))
    (fun _ : Fin 2 => 0) (fun _ => 1) = .ok r := by
  apply C40_corner_partial _ _ _ (fun _ => by norm_num) _ (by norm_num) (fun _ => 0) (fun _ => Or.inl rfl) (by simp)
  intro i
  have : MvPolynomial.degreeOf i (MvPolynomial.X 0 * MvPolynomial.X 1 + 1 : MvPolynomial (Fin 2) ℝ) ≤ 2 := by
    refine (MvPolynomial.degreeOf_add_le _ _ _).trans (max_le ?_ (by simp))
    refine (MvPolynomial.degreeOf_mul_le _ _ _).trans ?_
    rw [MvPolynomial.degreeOf_X, MvPolynomial.degreeOf_X]
    split_ifs <;> omega
  omega

/-- Instance: `X² - 1` vanishes at both ends of `[-1, 1]`. -/
example : ∃ r, chebApproximate 8 (fun x : Fin 1 → ℝ => (Polynomial.X ^ 2 - 1 : Polynomial ℝ).eval (x 0)) (fun _ => -1)
    (fun _ => 1) = .ok r := by
  have hd : (Polynomial.X ^ 2 - 1 : Polynomial ℝ).natDegree = 2 := by
    have := Polynomial.natDegree_X_pow_sub_C (R := ℝ) (n := 2) (r := 1)
    simpa using this
  refine C40_one_variable_partial _ ?_ _ _ (by norm_num) _ (by norm_num) 8 (by rw [hd])
  intro h
  rw [h] at hd
  simp at hd

end YRoots
