import Verif.Model.SolveLinear
import Verif.Proofs.EvalC
import Mathlib.LinearAlgebra.Matrix.NonsingularInverse
import Mathlib.LinearAlgebra.Matrix.ToLinearEquiv

/-!
# C61: `solve_linear` solves linear systems

For linear polynomials the function returns the only common root if there is one, and the empty array only if there is none.
It may report "infinitely many roots" for a system without roots, and for arrays with one entry along the first axis it loses
the root.
-/

namespace YRoots.Legacy

variable {n : ℕ} {K : Type*} [Field K] [LinearOrder K]

/-! ### Specification -/

/-- The polynomial has degree at most one. -/
def Linear (M : Tensor n K) : Prop := ∀ k ∈ M.idx, 1 < ∑ i, k i → M.coef k = 0

/-- The common roots. -/
def commonRoots {m : ℕ} (P : Fin m → Tensor n K) : Set (Fin n → K) := {x | ∀ i, (P i).eval x = 0}

/-! ### Helper lemmas -/

theorem eval_linear {M : Tensor n K} (hs : ∀ j, 1 < M.shape j) (hl : Linear M) (x : Fin n → K) :
    M.eval x = M.const + ∑ j, linCoef M j * x j := by
  classical
  have hinj : Function.Injective fun j : Fin n => (Pi.single j 1 : Fin n → ℕ) := by
    intro a b h
    by_contra hne
    have := congrFun h a
    simp [hne] at this
  have h0 : (fun _ => 0 : Fin n → ℕ) ∉ Finset.univ.image fun j : Fin n => (Pi.single j 1 : Fin n → ℕ) := by
    simp only [Finset.mem_image, Finset.mem_univ, true_and, not_exists]
    intro j h
    have := congrFun h j
    simp at this
  have hsub : insert (fun _ => 0) (Finset.univ.image fun j : Fin n => (Pi.single j 1 : Fin n → ℕ)) ⊆ M.idx := by
    intro k hk
    simp only [Tensor.idx, Fintype.mem_piFinset, Finset.mem_range]
    intro i
    rcases Finset.mem_insert.1 hk with rfl | hk
    · have := hs i; show 0 < _; omega
    · obtain ⟨j, -, rfl⟩ := Finset.mem_image.1 hk
      have := hs i
      by_cases e : i = j
      · subst e; simpa using this
      · simp [e]; omega
  unfold Tensor.eval
  rw [← Finset.sum_subset hsub, Finset.sum_insert h0, Finset.sum_image fun a _ b _ h => hinj h]
  · congr 1
    · simp [Tensor.const, chebT]
    · refine Finset.sum_congr rfl fun j _ => ?_
      congr 1
      rw [Finset.prod_eq_single j]
      · simp [chebT]
      · intro i _ hij; simp [hij, chebT]
      · simp
  · intro k hk hnot
    rw [hl k hk, zero_mul]
    by_contra hle
    push Not at hle
    refine hnot ?_
    rw [Finset.mem_insert]
    by_cases hz : ∃ i, k i ≠ 0
    · obtain ⟨i, hi⟩ := hz
      right
      refine Finset.mem_image.2 ⟨i, Finset.mem_univ _, ?_⟩
      have hsum := Finset.add_sum_erase Finset.univ k (Finset.mem_univ i)
      have h1 : k i = 1 := by omega
      have h2 : ∑ j ∈ Finset.univ.erase i, k j = 0 := by omega
      funext j
      by_cases e : j = i
      · subst e; simp [h1]
      · simp [e, (Finset.sum_eq_zero_iff.1 h2 j (by simp [e]))]
    · push Not at hz
      exact .inl (funext hz)

theorem luStep_ker (A : Matrix (Fin n) (Fin (n + 1)) K) (j : Fin n) (v : Fin (n + 1) → K) :
    (luStep A j).mulVec v = 0 ↔ A.mulVec v = 0 := by
  unfold luStep
  split_ifs with h
  · rfl
  · set σ := Equiv.swap j (pivotRow A j)
    have hB : ∀ i, (A.submatrix σ id).mulVec v i = A.mulVec v (σ i) := fun i => rfl
    have key : ∀ i, ((Matrix.of fun i l => if j < i then (A.submatrix σ id) i l -
        (A.submatrix σ id) i j.castSucc / (A.submatrix σ id) j j.castSucc * (A.submatrix σ id) j l
        else (A.submatrix σ id) i l) : Matrix (Fin n) (Fin (n + 1)) K).mulVec v i =
        if j < i then A.mulVec v (σ i) - (A.submatrix σ id) i j.castSucc / (A.submatrix σ id) j j.castSucc * A.mulVec v (σ j)
        else A.mulVec v (σ i) := by
      intro i
      rw [← hB, ← hB]
      simp only [Matrix.mulVec, dotProduct, Matrix.of_apply]
      split_ifs with c
      · rw [Finset.mul_sum, ← Finset.sum_sub_distrib]
        refine Finset.sum_congr rfl fun l _ => ?_
        ring
      · rfl
    constructor
    · intro h0
      have hj : A.mulVec v (σ j) = 0 := by
        have := congrFun h0 j
        rw [key] at this
        simpa using this
      have hall : ∀ i, A.mulVec v (σ i) = 0 := by
        intro i
        have := congrFun h0 i
        rw [key, hj] at this
        split_ifs at this
        · simpa using this
        · simpa using this
      funext i
      have := hall (σ.symm i)
      simpa using this
    · intro h0
      funext i
      rw [key]
      simp [h0]

theorem luU_ker (A : Matrix (Fin n) (Fin (n + 1)) K) (v : Fin (n + 1) → K) :
    (luU A).mulVec v = 0 ↔ A.mulVec v = 0 := by
  unfold luU
  generalize List.finRange n = l
  induction l generalizing A with
  | nil => rfl
  | cons j l ih => rw [List.foldl_cons, ih, luStep_ker]

theorem pivotColumn_last {U : Matrix (Fin n) (Fin (n + 1)) K} {i : Fin n} (h : pivotColumn U i = some (Fin.last n)) :
    U i (Fin.last n) ≠ 0 ∧ ∀ l : Fin n, U i l.castSucc = 0 := by
  unfold pivotColumn at h
  rw [List.find?_eq_some_iff_getElem] at h
  obtain ⟨h1, k, hk, h2, h3⟩ := h
  refine ⟨by simpa using h1, fun l => ?_⟩
  have hkl : k = n := by
    have := congrArg Fin.val h2
    simpa using this
  have := h3 l (by omega)
  simpa [Fin.castSucc, Fin.castAdd, Fin.castLE] using this

/-- The system of linear equations belonging to linear polynomials. -/
theorem root_iff {coeffs : Fin (n + 1) → Tensor (n + 1) K} (hs : ∀ i j, 1 < (coeffs i).shape j)
    (hl : ∀ i, Linear (coeffs i)) (x : Fin (n + 1) → K) :
    x ∈ commonRoots coeffs ↔ (linearA coeffs).mulVec x = -fun row => (coeffs row).const := by
  have hA : ∀ i, (linearA coeffs).mulVec x i = ∑ j, linCoef (coeffs i) j * x j := by
    intro i
    have : (coeffs i).shape 0 ≠ 1 := by have := hs i 0; omega
    simp [linearA, Matrix.mulVec, dotProduct, this]
  constructor
  · intro h
    funext i
    have := h i
    rw [eval_linear (hs i) (hl i)] at this
    rw [hA, Pi.neg_apply]
    linear_combination this
  · intro h i
    rw [eval_linear (hs i) (hl i), ← hA, h]
    simp

omit [LinearOrder K] in
theorem snoc_mulVec {m k : ℕ} (A : Matrix (Fin m) (Fin k) K) (b : Fin m → K) (x : Fin k → K) :
    (Matrix.of fun i l => Fin.snoc (α := fun _ => K) (A i) (b i) l : Matrix (Fin m) (Fin (k + 1)) K).mulVec
      (Fin.snoc (α := fun _ => K) x (-1)) = 0 ↔ A.mulVec x = b := by
  rw [funext_iff, funext_iff]
  refine forall_congr' fun i => ?_
  simp only [Matrix.mulVec, dotProduct, Matrix.of_apply, Fin.sum_univ_castSucc, Fin.snoc_castSucc, Fin.snoc_last,
    Pi.zero_apply]
  constructor
  · intro h; linear_combination h
  · intro h; linear_combination h

/-! ### The properties -/

/-- C61, the part that is right.  For linear polynomials in arrays with at least two entries along every axis: a single
answer is the only common root, the empty answer means that there is none, and "infinitely many roots" is raised only if
there is none or there are infinitely many.  A system with exactly one root is always solved. -/
theorem C61_solve_linear_partial [IsStrictOrderedRing K] {S : LinSolve (n + 1) K} (hS : S.Exact)
    (coeffs : Fin (n + 1) → Tensor (n + 1) K) (hs : ∀ i j, 1 < (coeffs i).shape j) (hl : ∀ i, Linear (coeffs i)) :
    (∀ x, solveLinear S coeffs = .ok (some x) ↔ commonRoots coeffs = {x}) ∧
    (solveLinear S coeffs = .ok none → commonRoots coeffs = ∅) ∧
    (solveLinear S coeffs = .error .tooManyRoots → commonRoots coeffs = ∅ ∨ (commonRoots coeffs).Infinite) ∧
    solveLinear S coeffs ≠ .error .indexError := by
  set A := linearA coeffs with hAdef
  set B : Fin (n + 1) → K := fun row => (coeffs row).const with hBdef
  have hroot := root_iff hs hl
  have hno : ¬ ∃ i j, (coeffs i).shape j = 0 ∨ (coeffs i).shape 0 ≠ 1 ∧ (coeffs i).shape j = 1 := by
    rintro ⟨i, j, h | ⟨_, h⟩⟩ <;> have := hs i j <;> omega
  have hsol : solveLinear S coeffs = (match S A (-B) with
    | some x => .ok (some x)
    | none =>
      if (List.finRange (n + 1)).all fun i => pivotColumn (luU (Matrix.of fun i l => Fin.snoc (α := fun _ => K) (A i) (-B i) l)) i
        ≠ some (Fin.last (n + 1)) then .error .tooManyRoots
      else .ok none) := by
    unfold solveLinear
    rw [if_neg hno]
    rfl
  by_cases hd : A.det = 0
  · -- singular
    have hnone := (hS A (-B)).2 hd
    rw [hnone] at hsol
    obtain ⟨v, hv0, hv⟩ := Matrix.exists_mulVec_eq_zero_iff.2 hd
    have hinf : (commonRoots coeffs).Nonempty → (commonRoots coeffs).Infinite := by
      rintro ⟨x, hx⟩
      have hmem : ∀ t : K, x + t • v ∈ commonRoots coeffs := by
        intro t
        rw [hroot, Matrix.mulVec_add, Matrix.mulVec_smul, hv, smul_zero, add_zero]
        exact (hroot x).1 hx
      refine Set.infinite_of_injective_forall_mem (f := fun t : K => x + t • v) ?_ hmem
      intro s t hst
      obtain ⟨i, hi⟩ := Function.ne_iff.1 hv0
      have := congrFun hst i
      simp only [Pi.add_apply, Pi.smul_apply, smul_eq_mul, add_right_inj] at this
      exact mul_right_cancel₀ hi this
    have hnotone : ∀ x, commonRoots coeffs ≠ {x} := by
      intro x hx
      have := hinf (by rw [hx]; exact Set.singleton_nonempty x)
      rw [hx] at this
      exact this (Set.finite_singleton x)
    refine ⟨fun x => ⟨fun h => ?_, fun h => absurd h (hnotone x)⟩, fun h => ?_, fun h => ?_, fun h => ?_⟩
    · rw [hsol] at h
      dsimp only at h
      split_ifs at h
      cases h
    · rw [hsol] at h
      dsimp only at h
      split_ifs at h with hc
      rw [Bool.not_eq_true, List.all_eq_false] at hc
      obtain ⟨i, -, hi⟩ := hc
      simp only [ne_eq, decide_not, Bool.not_eq_eq_eq_not, Bool.not_true, decide_eq_false_iff_not, not_not] at hi
      obtain ⟨h1, h2⟩ := pivotColumn_last hi
      by_contra hne
      obtain ⟨x, hx⟩ := Set.nonempty_iff_ne_empty.2 hne
      have h3 := (snoc_mulVec A (-B) x).2 ((hroot x).1 hx)
      rw [← luU_ker] at h3
      have h4 := congrFun h3 i
      simp only [Matrix.mulVec, dotProduct, Pi.zero_apply] at h4
      rw [Fin.sum_univ_castSucc] at h4
      simp only [Fin.snoc_castSucc, Fin.snoc_last] at h4
      have h5 : ∀ l : Fin (n + 1), luU (Matrix.of fun i l => Fin.snoc (α := fun _ => K) (A i) ((-B) i) l) i l.castSucc = 0 := h2
      rw [Finset.sum_eq_zero fun l _ => by rw [h5, zero_mul], zero_add, mul_neg_one, neg_eq_zero] at h4
      exact h1 h4
    · rcases Set.eq_empty_or_nonempty (commonRoots coeffs) with he | hne
      · exact .inl he
      · exact .inr (hinf hne)
    · rw [hsol] at h
      dsimp only at h
      split_ifs at h
      cases h
  · obtain ⟨x, hx, hAx⟩ := (hS A (-B)).1 hd
    rw [hx] at hsol
    have hone : commonRoots coeffs = {x} := by
      ext y
      rw [Set.mem_singleton_iff, hroot]
      constructor
      · intro hy
        by_contra hne
        exact hd (Matrix.exists_mulVec_eq_zero_iff.1 ⟨y - x, sub_ne_zero.2 hne, by
          rw [Matrix.mulVec_sub, hAx]; exact sub_eq_zero.2 hy⟩)
      · rintro rfl; exact hAx
    refine ⟨fun y => ?_, fun h => ?_, fun h => ?_, fun h => ?_⟩
    · rw [hsol, hone]
      simp
    all_goals rw [hsol] at h; cases h

/-- The polynomials `y - 1` and `y - 2` in two variables. -/
def parallelLines : Fin 2 → Tensor 2 ℚ := fun i =>
  ⟨fun _ => 2, fun k => if k = ![0, 0] then (if i = 0 then -1 else -2) else if k = ![0, 1] then 1 else 0⟩

/-- C61 is false as a whole: for `y - 1 = 0`, `y - 2 = 0` the function reports infinitely many roots, although there is
none. -/
theorem C61_inconsistent_false (S : LinSolve 2 ℚ) (hS : S.Exact) :
    (∀ i, Linear (parallelLines i)) ∧ solveLinear S parallelLines = .error .tooManyRoots ∧
      commonRoots parallelLines = ∅ := by
  have hlin : ∀ i, Linear (parallelLines i) := by
    intro i k _ hk
    rw [Fin.sum_univ_two] at hk
    have h0 : k ≠ ![0, 0] := by rintro rfl; simp at hk
    have h1 : k ≠ ![0, 1] := by rintro rfl; simp at hk
    simp [parallelLines, h0, h1]
  refine ⟨hlin, ?_, ?_⟩
  · have hnone : S (linearA parallelLines) (-fun row => (parallelLines row).const) = none :=
      (hS _ _).2 (by rw [Matrix.det_fin_two]; decide +kernel)
    unfold solveLinear
    rw [if_neg (by decide +kernel)]
    simp only [hnone]
    rw [if_pos (by decide +kernel)]
  · ext x
    simp only [Set.mem_empty_iff_false, iff_false]
    intro hx
    have h0 := hx 0
    have h1 := hx 1
    rw [eval_linear (fun _ => by simp [parallelLines]) (hlin 0)] at h0
    rw [eval_linear (fun _ => by simp [parallelLines]) (hlin 1)] at h1
    have c0 : (parallelLines 0).const = -1 := by decide +kernel
    have c1 : (parallelLines 1).const = -2 := by decide +kernel
    have e : linCoef (parallelLines 0) = linCoef (parallelLines 1) := by
      funext j; fin_cases j <;> decide +kernel
    rw [c0, e] at h0
    rw [c1] at h1
    linarith

/-- `y - 1/2` in an array of shape `(1, 2)`, and `x - 1/2`. -/
def flatLine : Fin 2 → Tensor 2 ℚ := fun i =>
  ⟨if i = 0 then ![1, 2] else ![2, 2], fun k => if k = ![0, 0] then -1 / 2 else
    if k = (if i = 0 then ![0, 1] else ![1, 0]) then 1 else 0⟩

/-- C61 is false for arrays with one entry along the first axis: the root of `y = 1/2`, `x = 1/2` is lost. -/
theorem C61_flat_false (S : LinSolve 2 ℚ) (hS : S.Exact) :
    (∀ i, Linear (flatLine i)) ∧ solveLinear S flatLine = .ok none ∧ ![1 / 2, 1 / 2] ∈ commonRoots flatLine := by
  refine ⟨?_, ?_, ?_⟩
  · intro i k _ hk
    rw [Fin.sum_univ_two] at hk
    have h0 : k ≠ ![0, 0] := by rintro rfl; simp at hk
    have h1 : k ≠ ![0, 1] := by rintro rfl; simp at hk
    have h2 : k ≠ ![1, 0] := by rintro rfl; simp at hk
    simp only [flatLine, if_neg h0]
    split_ifs with c <;> simp_all
  · have hnone : S (linearA flatLine) (-fun row => (flatLine row).const) = none :=
      (hS _ _).2 (by rw [Matrix.det_fin_two]; decide +kernel)
    unfold solveLinear
    rw [if_neg (by decide +kernel)]
    simp only [hnone]
    rw [if_neg (by decide +kernel)]
  · intro i
    rw [Tensor.eval_eq_evalC]
    fin_cases i <;> decide +kernel

/-- The lines `x + y = 1` and `x - y = 0` meet in one point. -/
def crossingLines : Fin 2 → Tensor 2 ℚ := fun i =>
  ⟨fun _ => 2, fun k => if k = ![0, 0] then (if i = 0 then -1 else 0) else if k = ![1, 0] then 1 else
    if k = ![0, 1] then (if i = 0 then 1 else -1) else 0⟩

example (S : LinSolve 2 ℚ) (hS : S.Exact) : solveLinear S crossingLines = .ok (some ![1 / 2, 1 / 2]) := by
  have hs : ∀ i j, 1 < (crossingLines i).shape j := fun _ _ => by simp [crossingLines]
  have hlin : ∀ i, Linear (crossingLines i) := by
    intro i k _ hk
    rw [Fin.sum_univ_two] at hk
    have h0 : k ≠ ![0, 0] := by rintro rfl; simp at hk
    have h1 : k ≠ ![0, 1] := by rintro rfl; simp at hk
    have h2 : k ≠ ![1, 0] := by rintro rfl; simp at hk
    simp [crossingLines, h0, h1, h2]
  refine ((C61_solve_linear_partial hS crossingLines hs hlin).1 _).2 ?_
  ext x
  rw [root_iff hs hlin, Set.mem_singleton_iff, funext_iff, Fin.forall_fin_two, funext_iff, Fin.forall_fin_two]
  have e : linearA crossingLines = !![1, 1; 1, -1] := by
    ext i j; fin_cases i <;> fin_cases j <;> decide +kernel
  have c0 : (crossingLines 0).const = -1 := by decide +kernel
  have c1 : (crossingLines 1).const = 0 := by decide +kernel
  simp only [e, Pi.neg_apply, c0, c1, Matrix.mulVec, dotProduct, Fin.sum_univ_two]
  simp
  constructor
  · rintro ⟨h1, h2⟩; constructor <;> linarith
  · rintro ⟨h1, h2⟩; rw [h1, h2]; norm_num

/-- The contract on `np.linalg.solve` can be met. -/
example : ∃ S : LinSolve 2 ℚ, S.Exact := by
  classical
  refine ⟨fun A b => if A.det = 0 then none else some (A⁻¹.mulVec b), fun A b => ⟨fun h => ⟨_, if_neg h, ?_⟩, fun h => if_pos h⟩⟩
  rw [Matrix.mulVec_mulVec, Matrix.mul_nonsing_inv _ (isUnit_iff_ne_zero.2 h), Matrix.one_mulVec]

end YRoots.Legacy
