import Verif.Proofs.TransformEF

/-!
# Helper lemmas: the transformation of n-dimensional tensors
-/

set_option linter.unusedSectionVars false
set_option linter.unusedSimpArgs false

namespace YRoots

open Finset

section Decomp

variable {n : ℕ} {K : Type*}

/-- Sum over a box of multi-indices, one axis taken apart. -/
theorem sum_piFinset_axis {M : Type*} [AddCommMonoid M] (s : Fin n → Finset ℕ) (d : Fin n)
    (f : (Fin n → ℕ) → M) :
    ∑ k ∈ Fintype.piFinset s, f k
      = ∑ j ∈ s d, ∑ k ∈ Fintype.piFinset (Function.update s d {0}), f (Function.update k d j) := by
  rw [← Finset.sum_product']
  refine Finset.sum_nbij' (fun k => (k d, Function.update k d 0)) (fun p => Function.update p.2 d p.1)
    ?_ ?_ ?_ ?_ ?_
  · intro k hk
    rw [Fintype.mem_piFinset] at hk
    rw [Finset.mem_product, Fintype.mem_piFinset]
    refine ⟨hk d, fun i => ?_⟩
    by_cases h : i = d
    · subst h; simp
    · simp [h, hk i]
  · rintro ⟨j, k⟩ hk
    rw [Finset.mem_product, Fintype.mem_piFinset] at hk
    rw [Fintype.mem_piFinset]
    intro i
    by_cases h : i = d
    · subst h; simpa using hk.1
    · have := hk.2 i; simpa [h] using this
  · intro k _; simp
  · rintro ⟨j, k⟩ hk
    rw [Finset.mem_product, Fintype.mem_piFinset] at hk
    have := hk.2 d
    simp at this
    simp only [Function.update_self, Function.update_idem, Prod.mk.injEq, true_and]
    rw [Function.update_eq_self_iff]; exact this.symm
  · intro k _; simp

variable [Field K]

/-- The remaining multi-indices after removing an axis. -/
def restIdx (sh : Fin n → ℕ) (d : Fin n) : Finset (Fin n → ℕ) :=
  Fintype.piFinset (Function.update (fun i => Finset.range (sh i)) d {0})

theorem restIdx_zero {sh : Fin n → ℕ} {d : Fin n} {k : Fin n → ℕ} (hk : k ∈ restIdx sh d) :
    Function.update k d 0 = k := by
  rw [restIdx, Fintype.mem_piFinset] at hk
  have := hk d
  simp at this
  rw [Function.update_eq_self_iff]; exact this.symm

theorem restIdx_update (sh : Fin n → ℕ) (d : Fin n) (N : ℕ) :
    restIdx (Function.update sh d N) d = restIdx sh d := by
  unfold restIdx
  congr 1
  funext i
  by_cases h : i = d
  · subst h; simp
  · simp [h]

/-- Evaluation of a row (all variables but the `d`-th). -/
noncomputable def rowL (sh : Fin n → ℕ) (d : Fin n) (x : Fin n → K) : ((Fin n → ℕ) → K) →ₗ[K] K where
  toFun v := ∑ k ∈ restIdx sh d, v k * ∏ i ∈ univ.erase d, chebT (k i) (x i)
  map_add' u v := by simp [add_mul, Finset.sum_add_distrib]
  map_smul' c v := by simp [Finset.mul_sum, mul_assoc]

theorem rowL_apply (sh : Fin n → ℕ) (d : Fin n) (x : Fin n → K) (v) :
    rowL sh d x v = ∑ k ∈ restIdx sh d, v k * ∏ i ∈ univ.erase d, chebT (k i) (x i) := rfl

theorem rowL_update (sh : Fin n → ℕ) (d : Fin n) (x : Fin n → K) (y : K) :
    rowL sh d (Function.update x d y) = rowL sh d x := by
  ext v
  simp only [rowL_apply]
  apply Finset.sum_congr rfl
  intro k _
  congr 1
  apply Finset.prod_congr rfl
  intro i hi
  rw [Finset.mem_erase] at hi
  simp [hi.1]

theorem eval_axis (M : Tensor n K) (d : Fin n) (x : Fin n → K) :
    M.eval x = ∑ j ∈ range (M.shape d), chebT j (x d) * rowL M.shape d x (M.rows d j) := by
  unfold Tensor.eval Tensor.idx
  rw [sum_piFinset_axis _ d]
  apply Finset.sum_congr rfl
  intro j _
  rw [rowL_apply, Finset.mul_sum]
  apply Finset.sum_congr rfl
  intro k _
  rw [← Finset.mul_prod_erase univ _ (Finset.mem_univ d)]
  simp only [Function.update_self, Tensor.rows]
  rw [Finset.prod_congr rfl (g := fun i => chebT (k i) (x i))]
  · ring
  · intro i hi
    rw [Finset.mem_erase] at hi
    simp [hi.1]

theorem ofRows_eval (M : Tensor n K) (d : Fin n) (r : (ℕ → (Fin n → ℕ) → K) × ℕ) (x : Fin n → K) :
    (M.ofRows d r).eval x = rowL M.shape d x (outEval r.2 r.1 (x d)) := by
  rw [eval_axis _ d, outEval, map_sum]
  have hsh : (M.ofRows d r).shape d = r.2 := by simp [Tensor.ofRows]
  rw [hsh]
  apply Finset.sum_congr rfl
  intro j _
  rw [map_smul, smul_eq_mul]
  congr 1
  rw [rowL_apply, rowL_apply]
  have : restIdx (M.ofRows d r).shape d = restIdx M.shape d := by
    simp only [Tensor.ofRows]; exact restIdx_update _ _ _
  rw [this]
  apply Finset.sum_congr rfl
  intro k hk
  simp only [Tensor.rows, Tensor.ofRows, Function.update_self, Function.update_idem,
    restIdx_zero hk]

/-! ### Transposition -/

theorem transpose_idx_sum {A : Type*} [AddCommMonoid A] (M : Tensor n K) (σ : Equiv.Perm (Fin n))
    (f : (Fin n → ℕ) → A) :
    ∑ k ∈ (M.transpose σ).idx, f k = ∑ k ∈ M.idx, f (fun i => k (σ i)) := by
  refine Finset.sum_nbij' (fun k j => k (σ.symm j)) (fun k i => k (σ i)) ?_ ?_ ?_ ?_ ?_
  · intro k hk
    simp only [Tensor.idx, Tensor.transpose, Fintype.mem_piFinset, Finset.mem_range] at hk ⊢
    intro i; have := hk (σ.symm i); simpa using this
  · intro k hk
    simp only [Tensor.idx, Tensor.transpose, Fintype.mem_piFinset, Finset.mem_range] at hk ⊢
    intro i; exact hk (σ i)
  · intro k _; simp
  · intro k _; simp
  · intro k _; simp

theorem transpose_eval (M : Tensor n K) (σ : Equiv.Perm (Fin n)) (x : Fin n → K) :
    (M.transpose σ).eval x = M.eval fun j => x (σ.symm j) := by
  unfold Tensor.eval
  rw [transpose_idx_sum]
  apply Finset.sum_congr rfl
  intro k _
  congr 1
  · simp [Tensor.transpose]
  · exact Fintype.prod_equiv σ _ _ (fun i => by simp)

theorem moveAxisOrder_zero (d : Fin n) : moveAxisOrder d ⟨0, d.pos⟩ = d := by
  simp [moveAxisOrder]

variable [LinearOrder K]

theorem transpose_absSum (M : Tensor n K) (σ : Equiv.Perm (Fin n)) :
    (M.transpose σ).absSum = M.absSum := by
  unfold Tensor.absSum
  rw [transpose_idx_sum]
  apply Finset.sum_congr rfl
  intro k _
  simp [Tensor.transpose]

end Decomp

section Func

variable {K : Type*} [Field K] [LinearOrder K] [IsStrictOrderedRing K]
variable {V : Type*} [AddCommGroup V] [Module K V]

theorem transform1D_eq (thr : K) (coeffs : ℕ → V) (N : ℕ) (α β : K) :
    transform1D thr coeffs N α β
      = ((tRun thr coeffs α β (N - 2)).out, (tRun thr coeffs α β (N - 2)).maxRow) := rfl

theorem transformFunc_le (exact : Bool) (coeffs : ℕ → V) (N : ℕ) (hN : 2 ≤ N) (α β : K) :
    2 ≤ (transformFunc exact coeffs N α β).2 ∧ (transformFunc exact coeffs N α β).2 ≤ N := by
  unfold transformFunc
  cases exact
  · simp only [Bool.false_eq_true, if_false, transform1D_eq]
    have := tRun_maxRow_le ((1 : K) / 10 ^ 16) coeffs α β (N - 2)
    exact ⟨(tRun_supp _ coeffs α β (N - 2)).two_le, by omega⟩
  · simp only [if_true, transform1DErrorFree_eq]
    have := fRun_maxRow_le ((1 : K) / 10 ^ 32) coeffs α β (N - 2)
    exact ⟨(fRun_supp _ coeffs α β (N - 2)).two_le, by omega⟩

theorem transformFunc_exact (exact : Bool) (coeffs : ℕ → V) (N : ℕ) (hN : 2 ≤ N) (α β : K)
    (h : (transformFunc exact coeffs N α β).2 = N) (x : K) :
    outEval N (transformFunc exact coeffs N α β).1 x
      = ∑ c ∈ range N, chebT c (α * x + β) • coeffs c := by
  obtain ⟨m, rfl⟩ : ∃ m, N = m + 2 := ⟨N - 2, by omega⟩
  unfold transformFunc at h ⊢
  cases exact
  · simp only [Bool.false_eq_true, if_false, transform1D_eq, Nat.add_sub_cancel] at h ⊢
    have hs := tRun_supp ((1 : K) / 10 ^ 16) coeffs α β m
    rw [← (tRun_exact _ coeffs α β (m + 3) x m le_rfl h).2.2]
    symm
    apply outEval_supp _ _ (by omega)
    intro i hi; exact hs.zo i (by omega)
  · simp only [if_true, transform1DErrorFree_eq, Nat.add_sub_cancel] at h ⊢
    have hs := fRun_supp ((1 : K) / 10 ^ 32) coeffs α β m
    obtain ⟨⟨-, -, z⟩, -, -, h3⟩ := fRun_exact _ coeffs α β (m + 3) x m le_rfl h
    rw [← h3]
    symm
    apply outEval_supp _ _ (by omega)
    intro i hi
    rcases Nat.lt_or_ge (m + 2) i with h' | h'
    · exact hs.zo i (by omega)
    · have : i = m + 2 := by omega
      rw [this, z]

end Func

section FuncBound

variable {K : Type*} [Field K] [LinearOrder K] [IsStrictOrderedRing K]
variable {V : Type*} [AddCommGroup V] [Module K V]

/-- Relative error allowance of one re-expansion of an axis of length `N`. -/
def relErr (exact : Bool) (N : ℕ) : K :=
  if exact then (3 * (((N : K) - 2) * (N - 1) / 2) + 1) / 10 ^ 32
  else ((N : K) - 2) * (N - 1) / 2 / 10 ^ 16

theorem transformFunc_bound (exact : Bool) (coeffs : ℕ → V) (N : ℕ) (hN : 2 ≤ N) (α β : K) {x : K}
    (hx : |x| ≤ 1) (hy : |α * x + β| ≤ 1) (L : V →ₗ[K] K) :
    |∑ c ∈ range N, chebT c (α * x + β) * L (coeffs c)
        - L (outEval (transformFunc exact coeffs N α β).2 (transformFunc exact coeffs N α β).1 x)|
      ≤ relErr exact N * ∑ c ∈ range N, |L (coeffs c)| := by
  obtain ⟨m, rfl⟩ : ∃ m, N = m + 2 := ⟨N - 2, by omega⟩
  unfold transformFunc relErr
  cases exact
  · simp only [Bool.false_eq_true, if_false, transform1D_eq, Nat.add_sub_cancel]
    have hs := tRun_supp ((1 : K) / 10 ^ 16) coeffs α β m
    have hle := tRun_maxRow_le ((1 : K) / 10 ^ 16) coeffs α β m
    have hb := (tRun_bound (thr := 1 / 10 ^ 16) (by positivity) coeffs α β (m + 3) hx hy L m
      le_rfl).2
    rw [outEval_supp (R := (tRun ((1 : K) / 10 ^ 16) coeffs α β m).maxRow) _ _ (by omega)
      (fun i hi => hs.zo i hi)] at hb
    refine hb.trans (le_of_eq ?_)
    congr 1
    push_cast; ring
  · simp only [if_true, transform1DErrorFree_eq, Nat.add_sub_cancel]
    have hs := fRun_supp ((1 : K) / 10 ^ 32) coeffs α β m
    have hle := fRun_maxRow_le ((1 : K) / 10 ^ 32) coeffs α β m
    obtain ⟨⟨-, -, hl⟩, -, hb⟩ := fRun_bound (thr := 1 / 10 ^ 32) (by positivity) coeffs α β (m + 3)
      hx hy L m le_rfl
    set s := fRun ((1 : K) / 10 ^ 32) coeffs α β m
    rw [outEval_supp (R := s.maxRow + 1) _ _ (by omega) (fun i hi => hs.zo i (by omega))] at hb
    have hsplit : outEval (s.maxRow + 1) s.out x
        = outEval s.maxRow s.out x + chebT s.maxRow x • s.out s.maxRow := by
      unfold outEval; rw [Finset.sum_range_succ]
    rw [hsplit, map_add, map_smul, smul_eq_mul] at hb
    have hT := abs_chebT_le_one s.maxRow hx
    have h1 : |chebT s.maxRow x * L (s.out s.maxRow)|
        ≤ 1 * (1 / 10 ^ 32 * ∑ c ∈ range (m + 2), |L (coeffs c)|) := by
      rw [abs_mul]; exact mul_le_mul hT hl (abs_nonneg _) (by norm_num)
    have tri : ∀ a b c : K, |a - b| ≤ |a - (b + c)| + |c| := by
      intro a b c
      have : a - b = (a - (b + c)) + c := by ring
      rw [this]; exact abs_add_le _ _
    refine (tri _ _ _).trans ((add_le_add hb h1).trans (le_of_eq ?_))
    push_cast; ring

theorem relErr_nonneg (exact : Bool) {N : ℕ} (hN : 2 ≤ N) : 0 ≤ (relErr exact N : K) := by
  have h : (2 : K) ≤ N := by exact_mod_cast hN
  have : 0 ≤ ((N : K) - 2) * (N - 1) := mul_nonneg (by linarith) (by linarith)
  unfold relErr
  split <;> positivity

end FuncBound

section Axis

variable {n : ℕ}
variable {K : Type*} [Field K] [LinearOrder K] [IsStrictOrderedRing K]

theorem transformAxis_shape {K : Type*} [Field K] [LinearOrder K]
    (exact : Bool) (M : Tensor n K) (d : Fin n) (α β : K) :
    (transformAxis exact M d α β).shape
      = Function.update M.shape d (transformFunc exact (M.rows d) (M.shape d) α β).2 := rfl

theorem transformAxis_exact {K : Type*} [Field K] [LinearOrder K] [IsStrictOrderedRing K]
    (exact : Bool) (M : Tensor n K) (d : Fin n) (hN : 2 ≤ M.shape d) (α β : K)
    (h : (transformAxis exact M d α β).shape d = M.shape d) (x : Fin n → K) :
    (transformAxis exact M d α β).eval x = M.eval (Function.update x d (α * x d + β)) := by
  have h' : (transformFunc exact (M.rows d) (M.shape d) α β).2 = M.shape d := by
    rw [transformAxis_shape] at h; simpa using h
  rw [transformAxis, ofRows_eval, h', transformFunc_exact exact _ _ hN _ _ h', map_sum,
    eval_axis M d]
  apply Finset.sum_congr rfl
  intro j _
  rw [map_smul, smul_eq_mul, rowL_update, Function.update_self]

/-- The sum of the row functionals is at most the sum of the absolute coefficients. -/
theorem sum_abs_rowL_le (M : Tensor n K) (d : Fin n) {x : Fin n → K} (hx : ∀ i, i ≠ d → |x i| ≤ 1) :
    ∑ j ∈ range (M.shape d), |rowL M.shape d x (M.rows d j)| ≤ M.absSum := by
  unfold Tensor.absSum Tensor.idx
  rw [sum_piFinset_axis _ d]
  apply Finset.sum_le_sum
  intro j _
  rw [rowL_apply]
  refine (Finset.abs_sum_le_sum_abs _ _).trans (Finset.sum_le_sum fun k _ => ?_)
  rw [abs_mul, Finset.abs_prod]
  have : ∏ i ∈ univ.erase d, |chebT (k i) (x i)| ≤ 1 := by
    apply Finset.prod_le_one
    · intros; exact abs_nonneg _
    · intro i hi
      exact abs_chebT_le_one _ (hx i (Finset.mem_erase.1 hi).1)
  calc _ ≤ |M.rows d j k| * 1 := mul_le_mul_of_nonneg_left this (abs_nonneg _)
    _ = _ := by rw [mul_one]; rfl

theorem transformAxis_bound (exact : Bool) (M : Tensor n K) (d : Fin n) (hN : 2 ≤ M.shape d)
    (α β : K) {x : Fin n → K} (hx : InCube x) (hy : |α * x d + β| ≤ 1) :
    |M.eval (Function.update x d (α * x d + β)) - (transformAxis exact M d α β).eval x|
      ≤ relErr exact (M.shape d) * M.absSum := by
  rw [transformAxis, ofRows_eval, eval_axis M d]
  simp only [rowL_update, Function.update_self]
  refine (transformFunc_bound exact (M.rows d) _ hN α β (hx d) hy (rowL M.shape d x)).trans ?_
  exact mul_le_mul_of_nonneg_left (sum_abs_rowL_le M d fun i _ => hx i) (relErr_nonneg exact hN)

/-- Transposing twice around a transformation of the first axis transforms axis `d`. -/
theorem transformND_cases {K : Type*} [Field K] [LinearOrder K] (exact : Bool) (M : Tensor n K)
    (d : Fin n) (α β : K) :
    (transformND M d α β exact = M ∧ ((α = 1 ∧ β = 0) ∨ M.shape d = 1)) ∨
    (M.shape d ≠ 1 ∧ ∃ (σ : Equiv.Perm (Fin n)) (z : Fin n), σ z = d ∧
      transformND M d α β exact = (transformAxis exact (M.transpose σ) z α β).transpose σ.symm) := by
  unfold transformND
  split
  · left; exact ⟨rfl, by assumption⟩
  · rename_i h
    right
    rw [not_or] at h
    refine ⟨h.2, ?_⟩
    split
    · exact ⟨Equiv.refl _, d, rfl, rfl⟩
    · exact ⟨moveAxisOrder d, ⟨0, d.pos⟩, moveAxisOrder_zero d, rfl⟩

theorem transformND_shape_other {K : Type*} [Field K] [LinearOrder K] (exact : Bool) (M : Tensor n K)
    (d : Fin n) (α β : K) (i : Fin n) (hi : i ≠ d) :
    (transformND M d α β exact).shape i = M.shape i := by
  rcases transformND_cases exact M d α β with h | ⟨-, σ, z, hz, h⟩
  · rw [h.1]
  · rw [h]
    have : σ.symm i ≠ z := by
      intro h; apply hi; rw [← hz, ← h]; simp
    simp [Tensor.transpose, transformAxis_shape, this]

theorem transformND_shape_le {K : Type*} [Field K] [LinearOrder K] [IsStrictOrderedRing K]
    (exact : Bool) (M : Tensor n K)
    (d : Fin n) (α β : K) (hN : 0 < M.shape d) :
    0 < (transformND M d α β exact).shape d ∧ (transformND M d α β exact).shape d ≤ M.shape d := by
  rcases transformND_cases exact M d α β with h | ⟨hne, σ, z, hz, h⟩
  · rw [h.1]; exact ⟨hN, le_rfl⟩
  · rw [h]
    have hs : σ.symm d = z := by rw [← hz]; simp
    have h1 : (M.transpose σ).shape z = M.shape d := by simp [Tensor.transpose, hz]
    have := transformFunc_le exact ((M.transpose σ).rows z) (M.shape d) (by omega) α β
    constructor
    · simp only [Tensor.transpose, transformAxis_shape, hs, Function.update_self] at this ⊢
      rw [hz]; omega
    · simp only [Tensor.transpose, transformAxis_shape, hs, Function.update_self] at this ⊢
      rw [hz]; omega

theorem update_comp_perm {α : Type*} (x : Fin n → α) (σ : Equiv.Perm (Fin n)) (z : Fin n) (y : α) :
    (fun j => Function.update (fun i => x (σ i)) z y (σ.symm j)) = Function.update x (σ z) y := by
  funext j
  by_cases h : j = σ z
  · subst h; simp
  · have : σ.symm j ≠ z := by intro h'; apply h; rw [← h']; simp
    simp [h, this]

theorem transformND_exact {K : Type*} [Field K] [LinearOrder K] [IsStrictOrderedRing K]
    (exact : Bool) (M : Tensor n K) (d : Fin n) (α β : K) (hN : 0 < M.shape d)
    (hsh : (transformND M d α β exact).shape d = M.shape d) (x : Fin n → K) :
    (transformND M d α β exact).eval x = M.eval (Function.update x d (α * x d + β)) := by
  rcases transformND_cases exact M d α β with ⟨h, h1 | h1⟩ | ⟨hne, σ, z, hz, h⟩
  · rw [h, h1.1, h1.2]; simp
  · rw [h, eval_axis M d, eval_axis M d, h1]
    simp [rowL_update]
  · have h1 : (M.transpose σ).shape z = M.shape d := by simp [Tensor.transpose, hz]
    have hs : σ.symm d = z := by rw [← hz]; simp
    rw [h] at hsh ⊢
    rw [transpose_eval, Equiv.symm_symm, transformAxis_exact exact _ _ (by omega), transpose_eval,
      update_comp_perm, hz]
    rw [h1]
    rw [← hsh]
    simp [Tensor.transpose, hs]

theorem transformND_bound (exact : Bool) (M : Tensor n K) (d : Fin n) (hN : 0 < M.shape d)
    (α β : K) {x : Fin n → K} (hx : InCube x) (hy : |α * x d + β| ≤ 1) :
    |M.eval (Function.update x d (α * x d + β)) - (transformND M d α β exact).eval x|
      ≤ (if M.shape d = 1 then 0 else relErr exact (M.shape d)) * M.absSum := by
  have hS : 0 ≤ M.absSum := Finset.sum_nonneg fun _ _ => abs_nonneg _
  have hR : 0 ≤ (if M.shape d = 1 then 0 else relErr exact (M.shape d) : K) := by
    split
    · exact le_rfl
    · exact relErr_nonneg exact (by omega)
  rcases transformND_cases exact M d α β with ⟨h, h1 | h1⟩ | ⟨hne, σ, z, hz, h⟩
  · rw [h, h1.1, h1.2]; simpa using mul_nonneg hR hS
  · have : M.eval (Function.update x d (α * x d + β)) = M.eval x := by
      rw [eval_axis M d, eval_axis M d, h1]; simp [rowL_update]
    rw [h, this, sub_self, abs_zero]; positivity
  · have h1 : (M.transpose σ).shape z = M.shape d := by simp [Tensor.transpose, hz]
    rw [h, transpose_eval, Equiv.symm_symm, if_neg hne]
    have hb := transformAxis_bound exact (M.transpose σ) z (by omega) α β
      (x := fun i => x (σ i)) (fun i => hx _) (by rw [hz]; exact hy)
    rw [transpose_eval, update_comp_perm, transpose_absSum, h1, hz] at hb
    exact hb

end Axis

section Cheb

variable {n : ℕ}
variable {K : Type*} [Field K] [LinearOrder K] [IsStrictOrderedRing K]

/-- The affine substitution restricted to a list of coordinates. -/
def substOn {K : Type*} [Mul K] [Add K] (l : List (Fin n)) (α β : Fin n → K) (x : Fin n → K) :
    Fin n → K := fun i => if i ∈ l then α i * x i + β i else x i

theorem substOn_cons {K : Type*} [Mul K] [Add K] (d : Fin n) (l : List (Fin n)) (hd : d ∉ l)
    (α β x : Fin n → K) :
    substOn (d :: l) α β x
      = Function.update (substOn l α β x) d (α d * substOn l α β x d + β d) := by
  funext i
  by_cases h : i = d
  · subst h; simp [substOn, hd]
  · simp [substOn, h]

/-- The fold of `transformCheb` over a list of axes. -/
def chebFold {K : Type*} [Field K] [LinearOrder K] (exact : Bool) (α β : Fin n → K)
    (l : List (Fin n)) (p : Tensor n K × K) : Tensor n K × K :=
  l.foldl (fun p d => (transformND p.1 d (α d) (β d) exact, p.2 + getTransformationError p.1 d)) p

theorem chebFold_cons {K : Type*} [Field K] [LinearOrder K] (exact : Bool) (α β : Fin n → K)
    (d : Fin n) (l : List (Fin n)) (p : Tensor n K × K) :
    chebFold exact α β (d :: l) p
      = chebFold exact α β l
        (transformND p.1 d (α d) (β d) exact, p.2 + getTransformationError p.1 d) := rfl

theorem chebFold_shape {K : Type*} [Field K] [LinearOrder K] [IsStrictOrderedRing K]
    (exact : Bool) (α β : Fin n → K) (l : List (Fin n)) (p : Tensor n K × K) (h : p.1.Nonempty) :
    (chebFold exact α β l p).1.Nonempty ∧
      ∀ i, (chebFold exact α β l p).1.shape i ≤ p.1.shape i ∧
        (i ∉ l → (chebFold exact α β l p).1.shape i = p.1.shape i) := by
  induction l generalizing p with
  | nil => exact ⟨h, fun i => ⟨le_rfl, fun _ => rfl⟩⟩
  | cons d l ih =>
    rw [chebFold_cons]
    have hd := transformND_shape_le exact p.1 d (α d) (β d) (h d)
    have ho := transformND_shape_other exact p.1 d (α d) (β d)
    have hne : (transformND p.1 d (α d) (β d) exact).Nonempty := by
      intro i
      by_cases hi : i = d
      · rw [hi]; exact hd.1
      · rw [ho i hi]; exact h i
    obtain ⟨h1, h2⟩ := ih (transformND p.1 d (α d) (β d) exact, p.2 + getTransformationError p.1 d) hne
    refine ⟨h1, fun i => ⟨(h2 i).1.trans ?_, fun hi => ?_⟩⟩
    · by_cases hi : i = d
      · rw [hi]; exact hd.2
      · exact (ho i hi).le
    · rw [List.mem_cons, not_or] at hi
      rw [(h2 i).2 hi.2]; exact ho i hi.1

theorem chebFold_exact {K : Type*} [Field K] [LinearOrder K] [IsStrictOrderedRing K]
    (exact : Bool) (α β : Fin n → K) (l : List (Fin n)) (hl : l.Nodup) (p : Tensor n K × K)
    (h : p.1.Nonempty) (hsh : ∀ i, (chebFold exact α β l p).1.shape i = p.1.shape i)
    (x : Fin n → K) :
    (chebFold exact α β l p).1.eval x = p.1.eval (substOn l α β x) := by
  induction l generalizing p x with
  | nil =>
    have : substOn [] α β x = x := by funext i; simp [substOn]
    simp [chebFold, this]
  | cons d l ih =>
    rw [List.nodup_cons] at hl
    have hd := transformND_shape_le exact p.1 d (α d) (β d) (h d)
    have ho := transformND_shape_other exact p.1 d (α d) (β d)
    have hne : (transformND p.1 d (α d) (β d) exact).Nonempty := by
      intro i
      by_cases hi : i = d
      · rw [hi]; exact hd.1
      · rw [ho i hi]; exact h i
    have hc := chebFold_shape exact α β l
      (transformND p.1 d (α d) (β d) exact, p.2 + getTransformationError p.1 d) hne
    rw [chebFold_cons] at hsh ⊢
    have hsd : (transformND p.1 d (α d) (β d) exact).shape d = p.1.shape d := by
      rw [← hsh d]; exact ((hc.2 d).2 hl.1).symm
    rw [ih hl.2 _ hne, transformND_exact exact p.1 d _ _ (h d) hsd, substOn_cons d l hl.1]
    intro i
    rw [hsh i]
    by_cases hi : i = d
    · rw [hi]; exact hsd.symm
    · exact (ho i hi).symm

/-- Shapes for which the rounding allowance of `getTransformationError` covers the dropped rows. -/
def ShapeOK (K : Type*) [Field K] [LinearOrder K] (exact : Bool) (N : ℕ) : Prop :=
  N = 1 ∨ (relErr exact N : K) ≤ N * macheps

theorem chebFold_bound (exact : Bool) (α β : Fin n → K)
    (hαβ : ∀ i (t : K), |t| ≤ 1 → |α i * t + β i| ≤ 1) (l : List (Fin n)) (hl : l.Nodup)
    (p : Tensor n K × K) (h : p.1.Nonempty) (hok : ∀ i ∈ l, ShapeOK K exact (p.1.shape i))
    {x : Fin n → K} (hx : InCube x) :
    |p.1.eval (substOn l α β x) - (chebFold exact α β l p).1.eval x|
      ≤ (chebFold exact α β l p).2 - p.2 := by
  induction l generalizing p x with
  | nil =>
    have : substOn [] α β x = x := by funext i; simp [substOn]
    simp [chebFold, this]
  | cons d l ih =>
    rw [List.nodup_cons] at hl
    have hd := transformND_shape_le exact p.1 d (α d) (β d) (h d)
    have ho := transformND_shape_other exact p.1 d (α d) (β d)
    have hne : (transformND p.1 d (α d) (β d) exact).Nonempty := by
      intro i
      by_cases hi : i = d
      · rw [hi]; exact hd.1
      · rw [ho i hi]; exact h i
    rw [chebFold_cons]
    set p' : Tensor n K × K :=
      (transformND p.1 d (α d) (β d) exact, p.2 + getTransformationError p.1 d) with hp'
    have h1 := ih hl.2 p' hne (by
      intro i hi
      have : i ≠ d := by rintro rfl; exact hl.1 hi
      simp only [hp']
      rw [ho i this]; exact hok i (List.mem_cons_of_mem _ hi)) hx
    have hxs : InCube (substOn l α β x) := by
      intro i
      unfold substOn
      split
      · exact hαβ i _ (hx i)
      · exact hx i
    have h2 := transformND_bound exact p.1 d (h d) (α d) (β d) hxs (hαβ d _ (hxs d))
    rw [← substOn_cons d l hl.1] at h2
    have hS : 0 ≤ p.1.absSum := Finset.sum_nonneg fun _ _ => abs_nonneg _
    have h3 : (if p.1.shape d = 1 then 0 else relErr exact (p.1.shape d)) * p.1.absSum
        ≤ getTransformationError p.1 d := by
      unfold getTransformationError
      apply mul_le_mul_of_nonneg_right _ hS
      rcases hok d List.mem_cons_self with h | h
      · rw [if_pos h]; unfold macheps; positivity
      · split
        · unfold macheps; positivity
        · exact h
    have e2 : p'.2 = p.2 + getTransformationError p.1 d := rfl
    have e1 : p'.1 = transformND p.1 d (α d) (β d) exact := rfl
    rw [e1] at h1
    rw [e2] at h1
    have := abs_sub_le (p.1.eval (substOn (d :: l) α β x))
      ((transformND p.1 d (α d) (β d) exact).eval (substOn l α β x))
      ((chebFold exact α β l p').1.eval x)
    linarith

end Cheb

end YRoots
