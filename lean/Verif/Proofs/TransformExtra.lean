import Verif.Proofs.TransformND

/-!
# Further helper lemmas on the re-expansion: when no row is dropped, slices, and the run with
`maxRow = 2` used by the counterexample to the error bound.
-/

set_option linter.unusedSectionVars false
set_option linter.unusedSimpArgs false

namespace YRoots

open Finset

section NoDrop

variable {K : Type*} [Field K] [LinearOrder K]
variable {V : Type*} [AddCommGroup V] [Module K V]

theorem tRun_nodrop (thr : K) (coeffs : ℕ → V) (α β : K) (m : ℕ)
    (h : ∀ k, 2 ≤ k → k ≤ m + 1 → thr < |α ^ k|) :
    (tRun thr coeffs α β m).maxRow = m + 2 ∧ (tRun thr coeffs α β m).arr2 (m + 1) = α ^ (m + 1) := by
  induction m with
  | zero => simp [tRun_zero, tInit]
  | succ m ih =>
    obtain ⟨h1, h2⟩ := ih fun k hk hk' => h k hk (by omega)
    have hf : |α * (tRun thr coeffs α β m).arr2 ((tRun thr coeffs α β m).maxRow - 1)| > thr := by
      rw [h1, show m + 2 - 1 = m + 1 from rfl, h2, ← pow_succ']
      exact h (m + 2) (by omega) (by omega)
    rw [tRun_succ]
    simp only [tStep, if_pos hf]
    refine ⟨by omega, ?_⟩
    simp only [putRow]
    rw [h1, Function.update_self, show m + 2 - 1 = m + 1 from rfl, h2, ← pow_succ']

theorem fRun_nodrop (thr : K) (coeffs : ℕ → V) (α β : K) (m : ℕ)
    (h : ∀ k, 2 ≤ k → k ≤ m + 1 → thr < |α ^ k|) :
    (fRun thr coeffs α β m).maxRow = m + 2 ∧ (fRun thr coeffs α β m).arr2 (m + 1) = α ^ (m + 1) := by
  induction m with
  | zero => simp [fRun_zero, tInit]
  | succ m ih =>
    obtain ⟨h1, h2⟩ := ih fun k hk hk' => h k hk (by omega)
    have hf : |α * (fRun thr coeffs α β m).arr2 ((fRun thr coeffs α β m).maxRow - 1)| > thr := by
      rw [h1, show m + 2 - 1 = m + 1 from rfl, h2, ← pow_succ']
      exact h (m + 2) (by omega) (by omega)
    rw [fRun_succ]
    simp only [fStep, if_pos hf]
    refine ⟨by omega, ?_⟩
    simp only [putRow]
    rw [h1, Function.update_self, show m + 2 - 1 = m + 1 from rfl, h2, ← pow_succ']

theorem transformFunc_nodrop [IsStrictOrderedRing K] (exact : Bool) (coeffs : ℕ → V) (N : ℕ)
    (hN : 2 ≤ N) (α β : K)
    (h : ∀ k, 2 ≤ k → k < N → (if exact then 1 / 10 ^ 32 else 1 / 10 ^ 16) < |α ^ k|) :
    (transformFunc exact coeffs N α β).2 = N := by
  obtain ⟨m, rfl⟩ : ∃ m, N = m + 2 := ⟨N - 2, by omega⟩
  unfold transformFunc
  cases exact
  · simp only [Bool.false_eq_true, if_false, transform1D_eq, Nat.add_sub_cancel] at h ⊢
    exact (tRun_nodrop _ coeffs α β m fun k hk hk' => h k hk (by omega)).1
  · simp only [if_true, transform1DErrorFree_eq, Nat.add_sub_cancel] at h ⊢
    exact (fRun_nodrop _ coeffs α β m fun k hk hk' => h k hk (by omega)).1

end NoDrop

section Map

variable {K : Type*} [Field K] [LinearOrder K]
variable {V W : Type*} [AddCommGroup V] [Module K V] [AddCommGroup W] [Module K W]

/-- Apply a linear map to the output rows. -/
abbrev TState.map (L : V →ₗ[K] W) (s : TState K V) : TState K W where
  arr1 := s.arr1
  arr2 := s.arr2
  arr3 := s.arr3
  out := fun i => L (s.out i)
  maxRow := s.maxRow

theorem putRow_map (L : V →ₗ[K] W) (c : V) (i : ℕ) (v : K) (p : (ℕ → K) × (ℕ → V)) :
    putRow (L c) i v (p.1, fun i => L (p.2 i))
      = ((putRow c i v p).1, fun j => L ((putRow c i v p).2 j)) := by
  simp only [putRow]
  congr 1
  funext j
  by_cases h : j = i
  · subst h; simp
  · simp [h]

theorem tRows_map (L : V →ₗ[K] W) (c : V) (α β : K) (s : TState K V) (hR : 2 ≤ s.maxRow) :
    tRows (L c) α β (s.map L) = ((tRows c α β s).1, fun i => L ((tRows c α β s).2 i)) := by
  rw [tRows_eq _ _ _ _ hR, tRows_eq _ _ _ _ (by exact hR)]
  simp only [TState.map]
  congr 1
  funext j
  split <;> simp

theorem tStep_map (L : V →ₗ[K] W) (thr : K) (coeffs : ℕ → V) (α β : K) (s : TState K V) (col : ℕ)
    (hR : 2 ≤ s.maxRow) :
    tStep thr (fun c => L (coeffs c)) α β (s.map L) col = (tStep thr coeffs α β s col).map L := by
  simp only [tStep]
  rw [tRows_map L _ _ _ _ hR]
  simp only [TState.map, putRow_map]
  split <;> rfl

theorem fStep_map (L : V →ₗ[K] W) (thr : K) (coeffs : ℕ → V) (α β : K) (s : TState K V) (col : ℕ)
    (hR : 2 ≤ s.maxRow) :
    fStep thr (fun c => L (coeffs c)) α β (s.map L) col = (fStep thr coeffs α β s col).map L := by
  simp only [fStep]
  rw [tRows_map L _ _ _ _ hR, putRow_map]

theorem tInit_map (L : V →ₗ[K] W) (coeffs : ℕ → V) (α β : K) :
    tInit (fun c => L (coeffs c)) α β = (tInit coeffs α β).map L := by
  simp only [tInit, TState.map]
  congr 1
  funext i
  by_cases h1 : i = 1
  · subst h1; simp
  · by_cases h0 : i = 0
    · subst h0; simp
    · simp [h0, h1]

theorem tRun_map (L : V →ₗ[K] W) (thr : K) (coeffs : ℕ → V) (α β : K) (m : ℕ) :
    tRun thr (fun c => L (coeffs c)) α β m = (tRun thr coeffs α β m).map L := by
  induction m with
  | zero => exact tInit_map L coeffs α β
  | succ m ih => rw [tRun_succ, tRun_succ, ih, tStep_map _ _ _ _ _ _ _ (tRun_supp _ _ _ _ _).two_le]

theorem fRun_map (L : V →ₗ[K] W) (thr : K) (coeffs : ℕ → V) (α β : K) (m : ℕ) :
    fRun thr (fun c => L (coeffs c)) α β m = (fRun thr coeffs α β m).map L := by
  induction m with
  | zero => exact tInit_map L coeffs α β
  | succ m ih => rw [fRun_succ, fRun_succ, ih, fStep_map _ _ _ _ _ _ _ (fRun_supp _ _ _ _ _).two_le]

theorem transformFunc_map [IsStrictOrderedRing K] (L : V →ₗ[K] W) (exact : Bool) (coeffs : ℕ → V)
    (N : ℕ) (α β : K) :
    transformFunc exact (fun c => L (coeffs c)) N α β
      = (fun i => L ((transformFunc exact coeffs N α β).1 i), (transformFunc exact coeffs N α β).2) := by
  unfold transformFunc
  cases exact
  · simp only [Bool.false_eq_true, if_false, transform1D_eq, tRun_map]
  · simp only [if_true, transform1DErrorFree_eq, fRun_map]

end Map

section Slice

variable {n : ℕ} {K : Type*} [Field K] [LinearOrder K] [IsStrictOrderedRing K]

theorem transformAxis_coef (exact : Bool) (M : Tensor n K) (d : Fin n) (α β : K) (k : Fin n → ℕ) :
    (transformAxis exact M d α β).coef k
      = (transformFunc exact (fun j => M.coef (Function.update k d j)) (M.shape d) α β).1 (k d) := by
  have := transformFunc_map (K := K) (LinearMap.proj (R := K) (φ := fun _ : Fin n → ℕ => K)
    (Function.update k d 0)) exact (M.rows d) (M.shape d) α β
  have h2 : (fun c => (LinearMap.proj (R := K) (φ := fun _ : Fin n → ℕ => K)
    (Function.update k d 0)) (M.rows d c)) = fun j => M.coef (Function.update k d j) := by
    funext j; simp [Tensor.rows]
  rw [h2] at this
  rw [this]; rfl

theorem transformND_coef (exact : Bool) (M : Tensor n K) (d : Fin n) (α β : K)
    (hab : ¬ (α = 1 ∧ β = 0)) (hd : M.shape d ≠ 1) (k : Fin n → ℕ) :
    (transformND M d α β exact).coef k
      = (transformFunc exact (fun j => M.coef (Function.update k d j)) (M.shape d) α β).1 (k d) ∧
    (transformND M d α β exact).shape d
      = (transformFunc exact (fun j => M.coef (Function.update k d j)) (M.shape d) α β).2 := by
  rcases transformND_cases exact M d α β with h | ⟨hne, σ, z, hz, h⟩
  · rcases h.2 with h | h
    · exact absurd h hab
    · exact absurd h hd
  · rw [h]
    have hs : σ.symm d = z := by rw [← hz]; simp
    have h1 : (M.transpose σ).shape z = M.shape d := by simp [Tensor.transpose, hz]
    have h3 : (fun j => (M.transpose σ).coef (Function.update (fun i => k (σ i)) z j))
        = fun j => M.coef (Function.update k d j) := by
      funext j
      simp only [Tensor.transpose]
      rw [update_comp_perm, hz]
    constructor
    · show (transformAxis exact (M.transpose σ) z α β).coef (fun j => k (σ.symm.symm j)) = _
      rw [Equiv.symm_symm, transformAxis_coef, h1, h3, hz]
    · show (transformAxis exact (M.transpose σ) z α β).shape (σ.symm d) = _
      have := transformFunc_map (K := K) (LinearMap.proj (R := K) (φ := fun _ : Fin n → ℕ => K)
        (Function.update (fun i => k (σ i)) z 0)) exact ((M.transpose σ).rows z) (M.shape d) α β
      rw [transformAxis_shape, hs, Function.update_self, ← h3]
      have h2 : (fun c => (LinearMap.proj (R := K) (φ := fun _ : Fin n → ℕ => K)
          (Function.update (fun i => k (σ i)) z 0)) ((M.transpose σ).rows z c))
          = fun j => (M.transpose σ).coef (Function.update (fun i => k (σ i)) z j) := by
        funext j; simp [Tensor.rows]
      rw [h2] at this
      rw [this, h1]

end Slice

section Counterexample

/-- Numerators of the two kept rows (denominator `D^k`), `α = 1/D`, `β = 1 - 1/D`. -/
def cexPQ (D : ℤ) : ℕ → (ℤ × ℤ) × (ℤ × ℤ)
  | 0 => ((1, 0), (D - 1, 1))
  | k + 1 =>
    let r := cexPQ D k
    (r.2, (-r.1.1 * D ^ 2 + r.2.2 + 2 * (D - 1) * r.2.1, -r.1.2 * D ^ 2 + 2 * r.2.1 + 2 * (D - 1) * r.2.2))

theorem cexPQ_succ (D : ℤ) (k : ℕ) : cexPQ D (k + 1) = ((cexPQ D k).2,
    (-(cexPQ D k).1.1 * D ^ 2 + (cexPQ D k).2.2 + 2 * (D - 1) * (cexPQ D k).2.1,
     -(cexPQ D k).1.2 * D ^ 2 + 2 * (cexPQ D k).2.1 + 2 * (D - 1) * (cexPQ D k).2.2)) := rfl

variable {K : Type*} [Field K] [LinearOrder K] [IsStrictOrderedRing K]
variable {V : Type*} [AddCommGroup V] [Module K V]

/-- As long as every third row is dropped, `TransformChebInPlace1D` runs a two-row recurrence. -/
theorem tRun_two_rows (D : ℤ) (hD : D ≠ 0) (thr : K) (coeffs : ℕ → V) (m : ℕ)
    (h : ∀ k < m, |((cexPQ D k).2.2 : K) / (D : K) ^ (k + 2)| ≤ thr) :
    let s := tRun thr coeffs (1 / (D : K)) (1 - 1 / (D : K)) m
    s.maxRow = 2 ∧
      s.arr1 0 = (cexPQ D m).1.1 / (D : K) ^ m ∧ s.arr1 1 = (cexPQ D m).1.2 / (D : K) ^ m ∧
      s.arr2 0 = (cexPQ D m).2.1 / (D : K) ^ (m + 1) ∧
      s.arr2 1 = (cexPQ D m).2.2 / (D : K) ^ (m + 1) := by
  have hD' : (D : K) ≠ 0 := by exact_mod_cast hD
  induction m with
  | zero =>
    simp only [tRun_zero, tInit, cexPQ]
    refine ⟨trivial, ?_, ?_, ?_, ?_⟩
    · simp
    · simp
    · simp; field_simp
    · simp
  | succ m ih =>
    obtain ⟨h1, h2, h3, h4, h5⟩ := ih fun k hk => h k (by omega)
    have hm := h m (by omega)
    simp only [] at h1 h2 h3 h4 h5 ⊢
    rw [tRun_succ]
    set s := tRun thr coeffs (1 / (D : K)) (1 - 1 / (D : K)) m
    have hf : ¬ |1 / (D : K) * s.arr2 (s.maxRow - 1)| > thr := by
      rw [h1, show 2 - 1 = 1 from rfl, h5, not_lt]
      refine le_of_eq_of_le ?_ hm
      congr 1
      field_simp
      ring
    simp only [tStep, if_neg hf]
    rw [tRows_eq _ _ _ _ (by omega)]
    simp only [h1, rowVal, mulX, trunc]
    simp only [show (0 : ℕ) < 2 from by norm_num, show (1 : ℕ) < 2 from by norm_num,
      show ¬ (2 : ℕ) < 2 from by norm_num, if_true, if_false]
    rw [cexPQ_succ, h2, h3, h4, h5]
    refine ⟨trivial, rfl, rfl, ?_, ?_⟩
    · push_cast; field_simp; ring
    · push_cast; field_simp; ring

theorem tRun_out_eq_zero (thr : K) (coeffs : ℕ → V) (α β : K) (m : ℕ)
    (h : ∀ k ≤ m + 1, coeffs k = 0) (i : ℕ) : (tRun thr coeffs α β m).out i = 0 := by
  induction m with
  | zero =>
    simp only [tRun_zero, tInit, h 0 (by omega), h 1 (by omega)]
    by_cases h1 : i = 1
    · subst h1; simp
    · by_cases h0 : i = 0
      · subst h0; simp
      · simp [h0, h1]
  | succ m ih =>
    rw [tRun_succ]
    obtain ⟨δ, -, -, ho⟩ := tStep_spec thr coeffs α β (tRun thr coeffs α β m) (m + 2)
      (tRun_supp thr coeffs α β m)
    rw [ho, ih fun k hk => h k (by omega), h (m + 2) (by omega)]; simp

end Counterexample

end YRoots
