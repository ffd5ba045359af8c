import Verif.Proofs.PolyArith

/-!
# Cleaning, padding and arithmetic of coefficient arrays
-/

set_option linter.unusedSectionVars false
set_option linter.unusedVariables false
set_option linter.unusedSimpArgs false

open Finset

namespace YRoots

variable {n : ℕ} {K : Type*} [Field K] [LinearOrder K] [IsStrictOrderedRing K]

/-- Sums over an array that only see nonzero entries are not changed by cleaning. -/
structure Cleaned (M N : Tensor n K) : Prop where
  coef : N.coef = M.coef
  shape_le : ∀ i, N.shape i ≤ M.shape i
  pos : ∀ i, 0 < M.shape i → 0 < N.shape i
  zero : ∀ k ∈ M.idx, k ∉ N.idx → M.coef k = 0

theorem Cleaned.refl (M : Tensor n K) : Cleaned M M :=
  ⟨rfl, fun _ => le_rfl, fun _ h => h, fun k h h' => absurd h h'⟩

theorem Cleaned.trans {M N P : Tensor n K} (h : Cleaned M N) (h' : Cleaned N P) : Cleaned M P where
  coef := h'.coef.trans h.coef
  shape_le i := (h'.shape_le i).trans (h.shape_le i)
  pos i hi := h'.pos i (h.pos i hi)
  zero k hk hk' := by
    by_cases h1 : k ∈ N.idx
    · rw [← h.coef]; exact h'.zero k h1 hk'
    · exact h.zero k hk h1

theorem Cleaned.idx_subset {M N : Tensor n K} (h : Cleaned M N) : N.idx ⊆ M.idx := by
  intro k hk
  rw [Tensor.idx, Fintype.mem_piFinset] at hk ⊢
  intro i
  have := hk i
  rw [mem_range] at this ⊢
  exact this.trans_le (h.shape_le i)

theorem Cleaned.sum {M N : Tensor n K} (h : Cleaned M N) (f : (Fin n → ℕ) → K) (hf : ∀ k, M.coef k = 0 → f k = 0) :
    ∑ k ∈ N.idx, f k = ∑ k ∈ M.idx, f k :=
  Finset.sum_subset h.idx_subset fun k hk hk' => hf k (h.zero k hk hk')

theorem Cleaned.evalG {M N : Tensor n K} (h : Cleaned M N) (w : Fin n → ℕ → K) : N.evalG w = M.evalG w := by
  unfold Tensor.evalG
  rw [h.coef]
  exact h.sum _ fun k hk => by rw [hk, zero_mul]

theorem lastSum_zero {M : Tensor n K} {d : Fin n} (h : M.lastSum d = 0) {k : Fin n → ℕ} (hk : k ∈ M.idx)
    (hkd : k d = M.shape d - 1) : M.coef k = 0 := by
  unfold Tensor.lastSum at h
  rw [Finset.sum_eq_zero_iff_of_nonneg fun _ _ => abs_nonneg _] at h
  exact abs_eq_zero.1 (h k (mem_filter.2 ⟨hk, hkd⟩))

theorem dropLast_cleaned {M : Tensor n K} {d : Fin n} (h1 : M.shape d ≠ 1) (h : M.lastSum d = 0 ∧ 0 < M.shape d) :
    Cleaned M (M.dropLast d) where
  coef := rfl
  shape_le i := by
    unfold Tensor.dropLast
    dsimp only
    by_cases hi : i = d
    · subst hi; simp
    · simp [hi]
  pos i hi := by
    unfold Tensor.dropLast
    dsimp only
    by_cases hid : i = d
    · subst hid; simp; omega
    · simpa [hid] using hi
  zero k hk hk' := by
    rw [dropLast_idx M d h.2, mem_filter] at hk'
    push Not at hk'
    exact lastSum_zero h.1 hk (hk' hk)

theorem cleanAxis_induct (d : Fin n) {P : Tensor n K → Prop}
    (step : ∀ M, M.shape d ≠ 1 → M.lastSum d = 0 ∧ 0 < M.shape d → P (M.dropLast d) → P M)
    (stop : ∀ M, M.shape d = 1 ∨ ¬ (M.lastSum d = 0 ∧ 0 < M.shape d) → P M) (M : Tensor n K) : P M := by
  induction hN : M.shape d using Nat.strong_induction_on generalizing M with
  | _ N ih =>
    by_cases h1 : M.shape d = 1
    · exact stop M (.inl h1)
    · by_cases h2 : M.lastSum d = 0 ∧ 0 < M.shape d
      · refine step M h1 h2 (ih (M.shape d - 1) (by omega) _ ?_)
        simp [Tensor.dropLast]
      · exact stop M (.inr h2)

/-- An array with nothing to clean along axis `d`. -/
def CleanAt (d : Fin n) (M : Tensor n K) : Prop := M.shape d = 1 ∨ ¬ (M.lastSum d = 0 ∧ 0 < M.shape d)

theorem cleanAxis_of_cleanAt {d : Fin n} {M : Tensor n K} (h : CleanAt d M) : cleanAxis d M = M := by
  rw [cleanAxis]
  rcases h with h | h
  · rw [dif_pos h]
  · split_ifs <;> rfl

theorem cleanAxis_ok (d : Fin n) (M : Tensor n K) : Cleaned M (cleanAxis d M) ∧ CleanAt d (cleanAxis d M) ∧
    ∀ i, i ≠ d → (cleanAxis d M).shape i = M.shape i := by
  refine cleanAxis_induct (P := fun M => Cleaned M (cleanAxis d M) ∧ CleanAt d (cleanAxis d M) ∧
    ∀ i, i ≠ d → (cleanAxis d M).shape i = M.shape i) d ?_ ?_ M
  · intro M h1 h2 ih
    rw [cleanAxis, dif_neg h1, dif_pos h2]
    refine ⟨(dropLast_cleaned h1 h2).trans ih.1, ih.2.1, fun i hi => ?_⟩
    rw [ih.2.2 i hi]; simp [Tensor.dropLast, hi]
  · intro M h
    rw [cleanAxis_of_cleanAt h]
    exact ⟨Cleaned.refl M, h, fun _ _ => rfl⟩

/-- Cleaning one axis keeps the other axes clean. -/
theorem cleanAt_cleanAxis {d e : Fin n} {M : Tensor n K} (h : CleanAt d M) : CleanAt d (cleanAxis e M) := by
  by_cases hde : d = e
  · subst hde; exact (cleanAxis_ok d M).2.1
  obtain ⟨h1, -, h3⟩ := cleanAxis_ok e M
  unfold CleanAt
  have hs : (cleanAxis e M).shape d = M.shape d := h3 d hde
  have hl : (cleanAxis e M).lastSum d = M.lastSum d := by
    unfold Tensor.lastSum
    rw [hs, h1.coef]
    apply Finset.sum_subset
    · intro k hk
      rw [mem_filter] at hk ⊢
      exact ⟨h1.idx_subset hk.1, hk.2⟩
    · intro k hk hk'
      rw [mem_filter] at hk hk'
      rw [h1.zero k hk.1 (fun h => hk' ⟨h, hk.2⟩), abs_zero]
  rw [hs, hl]; exact h

theorem cleanFold_ok (l : List (Fin n)) (M : Tensor n K) :
    Cleaned M (l.foldl (fun M d => cleanAxis d M) M) ∧
    (∀ d, (d ∈ l ∨ CleanAt d M) → CleanAt d (l.foldl (fun M d => cleanAxis d M) M)) := by
  induction l generalizing M with
  | nil => exact ⟨Cleaned.refl M, fun d h => by simpa using h⟩
  | cons e l ih =>
    rw [List.foldl_cons]
    obtain ⟨i1, i2⟩ := ih (cleanAxis e M)
    refine ⟨(cleanAxis_ok e M).1.trans i1, fun d hd => i2 d ?_⟩
    rcases hd with hd | hd
    · rcases List.mem_cons.1 hd with rfl | hd
      · exact .inr (cleanAxis_ok d M).2.1
      · exact .inl hd
    · exact .inr (cleanAt_cleanAxis hd)

theorem cleanCoeff_cleaned (M : Tensor n K) : Cleaned M (cleanCoeff M) := (cleanFold_ok _ M).1

theorem cleanCoeff_cleanAt (M : Tensor n K) (d : Fin n) : CleanAt d (cleanCoeff M) :=
  (cleanFold_ok _ M).2 d (.inl (List.mem_finRange d))

theorem cleanCoeff_of_clean {M : Tensor n K} (h : ∀ d, CleanAt d M) : cleanCoeff M = M := by
  unfold cleanCoeff
  have : ∀ l : List (Fin n), l.foldl (fun M d => cleanAxis d M) M = M := by
    intro l
    induction l with
    | nil => rfl
    | cons d l ih => rw [List.foldl_cons, cleanAxis_of_cleanAt (h d), ih]
  exact this _

theorem mkPoly_evalG (M : Tensor n K) (b : Bool) (w : Fin n → ℕ → K) : (mkPoly M b).evalG w = M.evalG w := by
  unfold mkPoly
  cases b
  · rfl
  · exact (cleanCoeff_cleaned M).evalG w

/-! ### Padding and arithmetic -/

theorem padTo_evalG (M : Tensor n K) (s : Fin n → ℕ) (h : ∀ i, M.shape i ≤ s i) (w : Fin n → ℕ → K) :
    (padTo M s).evalG w = M.evalG w := by
  unfold Tensor.evalG
  symm
  have hsub : M.idx ⊆ (padTo M s).idx := by
    intro k hk
    rw [Tensor.idx, Fintype.mem_piFinset] at hk ⊢
    intro i
    have := hk i
    rw [mem_range] at this ⊢
    exact this.trans_le (h i)
  rw [← Finset.sum_subset hsub]
  · apply Finset.sum_congr rfl
    intro k hk
    rw [Tensor.idx, Fintype.mem_piFinset] at hk
    unfold padTo
    dsimp only
    rw [if_pos fun i => mem_range.1 (hk i)]
  · intro k _ hk
    unfold padTo
    dsimp only
    rw [if_neg, zero_mul]
    intro h'
    exact hk (by rw [Tensor.idx, Fintype.mem_piFinset]; exact fun i => mem_range.2 (h' i))

theorem sameSize_ok (A B : Tensor n K) : (sameSize A B).1.shape = (sameSize A B).2.shape ∧
    (∀ w, (sameSize A B).1.evalG w = A.evalG w) ∧ (∀ w, (sameSize A B).2.evalG w = B.evalG w) := by
  unfold sameSize
  split_ifs with h
  · exact ⟨rfl, fun w => padTo_evalG A _ (fun i => le_max_left _ _) w, fun w => padTo_evalG B _ (fun i => le_max_right _ _) w⟩
  · exact ⟨not_not.1 h, fun _ => rfl, fun _ => rfl⟩

theorem addA_evalG (A B : Tensor n K) (h : A.shape = B.shape) (w : Fin n → ℕ → K) :
    (A.addA B).evalG w = A.evalG w + B.evalG w := by
  unfold Tensor.evalG
  have : B.idx = A.idx := by unfold Tensor.idx; rw [h]
  rw [this, ← Finset.sum_add_distrib]
  exact Finset.sum_congr rfl fun k _ => by simp only [Tensor.addA]; ring

theorem subA_evalG (A B : Tensor n K) (h : A.shape = B.shape) (w : Fin n → ℕ → K) :
    (A.subA B).evalG w = A.evalG w - B.evalG w := by
  unfold Tensor.evalG
  have : B.idx = A.idx := by unfold Tensor.idx; rw [h]
  rw [this, ← Finset.sum_sub_distrib]
  exact Finset.sum_congr rfl fun k _ => by simp only [Tensor.subA]; ring

theorem convolve_evalPow (A B : Tensor n K) (x : Fin n → K) : (convolve A B).evalPow x = A.evalPow x * B.evalPow x := by
  have hmem : ∀ a ∈ A.idx, ∀ b ∈ B.idx, (fun i => a i + b i) ∈ (convolve A B).idx := by
    intro a ha b hb
    rw [Tensor.idx, Fintype.mem_piFinset] at ha hb ⊢
    intro i
    have h1 := mem_range.1 (ha i)
    have h2 := mem_range.1 (hb i)
    rw [mem_range]
    change a i + b i < A.shape i + B.shape i - 1
    omega
  unfold Tensor.evalPow
  rw [Finset.sum_mul_sum]
  have h1 : ∀ k ∈ (convolve A B).idx, (convolve A B).coef k * ∏ i, x i ^ k i =
      ∑ a ∈ A.idx, ∑ b ∈ B.idx, if k = (fun i => a i + b i) then A.coef a * B.coef b * ∏ i, x i ^ (a i + b i) else 0 := by
    intro k _
    simp only [convolve, Finset.sum_mul]
    apply Finset.sum_congr rfl; intro a _
    apply Finset.sum_congr rfl; intro b _
    by_cases h : ∀ i, a i + b i = k i
    · rw [if_pos h, if_pos (funext fun i => (h i).symm)]
      congr 1
      exact Finset.prod_congr rfl fun i _ => by rw [h i]
    · rw [if_neg h, if_neg (fun h' => h fun i => by rw [h']), zero_mul]
  rw [Finset.sum_congr rfl h1, Finset.sum_comm]
  apply Finset.sum_congr rfl; intro a ha
  rw [Finset.sum_comm]
  apply Finset.sum_congr rfl; intro b hb
  rw [Finset.sum_ite_eq' , if_pos (hmem a ha b hb)]
  simp only [pow_add, Finset.prod_mul_distrib]
  ring

end YRoots
