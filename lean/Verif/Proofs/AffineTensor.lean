import Verif.Proofs.TransformExtra
import Verif.Proofs.Trim
import Verif.Props.Transform

/-!
# Helper lemmas: affine Chebyshev tensors under re-expansion and trimming
-/

set_option linter.unusedSectionVars false

namespace YRoots

open Finset

variable {n : ℕ} {K : Type*} [Field K] [LinearOrder K] [IsStrictOrderedRing K]

/-- Specification: all coefficients of total degree above one vanish. -/
structure Affine (M : Tensor n K) : Prop where
  nonempty : M.Nonempty
  high : ∀ k ∈ M.idx, 2 ≤ ∑ i, k i → M.coef k = 0

theorem mem_idx_iff (M : Tensor n K) (k : Fin n → ℕ) : k ∈ M.idx ↔ ∀ i, k i < M.shape i := by
  simp [Tensor.idx]

theorem sum_le_one_cases (k : Fin n → ℕ) (h : ∑ i, k i < 2) : k = 0 ∨ ∃ j, k = Pi.single j 1 := by
  by_cases h0 : k = 0
  · exact .inl h0
  · right
    obtain ⟨j, hj⟩ : ∃ j, k j ≠ 0 := by
      by_contra hc
      push Not at hc
      exact h0 (funext hc)
    refine ⟨j, ?_⟩
    have h1 : ∑ i, k i = k j + ∑ i ∈ univ.erase j, k i := (add_sum_erase _ _ (mem_univ j)).symm
    have h2 : ∑ i ∈ univ.erase j, k i = 0 := by omega
    funext i
    by_cases hi : i = j
    · subst hi; rw [Pi.single_eq_same]; omega
    · rw [Pi.single_eq_of_ne hi]
      exact (sum_eq_zero_iff.1 h2) i (mem_erase.2 ⟨hi, mem_univ _⟩)

theorem Affine.sum_idx {A : Type*} [AddCommGroup A] {M : Tensor n K} (h : Affine M) (f : (Fin n → ℕ) → A)
    (hf : ∀ k, M.coef k = 0 → f k = 0) :
    ∑ k ∈ M.idx, f k = f 0 + ∑ i, if M.shape i = 1 then 0 else f (Pi.single i 1) := by
  rw [← sum_linIdx M f]
  symm
  apply sum_subset (linIdx_subset M h.nonempty)
  intro k hk hk'
  apply hf
  apply h.high k hk
  by_contra hc
  apply hk'
  rcases sum_le_one_cases k (by omega) with rfl | ⟨j, rfl⟩
  · simp [linIdx]
  · simp only [linIdx, mem_insert, mem_image, mem_filter, mem_univ, true_and]
    right
    refine ⟨j, ?_, rfl⟩
    have := (mem_idx_iff M _).1 hk j
    rw [Pi.single_eq_same] at this
    omega

theorem Affine.absSum {M : Tensor n K} (h : Affine M) : M.absSum = |M.const| + ∑ j, |linCoef M j| := by
  have := h.sum_idx (fun k => |M.coef k|) (fun k hk => by rw [hk, abs_zero])
  show ∑ k ∈ M.idx, |M.coef k| = _
  rw [this]
  congr 1
  apply sum_congr rfl
  intro j _
  unfold linCoef
  split_ifs <;> simp

theorem Affine.eval {M : Tensor n K} (h : Affine M) (x : Fin n → K) : M.eval x = M.const + ∑ j, linCoef M j * x j := by
  have := h.sum_idx (fun k => M.coef k * ∏ i, chebT (k i) (x i)) (fun k hk => by rw [hk, zero_mul])
  show ∑ k ∈ M.idx, M.coef k * ∏ i, chebT (k i) (x i) = _
  rw [this]
  congr 1
  · simp [Tensor.const]
    rfl
  · apply sum_congr rfl
    intro j _
    unfold linCoef
    rw [prod_single]
    split_ifs <;> simp

/-! ### Re-expansion -/

section OneD

variable {V : Type*} [AddCommGroup V] [Module K V]

theorem tInit_out (c : ℕ → V) (α β : K) (i : ℕ) :
    (tInit c α β).out i = if i = 0 then c 0 + β • c 1 else if i = 1 then α • c 1 else 0 := by
  simp only [tInit]
  by_cases h1 : i = 1
  · subst h1; simp
  · by_cases h0 : i = 0
    · subst h0; simp
    · simp [h0, h1]

theorem tRun_out_two (thr : K) (c : ℕ → V) (α β : K) (m : ℕ) (h : ∀ k, 2 ≤ k → k ≤ m + 1 → c k = 0) (i : ℕ) :
    (tRun thr c α β m).out i = (tInit c α β).out i := by
  induction m with
  | zero => rfl
  | succ m ih =>
    rw [tRun_succ]
    obtain ⟨δ, -, -, ho⟩ := tStep_spec thr c α β (tRun thr c α β m) (m + 2) (tRun_supp thr c α β m)
    rw [ho, ih fun k h1 h2 => h k h1 (by omega), h (m + 2) (by omega) (by omega)]; simp

theorem fRun_out_two (thr : K) (c : ℕ → V) (α β : K) (m : ℕ) (h : ∀ k, 2 ≤ k → k ≤ m + 1 → c k = 0) (i : ℕ) :
    (fRun thr c α β m).out i = (tInit c α β).out i := by
  induction m with
  | zero => rfl
  | succ m ih =>
    rw [fRun_succ]
    obtain ⟨-, ho, -⟩ := fStep_spec thr c α β (fRun thr c α β m) (m + 2) (fRun_supp thr c α β m)
    rw [ho, ih fun k h1 h2 => h k h1 (by omega), h (m + 2) (by omega) (by omega)]; simp

theorem transformFunc_two (exact : Bool) (c : ℕ → V) (N : ℕ) (hN : 2 ≤ N) (α β : K) (h : ∀ k, 2 ≤ k → k < N → c k = 0) (i : ℕ) :
    (transformFunc exact c N α β).1 i = if i = 0 then c 0 + β • c 1 else if i = 1 then α • c 1 else 0 := by
  rw [← tInit_out]
  unfold transformFunc
  cases exact
  · simp only [Bool.false_eq_true, if_false, transform1D_eq]
    exact tRun_out_two _ c α β _ (fun k h1 h2 => h k h1 (by omega)) i
  · simp only [if_true, transform1DErrorFree_eq]
    exact fRun_out_two _ c α β _ (fun k h1 h2 => h k h1 (by omega)) i

end OneD

theorem sum_update_nat (k : Fin n → ℕ) (d : Fin n) (j : ℕ) : ∑ i, Function.update k d j i + k d = ∑ i, k i + j := by
  rw [sum_update_of_mem (mem_univ d), ← add_sum_erase univ k (mem_univ d), sdiff_singleton_eq_erase]
  omega

/-- One axis. -/
theorem transformND_affine (exact : Bool) (M : Tensor n K) (hM : Affine M) (d : Fin n) (α β : K) :
    Affine (transformND M d α β exact) ∧ (transformND M d α β exact).const = M.const + β * linCoef M d ∧
      ∀ j, linCoef (transformND M d α β exact) j = if j = d then α * linCoef M d else linCoef M j := by
  by_cases hid : (α = 1 ∧ β = 0) ∨ M.shape d = 1
  · have e : transformND M d α β exact = M := by unfold transformND; rw [if_pos hid]
    rw [e]
    refine ⟨hM, ?_, fun j => ?_⟩
    · rcases hid with h | h
      · rw [h.2]; ring
      · simp [linCoef, h]
    · split_ifs with hj
      · subst hj
        rcases hid with h | h
        · rw [h.1]; ring
        · simp [linCoef, h]
      · rfl
  rw [not_or] at hid
  obtain ⟨hab, hd⟩ := hid
  have hd0 := hM.nonempty d
  have hd2 : 2 ≤ M.shape d := by omega
  have hso := transformND_shape_other exact M d α β
  have hsd : 2 ≤ (transformND M d α β exact).shape d ∧ (transformND M d α β exact).shape d ≤ M.shape d := by
    rw [(transformND_coef exact M d α β hab hd 0).2]
    exact transformFunc_le exact _ _ hd2 α β
  have hne : (transformND M d α β exact).Nonempty := by
    intro i
    by_cases hi : i = d
    · subst hi; omega
    · rw [hso i hi]; exact hM.nonempty i
  have hz : ∀ k : Fin n → ℕ, (∀ i, i ≠ d → k i < M.shape i) → ∀ j, j < M.shape d → 2 ≤ ∑ i, Function.update k d j i →
      M.coef (Function.update k d j) = 0 := by
    intro k hk j hj h2
    apply hM.high _ _ h2
    rw [mem_idx_iff]
    intro i
    by_cases hi : i = d
    · subst hi; simpa using hj
    · rw [Function.update_of_ne hi]; exact hk i hi
  have hc : ∀ k : Fin n → ℕ, (∀ i, i ≠ d → k i < M.shape i) → (transformND M d α β exact).coef k =
      if k d = 0 then M.coef (Function.update k d 0) + β * M.coef (Function.update k d 1) else
        if k d = 1 then α * M.coef (Function.update k d 1) else 0 := by
    intro k hk
    rw [(transformND_coef exact M d α β hab hd k).1, transformFunc_two exact _ _ hd2 α β]
    · simp
    · intro j h1 h2
      apply hz k hk j h2
      have := sum_update_nat k d j
      have h3 : k d ≤ ∑ i, k i := single_le_sum (fun _ _ => Nat.zero_le _) (mem_univ d)
      omega
  refine ⟨⟨hne, ?_⟩, ?_, ?_⟩
  · intro k hk h2
    rw [mem_idx_iff] at hk
    have hk' : ∀ i, i ≠ d → k i < M.shape i := fun i hi => by rw [← hso i hi]; exact hk i
    rw [hc k hk']
    split_ifs with h0 h1
    · have e0 := sum_update_nat k d 0
      have e1 := sum_update_nat k d 1
      rw [hz k hk' 0 (by omega) (by omega), hz k hk' 1 (by omega) (by omega)]; simp
    · have e1 := sum_update_nat k d 1
      rw [hz k hk' 1 (by omega) (by omega), mul_zero]
    · rfl
  · show (transformND M d α β exact).coef (fun _ => 0) = _
    rw [hc _ (fun i _ => hM.nonempty i)]
    simp only [if_true, linCoef, hd, if_false]
    congr 2
    exact Function.update_eq_self d (0 : Fin n → ℕ)
  · intro j
    by_cases hj : j = d
    · subst hj
      simp only [if_true]
      unfold linCoef
      rw [if_neg (by omega), if_neg hd, hc _ (fun i hi => by rw [Pi.single_eq_of_ne hi]; exact hM.nonempty i)]
      simp only [Pi.single_eq_same, one_ne_zero, if_false, if_true]
      congr 2
      funext i
      by_cases hi : i = j
      · subst hi; simp
      · simp [hi]
    · rw [if_neg hj]
      unfold linCoef
      rw [hso j hj]
      split_ifs with h1
      · rfl
      · have hk : ∀ i, i ≠ d → (Pi.single j 1 : Fin n → ℕ) i < M.shape i := by
          intro i hi
          by_cases hij : i = j
          · subst hij; rw [Pi.single_eq_same]; have := hM.nonempty i; omega
          · rw [Pi.single_eq_of_ne hij]; exact hM.nonempty i
        have hd' : (Pi.single j 1 : Fin n → ℕ) d = 0 := Pi.single_eq_of_ne (Ne.symm hj) 1
        rw [hc _ hk, if_pos hd', hz _ hk 1 (by omega), mul_zero, add_zero]
        · congr 1
          rw [← hd', Function.update_eq_self]
        · have := sum_update_nat (Pi.single j 1 : Fin n → ℕ) d 1
          rw [hd', sum_pi_single'] at this
          simp at this
          omega

theorem Affine.linCoef_le_absSum {M : Tensor n K} (h : Affine M) (j : Fin n) : |linCoef M j| ≤ M.absSum := by
  rw [h.absSum]
  have h1 : |linCoef M j| ≤ ∑ j, |linCoef M j| := single_le_sum (f := fun j => |linCoef M j|) (fun _ _ => abs_nonneg _) (mem_univ j)
  have := abs_nonneg M.const
  linarith

theorem transformationError_ge {M : Tensor n K} (h : Affine M) (d : Fin n) :
    2 * macheps * |linCoef M d| ≤ getTransformationError M d ∧ 0 ≤ getTransformationError M d := by
  have hm : (0 : K) < macheps := by unfold macheps; positivity
  have ha : 0 ≤ M.absSum := (abs_nonneg _).trans (h.linCoef_le_absSum d)
  have h0 : 0 ≤ getTransformationError M d := by unfold getTransformationError; positivity
  refine ⟨?_, h0⟩
  by_cases hd : M.shape d = 1
  · simpa [linCoef, hd] using h0
  · have := h.nonempty d
    have h2 : (2 : K) ≤ M.shape d := by exact_mod_cast (show 2 ≤ M.shape d by omega)
    unfold getTransformationError
    have h1 := h.linCoef_le_absSum d
    calc 2 * macheps * |linCoef M d| ≤ 2 * macheps * M.absSum := by gcongr
      _ ≤ _ := by gcongr

theorem chebFold_affine (exact : Bool) (α β : Fin n → K) (l : List (Fin n)) (hl : l.Nodup) (p : Tensor n K × K) (hp : Affine p.1) :
    Affine (chebFold exact α β l p).1 ∧
      (chebFold exact α β l p).1.const = p.1.const + (l.map fun d => β d * linCoef p.1 d).sum ∧
      (∀ j, linCoef (chebFold exact α β l p).1 j = if j ∈ l then α j * linCoef p.1 j else linCoef p.1 j) ∧
      p.2 ≤ (chebFold exact α β l p).2 ∧ ∀ j ∈ l, p.2 + 2 * macheps * |linCoef p.1 j| ≤ (chebFold exact α β l p).2 := by
  induction l generalizing p with
  | nil => exact ⟨hp, by simp [chebFold], fun j => by simp [chebFold], le_rfl, fun j hj => by simp at hj⟩
  | cons d l ih =>
    rw [List.nodup_cons] at hl
    obtain ⟨hA, hC, hL⟩ := transformND_affine exact p.1 hp d (α d) (β d)
    obtain ⟨i1, i2, i3, i4, i5⟩ := ih hl.2 (transformND p.1 d (α d) (β d) exact, p.2 + getTransformationError p.1 d) hA
    obtain ⟨e1, e2⟩ := transformationError_ge hp d
    rw [chebFold_cons]
    have hne : ∀ j ∈ l, j ≠ d := fun j hj h => hl.1 (h ▸ hj)
    refine ⟨i1, ?_, ?_, ?_, ?_⟩
    · rw [i2, hC, List.map_cons, List.sum_cons, add_assoc]
      congr 2
      congr 1
      apply List.map_congr_left
      intro j hj
      rw [hL, if_neg (hne j hj)]
    · intro j
      rw [i3, hL]
      by_cases hj : j = d
      · subst hj; simp [hl.1]
      · simp [hj]
    · linarith
    · intro j hj
      rw [List.mem_cons] at hj
      rcases hj with rfl | hj
      · simp only at i4; linarith
      · have := i5 j hj
        rw [hL, if_neg (hne j hj)] at this
        simp only at this
        linarith

/-- The whole re-expansion of an affine array. -/
theorem transformCheb_affine (exact : Bool) (M : Tensor n K) (hM : Affine M) (α β : Fin n → K) (e : K) :
    Affine (transformCheb M α β e exact).1 ∧
      (transformCheb M α β e exact).1.const = M.const + ∑ d, β d * linCoef M d ∧
      (∀ j, linCoef (transformCheb M α β e exact).1 j = α j * linCoef M j) ∧
      e ≤ (transformCheb M α β e exact).2 ∧ ∀ j, e + 2 * macheps * |linCoef M j| ≤ (transformCheb M α β e exact).2 := by
  rw [transformCheb_eq_fold]
  obtain ⟨h1, h2, h3, h4, h5⟩ := chebFold_affine exact α β (List.finRange n) (List.nodup_finRange n) (M, e) hM
  refine ⟨h1, ?_, fun j => ?_, h4, fun j => h5 j (List.mem_finRange j)⟩
  · rw [h2]
    congr 1
  · rw [h3, if_pos (List.mem_finRange j)]

/-! ### Trimming -/

theorem Affine.dropLast {M : Tensor n K} (h : Affine M) (d : Fin n) (hd : 3 < M.shape d) :
    Affine (M.dropLast d) ∧ M.lastSum d = 0 ∧ (M.dropLast d).const = M.const ∧ ∀ j, linCoef (M.dropLast d) j = linCoef M j := by
  refine ⟨⟨?_, ?_⟩, ?_, rfl, ?_⟩
  · intro i
    simp only [Tensor.dropLast]
    by_cases hi : i = d
    · subst hi; rw [Function.update_self]; omega
    · rw [Function.update_of_ne hi]; exact h.nonempty i
  · intro k hk h2
    apply h.high k _ h2
    rw [dropLast_idx M d (by omega)] at hk
    exact (mem_filter.1 hk).1
  · apply sum_eq_zero
    intro k hk
    rw [mem_filter] at hk
    rw [h.high k hk.1, abs_zero]
    have h3 : k d ≤ ∑ i, k i := single_le_sum (fun _ _ => Nat.zero_le _) (mem_univ d)
    omega
  · intro j
    have hs : (M.dropLast d).shape j = 1 ↔ M.shape j = 1 := by
      simp only [Tensor.dropLast]
      by_cases hj : j = d
      · subst hj; rw [Function.update_self]; omega
      · rw [Function.update_of_ne hj]
    unfold linCoef
    simp only [hs]
    rfl

/-- What trimming leaves alone. -/
structure SameAffine (M M' : Tensor n K) : Prop where
  affine : Affine M'
  const : M'.const = M.const
  lin : ∀ j, linCoef M' j = linCoef M j

theorem trimAxis_affine (d : Fin n) (s : TrimState n K) (h : Affine s.M) :
    SameAffine s.M (trimAxis d s).M ∧ (trimAxis d s).err = s.err := by
  revert h
  refine trimAxis_induct (P := fun s => Affine s.M → SameAffine s.M (trimAxis d s).M ∧ (trimAxis d s).err = s.err) d ?_ ?_ s
  · intro s hs ih h
    obtain ⟨h1, h2, h3, h4⟩ := h.dropLast d hs.2
    obtain ⟨⟨i1, i2, i3⟩, i4⟩ := ih h1
    rw [trimAxis, dif_pos hs]
    refine ⟨⟨i1, i2.trans h3, fun j => (i3 j).trans (h4 j)⟩, ?_⟩
    rw [i4]
    simp [h2]
  · intro s hs h
    rw [trimAxis, dif_neg hs]
    exact ⟨⟨h, rfl, fun _ => rfl⟩, rfl⟩

theorem trimPoly_affine (M : Tensor n K) (h : Affine M) (e r a : K) :
    SameAffine M (trimPoly M e r a).M ∧ (trimPoly M e r a).err = e := by
  have key : ∀ (l : List (Fin n)) (s : TrimState n K), Affine s.M →
      SameAffine s.M (l.foldl (fun s d => trimAxis d s) s).M ∧ (l.foldl (fun s d => trimAxis d s) s).err = s.err := by
    intro l
    induction l with
    | nil => exact fun s hs => ⟨⟨hs, rfl, fun _ => rfl⟩, rfl⟩
    | cons d l ih =>
      intro s hs
      obtain ⟨⟨h1, h2, h3⟩, h4⟩ := trimAxis_affine d s hs
      obtain ⟨⟨i1, i2, i3⟩, i4⟩ := ih _ h1
      exact ⟨⟨i1, i2.trans h2, fun j => (i3 j).trans (h3 j)⟩, i4.trans h4⟩
  exact key _ ⟨M, a + e * r, e⟩ h

end YRoots
