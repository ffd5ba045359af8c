import Verif.Model.Macaulay
import Verif.Props.MonMult
import Mathlib.Analysis.Complex.Basic

/-! # Helper lemmas: multiplication by a monomial keeps a bound on the degree -/

namespace YRoots.Legacy

open Finset

section Rows

variable {V : Type*} [AddCommGroup V] {K : Type*} [Field K] [Module K V]

theorem monMultRows_zero [NeZero (2 : K)] (c : ℕ → V) (N : ℕ) (hN : 0 < N) :
    ∃ r, monMultRows (K := K) true c N 0 = some r ∧ ∀ j < N, r j = c j := by
  have h2 : (2 : K) ≠ 0 := two_ne_zero
  refine ⟨_, by simp only [monMultRows, foldIn, if_pos]; rfl, fun j hj => ?_⟩
  beta_reduce
  rw [if_neg (Nat.not_lt_zero j), if_neg (show ¬ N ≤ 0 by omega), if_pos hj, if_pos hj, Nat.sub_zero, ← two_smul K (c j), smul_smul]
  rw [one_div, inv_mul_cancel₀ h2, one_smul]

theorem monMultRows_pos (c : ℕ → V) (N m : ℕ) (hm : 0 < m) :
    ∃ r, monMultRows (K := K) true c N m = some r ∧ ∀ j, r j = (1 / 2 : K) • ((if j < m then 0 else c (j - m)) +
      if j < (if N ≤ m then m + 1 else N) then
        (if j = 0 then (if m < N then c m else 0)
          else foldVal (fun j => if j < N then c j else 0) (if N ≤ m then m + 1 else N) m j) else 0) := by
  refine ⟨_, by simp only [monMultRows, foldIn, if_neg hm.ne', if_true]; rfl, fun j => ?_⟩
  beta_reduce
  congr 2
  by_cases hj : j < (if N ≤ m then m + 1 else N)
  · rw [if_pos hj, if_pos hj, foldLoop_apply _ _ _ _ _ _ (by omega) (fun j hj => by rw [Function.update_of_ne (by omega)])]
    by_cases h0 : j = 0
    · subst h0; simp
    · rw [if_pos ⟨by omega, by omega⟩, if_neg h0]
  · rw [if_neg hj, if_neg hj]

end Rows

variable {n : ℕ}

/-- Which coefficients of the product may differ from zero. -/
theorem monMult1_support {K : Type*} [Field K] [NeZero (2 : K)] (M R : Tensor n K) (d : Fin n) (m : ℕ) (hs : 0 < M.shape d) (hR : monMult1 true M d m = some R)
    (k : Fin n → ℕ) (hk : k ∈ R.idx) (hne : R.coef k ≠ 0) :
    ∃ j, Function.update k d j ∈ M.idx ∧ M.coef (Function.update k d j) ≠ 0 ∧ k d ≤ j + m := by
  obtain ⟨r, hr⟩ : ∃ r, monMultRows (K := K) true (M.rows d) (M.shape d) m = some r := by
    obtain ⟨r, hr, -⟩ := monMultRows_sum (K := K) (M.rows d) (M.shape d) m hs 0
    exact ⟨r, hr⟩
  rw [monMult1, hr, Option.map_some, Option.some_inj] at hR
  subst hR
  have hkd : k d < M.shape d + m := by
    have := mem_range.1 (Fintype.mem_piFinset.1 hk d)
    simpa [Tensor.ofRows] using this
  have hki : ∀ i, i ≠ d → k i < M.shape i := fun i hi => by
    have := mem_range.1 (Fintype.mem_piFinset.1 hk i)
    simpa [Tensor.ofRows, Function.update_of_ne hi] using this
  have hmem : ∀ j, j < M.shape d → Function.update k d j ∈ M.idx := fun j hj => by
    refine Fintype.mem_piFinset.2 fun i => mem_range.2 ?_
    by_cases h : i = d
    · subst h; rwa [Function.update_self]
    · rw [Function.update_of_ne h]; exact hki i h
  have hrow : ∀ j, M.rows d j (Function.update k d 0) = M.coef (Function.update k d j) := fun j => by
    rw [Tensor.rows, Function.update_idem]
  by_contra hcon
  push Not at hcon
  have hz : ∀ j, j < M.shape d → k d ≤ j + m → M.rows d j (Function.update k d 0) = 0 := fun j hj hjm => by
    rw [hrow]
    by_contra h
    exact absurd (hcon j (hmem j hj) h) (by omega)
  apply hne
  show r (k d) (Function.update k d 0) = 0
  rcases Nat.eq_zero_or_pos m with hm | hm
  · subst hm
    obtain ⟨r', hr', hv⟩ := monMultRows_zero (K := K) (M.rows d) (M.shape d) hs
    rw [hr', Option.some_inj] at hr
    subst hr
    rw [hv _ hkd]
    exact hz _ hkd le_rfl
  · obtain ⟨r', hr', hv⟩ := monMultRows_pos (K := K) (M.rows d) (M.shape d) m hm
    rw [hr', Option.some_inj] at hr
    subst hr
    have hpd : ∀ j, k d ≤ j + m → (if j < M.shape d then M.rows d j else 0) (Function.update k d 0) = 0 := fun j hj => by
      by_cases h : j < M.shape d
      · rw [if_pos h]; exact hz j h hj
      · rw [if_neg h]; rfl
    rw [hv, Pi.smul_apply, Pi.add_apply]
    have e1 : (if k d < m then (0 : (Fin n → ℕ) → K) else M.rows d (k d - m)) (Function.update k d 0) = 0 := by
      by_cases h : k d < m
      · rw [if_pos h]; rfl
      · rw [if_neg h]; exact hz _ (by omega) (by omega)
    rw [e1, zero_add]
    generalize (if M.shape d ≤ m then m + 1 else M.shape d) = N'
    by_cases h1 : k d < N'
    · rw [if_pos h1]
      by_cases h0 : k d = 0
      · rw [if_pos h0, hpd m (by omega), smul_zero]
      · rw [if_neg h0, foldVal, Pi.add_apply]
        have e2 : (if k d ≤ m then (if m - k d < M.shape d then M.rows d (m - k d) else 0) else (0 : (Fin n → ℕ) → K)) (Function.update k d 0) = 0 := by
          by_cases h : k d ≤ m
          · rw [if_pos h]; exact hpd _ (by omega)
          · rw [if_neg h]; rfl
        have e3 : (if m + k d < N' then (if m + k d < M.shape d then M.rows d (m + k d) else 0) else (0 : (Fin n → ℕ) → K)) (Function.update k d 0) = 0 := by
          by_cases h : m + k d < N'
          · rw [if_pos h]; exact hpd _ (by omega)
          · rw [if_neg h]; rfl
        rw [e2, e3, zero_add, smul_zero]
    · rw [if_neg h1, Pi.zero_apply, smul_zero]

/-- The product is not zero. -/
theorem monMult1_nonzero {K : Type*} [Field K] [NeZero (2 : K)] (M R : Tensor n K) (d : Fin n) (m : ℕ) (hR : monMult1 true M d m = some R)
    (h : ∃ k ∈ M.idx, M.coef k ≠ 0) : ∃ k ∈ R.idx, R.coef k ≠ 0 := by
  classical
  have h2 : (2 : K) ≠ 0 := two_ne_zero
  obtain ⟨k, hk, hmax⟩ := Finset.exists_max_image (M.idx.filter fun k => M.coef k ≠ 0) (fun k => k d)
    (by obtain ⟨k, h1, h2⟩ := h; exact ⟨k, mem_filter.2 ⟨h1, h2⟩⟩)
  rw [mem_filter] at hk
  obtain ⟨hk, hne⟩ := hk
  have hki : ∀ i, k i < M.shape i := fun i => mem_range.1 (Fintype.mem_piFinset.1 hk i)
  have hs : 0 < M.shape d := lt_of_le_of_lt (Nat.zero_le _) (hki d)
  obtain ⟨r, hr⟩ : ∃ r, monMultRows (K := K) true (M.rows d) (M.shape d) m = some r := by
    obtain ⟨r, hr, -⟩ := monMultRows_sum (K := K) (M.rows d) (M.shape d) m hs 0
    exact ⟨r, hr⟩
  rw [monMult1, hr, Option.map_some, Option.some_inj] at hR
  subst hR
  refine ⟨Function.update k d (k d + m), Fintype.mem_piFinset.2 fun i => mem_range.2 ?_, ?_⟩
  · show _ < Function.update M.shape d (M.shape d + m) i
    by_cases hi : i = d
    · subst hi; rw [Function.update_self, Function.update_self]; have := hki i; omega
    · rw [Function.update_of_ne hi, Function.update_of_ne hi]; exact hki i
  show r (Function.update k d (k d + m) d) (Function.update (Function.update k d (k d + m)) d 0) ≠ 0
  rw [Function.update_self, Function.update_idem]
  have hrow : ∀ j, M.rows d j (Function.update k d 0) = M.coef (Function.update k d j) := fun j => by
    rw [Tensor.rows, Function.update_idem]
  have hself : M.rows d (k d) (Function.update k d 0) = M.coef k := by rw [hrow, Function.update_eq_self]
  have hz : ∀ j, k d < j → (if j < M.shape d then M.rows d j else 0) (Function.update k d 0) = 0 := fun j hj => by
    by_cases h : j < M.shape d
    · rw [if_pos h, hrow]
      by_contra hn
      have := hmax (Function.update k d j) (mem_filter.2 ⟨Fintype.mem_piFinset.2 fun i => mem_range.2 ?_, hn⟩)
      · rw [Function.update_self] at this; omega
      · by_cases hi : i = d
        · subst hi; rwa [Function.update_self]
        · rw [Function.update_of_ne hi]; exact hki i
    · rw [if_neg h]; rfl
  rcases Nat.eq_zero_or_pos m with hm | hm
  · subst hm
    obtain ⟨r', hr', hv⟩ := monMultRows_zero (K := K) (M.rows d) (M.shape d) hs
    rw [hr', Option.some_inj] at hr
    subst hr
    rw [Nat.add_zero, hv _ (hki d), hself]
    exact hne
  · obtain ⟨r', hr', hv⟩ := monMultRows_pos (K := K) (M.rows d) (M.shape d) m hm
    rw [hr', Option.some_inj] at hr
    subst hr
    rw [hv, if_neg (show ¬ k d + m < m by omega), Nat.add_sub_cancel, Pi.smul_apply, Pi.add_apply, hself]
    generalize hN' : (if M.shape d ≤ m then m + 1 else M.shape d) = N'
    have e3 : (if m + (k d + m) < N' then (if m + (k d + m) < M.shape d then M.rows d (m + (k d + m)) else 0) else (0 : (Fin n → ℕ) → K))
        (Function.update k d 0) = 0 := by
      by_cases h : m + (k d + m) < N'
      · rw [if_pos h]; exact hz _ (by omega)
      · rw [if_neg h]; rfl
    by_cases h1 : k d + m < N'
    · rw [if_pos h1, if_neg (show k d + m ≠ 0 by omega), foldVal, Pi.add_apply, e3, add_zero]
      by_cases h0 : k d = 0
      · rw [h0] at hself ⊢
        rw [Nat.zero_add, if_pos le_rfl, Nat.sub_self, if_pos hs, hself, ← two_mul, smul_eq_mul, ← mul_assoc, one_div, inv_mul_cancel₀ h2, one_mul]
        exact hne
      · rw [if_neg (show ¬ k d + m ≤ m by omega), Pi.zero_apply, add_zero, smul_eq_mul]
        exact mul_ne_zero (one_div_ne_zero h2) hne
    · rw [if_neg h1, Pi.zero_apply, add_zero, smul_eq_mul]
      exact mul_ne_zero (one_div_ne_zero h2) hne

/-- The array with its entries read as complex numbers. -/
noncomputable def toC (M : Tensor n ℝ) : Tensor n ℂ := ⟨M.shape, fun k => (M.coef k : ℂ)⟩

theorem foldLoop_map {V W : Type*} [AddCommGroup V] [AddCommGroup W] (φ : V →+ W) (c : ℕ → V) (N f r n : ℕ) (sol : ℕ → V) :
    foldLoop (fun j => φ (c j)) N f r n (fun j => φ (sol j)) = fun j => φ (foldLoop c N f r n sol j) := by
  have hu : ∀ (n : ℕ) (sol : ℕ → V) (v : V), Function.update (fun j => φ (sol j)) n (φ v) = fun j => φ (Function.update sol n v j) := by
    intro n sol v
    funext j
    by_cases h : j = n
    · subst h; rw [Function.update_self, Function.update_self]
    · rw [Function.update_of_ne h, Function.update_of_ne h]
  induction r generalizing n sol with
  | zero => rfl
  | succ r ih =>
    unfold foldLoop
    by_cases h1 : f < n + 1
    all_goals by_cases h2 : f + n + 2 > N
    all_goals simp only [h1, h2, if_true, if_false]
    · rw [hu, ih]
    · rw [hu, ih]
    · rw [← map_add, hu, ih]

/-- The entries of a row read as complex numbers. -/
noncomputable def rowC : ((Fin n → ℕ) → ℝ) →+ ((Fin n → ℕ) → ℂ) where
  toFun v := fun k => (v k : ℂ)
  map_zero' := by ext; simp
  map_add' := by intros; ext; simp

theorem monMultRows_map (c : ℕ → (Fin n → ℕ) → ℝ) (N m : ℕ) :
    monMultRows (K := ℂ) true (fun j => rowC (c j)) N m = (monMultRows (K := ℝ) true c N m).map fun r j => rowC (r j) := by
  have hhalf : ∀ v : (Fin n → ℕ) → ℝ, rowC ((1 / 2 : ℝ) • v) = (1 / 2 : ℂ) • rowC v := by
    intro v; ext k
    simp [rowC]
  have hif : ∀ (P : Prop) [Decidable P] (v w : (Fin n → ℕ) → ℝ), (if P then rowC v else rowC w) = rowC (if P then v else w) := by
    intro P _ v w; split_ifs <;> rfl
  have hif0 : ∀ (P : Prop) [Decidable P] (v : (Fin n → ℕ) → ℝ), (if P then rowC v else 0) = rowC (if P then v else 0) := by
    intro P _ v; rw [← hif, map_zero]
  have hif1 : ∀ (P : Prop) [Decidable P] (v : (Fin n → ℕ) → ℝ), (if P then 0 else rowC v) = rowC (if P then 0 else v) := by
    intro P _ v; rw [← hif, map_zero]
  by_cases hm : m = 0
  · subst hm
    simp only [monMultRows, foldIn, if_true, hif0, hif1, ← map_add, ← hhalf, Option.map_some]
  · simp only [monMultRows, foldIn, if_neg hm, if_true, Option.map_some, hif0, hif1]
    have hinit : (Function.update (fun _ => 0) 0 (rowC (if m < N then c m else 0)) : ℕ → (Fin n → ℕ) → ℂ) =
        fun j => rowC ((Function.update (fun _ => 0) 0 (if m < N then c m else 0) : ℕ → (Fin n → ℕ) → ℝ) j) := by
      funext j
      by_cases h : j = 0
      · subst h; rw [Function.update_self, Function.update_self]
      · rw [Function.update_of_ne h, Function.update_of_ne h, map_zero]
    rw [hinit, foldLoop_map rowC (fun j => if j < N then c j else 0)]
    simp only [hif0, ← map_add, ← hhalf]

theorem monMult1_toC (M : Tensor n ℝ) (d : Fin n) (m : ℕ) :
    monMult1 true (toC M) d m = (monMult1 true M d m).map toC := by
  unfold monMult1
  have e : (toC M).rows d = fun j => rowC (M.rows d j) := rfl
  rw [e, show (toC M).shape d = M.shape d from rfl, monMultRows_map, Option.map_map, Option.map_map]
  rfl

theorem monMultFold_toC (mon : Fin n → ℕ) (l : List (Fin n)) (M : Tensor n ℝ) :
    l.foldlM (fun M d => monMult1 true M d (mon d)) (toC M) = (l.foldlM (fun M d => monMult1 true M d (mon d)) M).map toC := by
  induction l generalizing M with
  | nil => rfl
  | cons d l ih =>
    rw [List.foldlM_cons, List.foldlM_cons, monMult1_toC]
    cases h : monMult1 true M d (mon d) with
    | none => rfl
    | some R => exact ih R

/-- The degree after multiplication along the axes in `l`. -/
theorem monMultFold_fits (mon : Fin n → ℕ) (l : List (Fin n)) (M R : Tensor n ℝ)
    (hR : l.foldlM (fun M d => monMult1 true M d (mon d)) M = some R) (D : ℕ)
    (hdeg : ∀ k ∈ M.idx, M.coef k ≠ 0 → ∑ i, k i ≤ D) (hne : ∃ k ∈ M.idx, M.coef k ≠ 0) :
    (∀ k ∈ R.idx, R.coef k ≠ 0 → ∑ i, k i ≤ D + (l.map mon).sum) ∧ ∃ k ∈ R.idx, R.coef k ≠ 0 := by
  induction l generalizing M D with
  | nil =>
    rw [List.foldlM_nil] at hR
    obtain rfl := Option.some_inj.1 hR
    exact ⟨by simpa using hdeg, hne⟩
  | cons d l ih =>
    rw [List.foldlM_cons] at hR
    cases h : monMult1 true M d (mon d) with
    | none => rw [h] at hR; cases hR
    | some M' =>
      rw [h] at hR
      have hs : 0 < M.shape d := by
        obtain ⟨k, hk, -⟩ := hne
        exact lt_of_le_of_lt (Nat.zero_le _) (mem_range.1 (Fintype.mem_piFinset.1 hk d))
      have h1 := ih M' hR (D + mon d) (fun k hk hkne => by
        obtain ⟨j, hj, hjne, hle⟩ := monMult1_support M M' d (mon d) hs h k hk hkne
        have h2 := hdeg _ hj hjne
        have e1 : ∑ i, Function.update k d j i = j + ∑ i ∈ univ.erase d, k i := by
          rw [← Finset.add_sum_erase univ _ (mem_univ d), Function.update_self]
          congr 1
          exact Finset.sum_congr rfl fun i hi => by rw [Function.update_of_ne (Finset.ne_of_mem_erase hi)]
        rw [e1] at h2
        rw [← Finset.add_sum_erase univ _ (mem_univ d)]
        omega) (monMult1_nonzero M M' d (mon d) h hne)
      rw [List.map_cons, List.sum_cons, ← Nat.add_assoc]
      exact h1

end YRoots.Legacy
