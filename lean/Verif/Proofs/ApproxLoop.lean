import Verif.Proofs.Approx

/-!
# Helper lemmas: the degree search
-/

set_option linter.unusedSectionVars false
set_option linter.unusedVariables false
set_option linter.unusedSimpArgs false

namespace YRoots

open Finset Real

variable {n : ℕ}

/-! ### The sup norm -/

theorem foldl_max_abs (l : List (Fin n → ℕ)) (v : (Fin n → ℕ) → ℝ) (m : ℝ) :
    m ≤ l.foldl (fun m j => max m |v j|) m ∧ (∀ j ∈ l, |v j| ≤ l.foldl (fun m j => max m |v j|) m) ∧
      ∀ B, m ≤ B → (∀ j ∈ l, |v j| ≤ B) → l.foldl (fun m j => max m |v j|) m ≤ B := by
  induction l generalizing m with
  | nil => simp
  | cons j l ih =>
    rw [List.foldl_cons]
    obtain ⟨h1, h2, h3⟩ := ih (max m |v j|)
    refine ⟨(le_max_left _ _).trans h1, ?_, ?_⟩
    · intro i hi
      rcases List.mem_cons.1 hi with rfl | hi
      · exact (le_max_right _ _).trans h1
      · exact h2 i hi
    · intro B hm hB
      exact h3 B (max_le hm (hB j (by simp))) fun i hi => hB i (by simp [hi])

variable (f : (Fin n → ℝ) → ℝ) (degs : Fin n → ℕ) (a b : Fin n → ℝ)

theorem supNorm_nonneg : 0 ≤ (intervalApproximate f degs a b).supNorm := (foldl_max_abs _ _ 0).1

theorem le_supNorm {j : Fin n → ℕ} (hj : j ∈ gridIdx (bumpDegs degs)) :
    |f (gridPt (bumpDegs degs) a b j)| ≤ (intervalApproximate f degs a b).supNorm :=
  (foldl_max_abs _ (fun j => f (gridPt (bumpDegs degs) a b j)) 0).2.1 j (mem_toList.2 hj)

theorem supNorm_le {B : ℝ} (hB : 0 ≤ B) (h : ∀ j ∈ gridIdx (bumpDegs degs), |f (gridPt (bumpDegs degs) a b j)| ≤ B) :
    (intervalApproximate f degs a b).supNorm ≤ B :=
  (foldl_max_abs _ (fun j => f (gridPt (bumpDegs degs) a b j)) 0).2.2 B hB fun j hj => h j (mem_toList.1 hj)

theorem intervalApproximate_degs : (intervalApproximate f degs a b).degs = bumpDegs degs := rfl

/-- The values on the grid are those of `f ∘ transform`. -/
theorem values_eq (N : Fin n → ℕ) :
    (fun j => f (gridPt N a b j)) = fun j => (fun x => f (transformPt x a b)) fun i => chebPt (N i) (j i) := rfl

/-- Beyond its degree in direction `d`, a polynomial has vanishing coefficients, and the others do not depend on the
number of points in that direction. -/
theorem coef_stable (d : Fin n) (D g : ℕ) (hD : 1 ≤ D) (hg : D ≤ g) (hdegs : ∀ i, 1 ≤ degs i)
    (hf : PolyAlong d D f) (k : Fin n → ℕ) (hk : k ∈ gridIdx (Function.update degs d g)) :
    fullCoef (Function.update degs d g) (fun j => f (gridPt (Function.update degs d g) a b j)) k =
      if k d ≤ D then fullCoef (Function.update degs d D) (fun j => f (gridPt (Function.update degs d D) a b j)) k
      else 0 := by
  set G : (Fin n → ℝ) → ℝ := fun x => f (transformPt x a b) with hG
  have hGp : PolyAlong d D G := hf.comp_transform a b
  have hN : ∀ D, 1 ≤ D → ∀ i, 1 ≤ Function.update degs d D i := by
    intro D hD i
    by_cases h : i = d
    · subst h; simpa using hD
    · rw [Function.update_of_ne h]; exact hdegs i
  apply fullCoef_recover (Function.update degs d g) (hN g (hD.trans hg))
    (fun k => if k d ≤ D then fullCoef (Function.update degs d D)
      (fun j => f (gridPt (Function.update degs d D) a b j)) k else 0) _ _ k hk
  intro j hj
  have hj' := mem_gridIdx.1 hj
  have e := fullCoef_exact (Function.update degs d D) (hN D hD) G {d}
    (by intro i hi; rw [mem_singleton] at hi; subst hi; simpa using hGp)
    (fun i => chebPt (Function.update degs d g i) (j i))
    (by
      intro i hi
      have hid : i ≠ d := by simpa using hi
      refine ⟨j i, ?_, ?_⟩
      · have := hj' i
        rw [Function.update_of_ne hid] at this ⊢
        exact this
      · rw [Function.update_of_ne hid, Function.update_of_ne hid])
  have hsub : gridIdx (Function.update degs d D) ⊆ gridIdx (Function.update degs d g) := by
    intro m hm
    rw [mem_gridIdx] at *
    intro i
    have := hm i
    by_cases h : i = d
    · subst h; simp at this ⊢; omega
    · rw [Function.update_of_ne h] at this ⊢; exact this
  change G (fun i => chebPt (Function.update degs d g i) (j i)) = _
  rw [e, ← sum_subset hsub]
  · apply sum_congr rfl
    intro m hm
    have : m d ≤ D := by simpa using mem_gridIdx.1 hm d
    simp only [this, if_true]
    rfl
  · intro m hm hm'
    have : ¬ m d ≤ D := by
      intro h
      apply hm'
      rw [mem_gridIdx] at *
      intro i
      have := hm i
      by_cases hi : i = d
      · subst hi; simpa using h
      · rw [Function.update_of_ne hi] at this ⊢; exact this
    simp [this]

theorem bump_update (d : Fin n) (g : ℕ) (hg : 1 ≤ g) (hdegs : ∀ i, 1 ≤ degs i) :
    bumpDegs (Function.update degs d g) = Function.update degs d g := by
  apply bumpDegs_eq
  intro i
  by_cases h : i = d
  · subst h; simpa using hg
  · rw [Function.update_of_ne h]; exact hdegs i

theorem test_iff (p : Prop) : test p = true ↔ p := by simp [test]

/-- Once the guess exceeds the degree by 5, the search in one direction ends. -/
theorem loop_stops (d : Fin n) (D g : ℕ) (hD : 1 ≤ D) (hg : D + 5 ≤ g) (hdegs : ∀ i, 1 ≤ degs i)
    (hf : PolyAlong d D f) (rtol : ℝ) (hr : 0 < rtol)
    (hpos : ∀ N : Fin n → ℕ, (∀ i, 1 ≤ N i) → D ≤ N d → ∃ j ∈ gridIdx N, f (gridPt N a b j) ≠ 0) (fuel : ℕ) :
    ∃ r, degreeLoop f a b rtol 0 d (fuel + 1) degs g = .ok r := by
  have hnorm : ∀ g, D ≤ g → 0 < (intervalApproximate f (Function.update degs d g) a b).supNorm := by
    intro g hg
    have hb := bump_update degs d g (by omega) hdegs
    obtain ⟨j, hj, hne⟩ := hpos (Function.update degs d g)
      (by rw [← hb]; exact one_le_bumpDegs _) (by simpa using hg)
    rw [← hb] at hj
    have h1 := le_supNorm f (Function.update degs d g) a b hj
    rw [hb] at h1
    exact (abs_pos.2 hne).trans_le h1
  have hcoef : ∀ g, D ≤ g → ∀ k ∈ gridIdx (Function.update degs d g),
      (intervalApproximate f (Function.update degs d g) a b).coeffs.coef k =
      if k d ≤ D then fullCoef (Function.update degs d D) (fun j => f (gridPt (Function.update degs d D) a b j)) k
      else 0 := by
    intro g hg k hk
    rw [intervalApproximate_coef, bump_update degs d g (by omega) hdegs]
    exact coef_stable f degs a b d D g hD hg hdegs hf k hk
  rw [degreeLoop]
  simp only
  set r := intervalApproximate f (Function.update degs d g) a b with hrdef
  have hshape : r.coeffs.shape d = g + 1 := by
    change (Function.update degs d g) d + 1 = _
    simp
  have hs : startedConverging (r.coeffs.shape d) (coeffChunk r.coeffs d) (0 + r.supNorm * rtol) = true := by
    unfold startedConverging
    rw [test_iff, hshape]
    intro k hk1 hk2
    have : coeffChunk r.coeffs d k = 0 := by
      unfold coeffChunk
      rw [sum_eq_zero, zero_div]
      intro j hj
      obtain ⟨h1, h2⟩ := mem_filter.1 hj
      rw [hcoef g (by omega) j h1, if_neg (by omega), abs_zero]
    rw [this, zero_add]
    exact mul_pos (hnorm g (by omega)) hr
  rw [hs]
  have hdegs2 : r.degs = Function.update degs d g := by
    rw [hrdef, intervalApproximate_degs, bump_update degs d g (by omega) hdegs]
  have hupd : Function.update r.degs d (g * 2 + 1) = Function.update degs d (g * 2 + 1) := by
    rw [hdegs2]; simp
  rw [hupd]
  have hc : hasConverged r.coeffs (intervalApproximate f (Function.update degs d (g * 2 + 1)) a b).coeffs
      (0 + max r.supNorm (intervalApproximate f (Function.update degs d (g * 2 + 1)) a b).supNorm * rtol) = true := by
    unfold hasConverged
    rw [test_iff]
    intro k hk
    have hk' : k ∈ gridIdx (Function.update degs d (g * 2 + 1)) := hk
    have hkk := mem_gridIdx.1 hk'
    have htol : 0 < 0 + max r.supNorm (intervalApproximate f (Function.update degs d (g * 2 + 1)) a b).supNorm * rtol := by
      rw [zero_add]
      exact mul_pos (lt_max_of_lt_left (hnorm g (by omega))) hr
    beta_reduce
    rw [hcoef (g * 2 + 1) (by omega) k hk']
    by_cases h : k d ≤ g
    · have hin : k ∈ gridIdx (Function.update degs d g) := by
        rw [mem_gridIdx]
        intro i
        have := hkk i
        by_cases hi : i = d
        · subst hi; simpa using h
        · rw [Function.update_of_ne hi] at this ⊢; exact this
      rw [hcoef g (by omega) k hin, sub_self]
      split
      · simpa using htol
      · rename_i hn
        exact absurd (fun i => Nat.lt_succ_of_le (mem_gridIdx.1 hin i)) hn
    · rw [if_neg (by omega : ¬ k d ≤ D), if_neg]
      · simpa using htol
      · intro hall
        have := hall d
        rw [hshape] at this
        omega
  rw [hc]
  simp

/-- The search in one direction ends. -/
theorem loop_terminates_aux (d : Fin n) (D : ℕ) (hD : 1 ≤ D) (hf : PolyAlong d D f) (rtol : ℝ) (hr : 0 < rtol)
    (hpos : ∀ N : Fin n → ℕ, (∀ i, 1 ≤ N i) → D ≤ N d → ∃ j ∈ gridIdx N, f (gridPt N a b j) ≠ 0) (m : ℕ) :
    ∀ (fuel g : ℕ) (degs : Fin n → ℕ), (∀ i, 1 ≤ degs i) → 1 ≤ g → D + 5 ≤ g + m → m + 1 ≤ fuel →
      ∃ r, degreeLoop f a b rtol 0 d fuel degs g = .ok r := by
  induction m with
  | zero =>
    intro fuel g degs hdegs hg hm hfuel
    obtain ⟨fuel, rfl⟩ : ∃ k, fuel = k + 1 := ⟨fuel - 1, by omega⟩
    exact loop_stops f degs a b d D g hD (by omega) hdegs hf rtol hr hpos fuel
  | succ m ih =>
    intro fuel g degs hdegs hg hm hfuel
    obtain ⟨fuel, rfl⟩ : ∃ k, fuel = k + 1 := ⟨fuel - 1, by omega⟩
    rw [degreeLoop]
    simp only
    split
    · exact ih fuel (g * 2) _ (one_le_bumpDegs _) (by omega) (by omega) (by omega)
    · split
      · exact ih fuel (g * 2) _ (one_le_bumpDegs _) (by omega) (by omega) (by omega)
      · exact ⟨_, rfl⟩

theorem loop_terminates (d : Fin n) (D : ℕ) (hD : 1 ≤ D) (hf : PolyAlong d D f) (rtol : ℝ) (hr : 0 < rtol)
    (hpos : ∀ N : Fin n → ℕ, (∀ i, 1 ≤ N i) → D ≤ N d → ∃ j ∈ gridIdx N, f (gridPt N a b j) ≠ 0)
    (fuel : ℕ) (hfuel : D + 5 ≤ fuel) : ∃ r, degreeLoop f a b rtol 0 d fuel degs 8 = .ok r := by
  obtain ⟨fuel, rfl⟩ : ∃ k, fuel = k + 1 := ⟨fuel - 1, by omega⟩
  have key := loop_terminates_aux f a b d D hD hf rtol hr hpos (D - 1) fuel (8 * 2)
  rw [degreeLoop]
  simp only
  split
  · exact key _ (one_le_bumpDegs _) (by omega) (by omega) (by omega)
  · split
    · exact key _ (one_le_bumpDegs _) (by omega) (by omega) (by omega)
    · exact ⟨_, rfl⟩

theorem foldlM_ok {α β : Type*} (step : β → α → Except Exc β) (h : ∀ s x, ∃ s', step s x = .ok s') (l : List α) (s : β) :
    ∃ s', l.foldlM step s = .ok s' := by
  induction l generalizing s with
  | nil => exact ⟨s, rfl⟩
  | cons x l ih =>
    obtain ⟨s', hs⟩ := h s x
    obtain ⟨s'', hs'⟩ := ih s'
    exact ⟨s'', by rw [List.foldlM_cons, hs]; exact hs'⟩

theorem chebApproximate_terminates (rtol : ℝ) (hr : 0 < rtol) (hab : ∀ i, a i ≤ b i) (D : Fin n → ℕ)
    (hf : ∀ i, PolyAlong i (D i) f)
    (hpos : ∀ d, ∀ N : Fin n → ℕ, (∀ i, 1 ≤ N i) → D d ≤ N d → ∃ j ∈ gridIdx N, f (gridPt N a b j) ≠ 0)
    (fuel : ℕ) (hfuel : ∀ i, D i + 6 ≤ fuel) : ∃ r, chebApproximate fuel f a b rtol = .ok r := by
  unfold chebApproximate
  rw [if_neg (by push Not; exact hab)]
  have : ∃ s, getChebyshevDegrees f a b rtol 0 fuel = .ok s := by
    unfold getChebyshevDegrees
    apply foldlM_ok
    intro s d
    unfold degStep
    split
    · exact ⟨_, rfl⟩
    · obtain ⟨r, hr⟩ := loop_terminates f (fixedDegs s) a b d (D d + 1) (by omega) ((hf d).mono (by omega)) rtol hr
        (fun N h1 h2 => hpos d N h1 (by omega)) fuel (by have := hfuel d; omega)
      rw [hr]
      exact ⟨_, rfl⟩
  obtain ⟨s, hs⟩ := this
  rw [hs]
  exact ⟨_, rfl⟩

/-! ### No termination when `f` vanishes on all grids -/

theorem loop_diverges (d : Fin n) (rtol : ℝ) (P : (Fin n → ℕ) → Prop)
    (hP : ∀ N g, P N → P (bumpDegs (Function.update N d g)))
    (h0 : ∀ N g, P N → ∀ j ∈ gridIdx (bumpDegs (Function.update N d g)),
      f (gridPt (bumpDegs (Function.update N d g)) a b j) = 0) (fuel : ℕ) :
    ∀ (degs : Fin n → ℕ) (g : ℕ), P degs → degreeLoop f a b rtol 0 d fuel degs g = .error .outOfFuel := by
  induction fuel with
  | zero => intro degs g _; rfl
  | succ fuel ih =>
    intro degs g hdegs
    rw [degreeLoop]
    simp only
    have hsup : (intervalApproximate f (Function.update degs d g) a b).supNorm = 0 :=
      le_antisymm (supNorm_le _ _ _ _ le_rfl fun j hj => by rw [h0 degs g hdegs j hj, abs_zero]) (supNorm_nonneg _ _ _ _)
    have hs : startedConverging ((intervalApproximate f (Function.update degs d g) a b).coeffs.shape d)
        (coeffChunk (intervalApproximate f (Function.update degs d g) a b).coeffs d)
        (0 + (intervalApproximate f (Function.update degs d g) a b).supNorm * rtol) = false := by
      rw [Bool.eq_false_iff, ne_eq]
      unfold startedConverging
      rw [test_iff, hsup]
      intro hall
      have hsh : (intervalApproximate f (Function.update degs d g) a b).coeffs.shape d = g + 1 := by
        change (Function.update degs d g) d + 1 = _
        simp
      have := hall g (by rw [hsh]; omega) (by rw [hsh]; omega)
      have hnn : 0 ≤ coeffChunk (intervalApproximate f (Function.update degs d g) a b).coeffs d g := by
        unfold coeffChunk
        apply div_nonneg (sum_nonneg fun _ _ => abs_nonneg _)
        exact prod_nonneg fun i _ => Nat.cast_nonneg _
      linarith
    rw [hs]
    exact ih _ _ (hP degs g hdegs)

end YRoots
