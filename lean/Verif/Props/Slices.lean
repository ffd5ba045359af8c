import Verif.Model.Slices
import Verif.Props.MonMult
import Verif.Proofs.PolyClean
import Verif.Proofs.Subdivide

/-!
# C114, C115: corners of arrays and the list of variables

C114: an array written into the top corner of an array of zeros is the same polynomial; written into the bottom corner it is the
product with a monomial (power basis).  C115: `get_var_list` gives the unit vectors, and the linear coefficients are found with it.
-/

namespace YRoots.Legacy

variable {n : ℕ} {K : Type*}

/-! ### Helper lemmas -/

theorem sliceTop_first (s : Fin n → ℕ) (d : Fin n) (N : ℕ) : (sliceTop s d).first N = 0 := by
  simp [sliceTop, PySlice.first, clipBound]

theorem sliceTop_len (s : Fin n → ℕ) (d : Fin n) (N : ℕ) : (sliceTop s d).len N = min (s d) N := by
  have h : ¬ (s d : ℤ) < 0 := by omega
  rw [PySlice.len, sliceTop_first]
  simp [sliceTop, PySlice.last, clipBound, h]

theorem sliceBottom_first (M : Tensor n K) (d : Fin n) (N : ℕ) :
    (sliceBottom M d).first N = if M.shape d = 0 then 0 else N - M.shape d := by
  by_cases h : M.shape d = 0
  · simp [sliceBottom, PySlice.first, clipBound, h]
  · have h' : -(M.shape d : ℤ) < 0 := by omega
    simp only [sliceBottom, PySlice.first, clipBound, h', h, if_true, if_false]
    omega

theorem sliceBottom_len (M : Tensor n K) (d : Fin n) (N : ℕ) :
    (sliceBottom M d).len N = if M.shape d = 0 then N else min (M.shape d) N := by
  rw [PySlice.len, sliceBottom_first]
  simp only [sliceBottom, PySlice.last]
  split_ifs <;> omega

/-! ### C114 -/

section C114

variable [Field K] [LinearOrder K] [IsStrictOrderedRing K]

/-- **C114 (top corner).**  In an array at least as large in every direction, `result[slice_top(M.shape)] = M` succeeds and gives an array
of the given shape with the same polynomial, in both bases. -/
theorem C114_top (M : Tensor n K) (s : Fin n → ℕ) (h : ∀ d, M.shape d ≤ s d) :
    ∃ R, assignSlices (zerosOf s) (sliceTop M.shape) M = .ok R ∧ R.shape = s ∧ (∀ k ∈ M.idx, R.coef k = M.coef k) ∧
      (∀ x, R.eval x = M.eval x) ∧ ∀ x, R.evalPow x = M.evalPow x := by
  have hl : ∀ d, (sliceTop M.shape d).len (s d) = M.shape d := fun d => by rw [sliceTop_len, min_eq_left (h d)]
  have hl' : ∀ d, M.shape d = (sliceTop M.shape d).len ((zerosOf (K := K) s).shape d) ∨ M.shape d = 1 :=
    fun d => Or.inl (hl d).symm
  unfold assignSlices
  rw [if_pos hl']
  refine ⟨_, rfl, rfl, ?_⟩
  simp only [zerosOf, hl, sliceTop_first, zero_le, true_and, zero_add, Nat.sub_zero]
  have hc : ∀ k : Fin n → ℕ, (if ∀ d, k d < M.shape d then M.coef fun d => if M.shape d = 1 then 0 else k d else 0)
      = (padTo M s).coef k := by
    intro k
    simp only [padTo]
    by_cases hk : ∀ d, k d < M.shape d
    · rw [if_pos hk, if_pos hk]
      congr 1
      funext d
      split_ifs with h1
      · have := hk d; omega
      · rfl
    · rw [if_neg hk, if_neg hk]
  simp only [hc]
  have hev := fun w => padTo_evalG M s h w
  refine ⟨fun k hk => ?_, fun x => ?_, fun x => ?_⟩
  · simp only [padTo]
    rw [if_pos]
    simpa [Tensor.idx] using hk
  · rw [eval_eq_evalG, eval_eq_evalG, ← hev]; rfl
  · rw [evalPow_eq_evalG, evalPow_eq_evalG, ← hev]; rfl

omit [LinearOrder K] [IsStrictOrderedRing K] in
/-- **C114 (top corner, failure).**  The assignment raises `ValueError` exactly if some axis of `M` is too long (and not of length 1). -/
theorem C114_top_error (M : Tensor n K) (s : Fin n → ℕ) :
    assignSlices (zerosOf s) (sliceTop M.shape) M = .error .valueError ↔ ∃ d, s d < M.shape d ∧ M.shape d ≠ 1 := by
  unfold assignSlices
  simp only [zerosOf, sliceTop_len]
  constructor
  · intro h
    by_contra hc
    rw [if_pos] at h
    · cases h
    · intro d
      by_contra hd
      exact hc ⟨d, by omega, by omega⟩
  · rintro ⟨d, h1, h2⟩
    rw [if_neg]
    intro h
    have := h d
    omega

omit [LinearOrder K] [IsStrictOrderedRing K] in
/-- **C114 (bottom corner).**  For an array without empty axis, `result[slice_bottom(M)] = M` in an array enlarged by `mon` succeeds; in the
power basis the polynomial is multiplied by the monomial with the exponents `mon`. -/
theorem C114_bottom_partial (M : Tensor n K) (mon : Fin n → ℕ) (h0 : ∀ d, 0 < M.shape d) :
    ∃ R, assignSlices (zerosOf fun d => M.shape d + mon d) (sliceBottom M) M = .ok R ∧
      (R.shape = fun d => M.shape d + mon d) ∧ (∀ k ∈ M.idx, R.coef (fun d => k d + mon d) = M.coef k) ∧
      ∀ x, R.evalPow x = M.evalPow x * ∏ d, x d ^ mon d := by
  have hl : ∀ d, (sliceBottom M d).len (M.shape d + mon d) = M.shape d := fun d => by
    rw [sliceBottom_len, if_neg (h0 d).ne']; omega
  have hf : ∀ d, (sliceBottom M d).first (M.shape d + mon d) = mon d := fun d => by
    rw [sliceBottom_first, if_neg (h0 d).ne']; omega
  have hl' : ∀ d, M.shape d = (sliceBottom M d).len ((zerosOf (K := K) fun d => M.shape d + mon d).shape d) ∨ M.shape d = 1 :=
    fun d => Or.inl (hl d).symm
  unfold assignSlices
  rw [if_pos hl']
  refine ⟨_, rfl, rfl, ?_⟩
  simp only [zerosOf, hl, hf]
  have hc : ∀ k : Fin n → ℕ, (∀ d, k d < M.shape d + mon d) →
      (if ∀ d, mon d ≤ k d ∧ k d < mon d + M.shape d then M.coef fun d => if M.shape d = 1 then 0 else k d - mon d else 0)
      = if ∀ d, mon d ≤ k d then M.coef fun d => k d - mon d else 0 := by
    intro k hk
    by_cases hm : ∀ d, mon d ≤ k d
    · rw [if_pos hm, if_pos fun d => ⟨hm d, by have := hk d; omega⟩]
      congr 1
      funext d
      split_ifs with h1
      · have := hk d; omega
      · rfl
    · rw [if_neg hm, if_neg fun h => hm fun d => (h d).1]
  refine ⟨fun k hk => ?_, fun x => ?_⟩
  · have hk' : ∀ d, k d < M.shape d := by simpa [Tensor.idx] using hk
    rw [hc _ fun d => by have := hk' d; omega, if_pos fun d => by omega]
    simp
  · unfold Tensor.evalPow
    rw [Finset.sum_mul]
    symm
    refine Finset.sum_of_injOn (fun k d => k d + mon d) ?_ ?_ ?_ ?_
    · intro a _ b _ hab
      funext d
      have := congrFun hab d
      simp only at this
      omega
    · intro k hk
      have hk' : ∀ d, k d < M.shape d := by simpa [Tensor.idx] using hk
      simp only [Tensor.idx, Finset.mem_coe, Fintype.mem_piFinset, Finset.mem_range]
      intro d
      have := hk' d
      omega
    · intro k hk hn
      simp only [Tensor.idx, Fintype.mem_piFinset, Finset.mem_range] at hk
      simp only
      rw [hc k hk, if_neg, zero_mul]
      intro hm
      apply hn
      refine ⟨fun d => k d - mon d, ?_, ?_⟩
      · simp only [Tensor.idx, Finset.mem_coe, Fintype.mem_piFinset, Finset.mem_range]
        intro d
        have := hk d
        have := hm d
        have := h0 d
        omega
      · funext d
        have := hm d
        simp only
        omega
    · intro k hk
      have hk' : ∀ d, k d < M.shape d := by simpa [Tensor.idx] using hk
      simp only
      rw [hc (fun d => k d + mon d) fun d => by have := hk' d; omega, if_pos fun d => by omega]
      simp only [Nat.add_sub_cancel, pow_add, Finset.prod_mul_distrib]
      ring

/-- **C114 is false for the bottom corner of an array with an empty axis**: `slice(-0, None)` is the whole axis, so the assignment to an
enlarged array raises `ValueError`; with `slice_top` it does not. -/
theorem C114_bottom_empty_false (M : Tensor n K) (mon : Fin n → ℕ) (d : Fin n) (h0 : M.shape d = 0) (hm : 0 < mon d) :
    assignSlices (zerosOf fun d => M.shape d + mon d) (sliceBottom M) M = .error .valueError ∧
    ∃ R, assignSlices (zerosOf fun d => M.shape d + mon d) (sliceTop M.shape) M = .ok R := by
  refine ⟨?_, ?_⟩
  · unfold assignSlices
    rw [if_neg]
    intro h
    have := h d
    rw [zerosOf, sliceBottom_len, if_pos h0] at this
    simp only at this
    omega
  · obtain ⟨R, h, -⟩ := C114_top M (fun d => M.shape d + mon d) fun d => Nat.le_add_right _ _
    exact ⟨R, h⟩

/-- `1 + 2x` in an array of shape `2 × 1`, written into the bottom corner of one of shape `3 × 3`: multiplied by `x y²`. -/
example : ∃ R, assignSlices (zerosOf fun d => (![2, 1] : Fin 2 → ℕ) d + ![1, 2] d)
      (sliceBottom (⟨![2, 1], fun k => k 0 + 1⟩ : Tensor 2 ℚ)) (⟨![2, 1], fun k => k 0 + 1⟩ : Tensor 2 ℚ) = .ok R ∧ R.coef ![2, 2] = 2 := by
  obtain ⟨R, h, -, hc, -⟩ := C114_bottom_partial (⟨![2, 1], fun k => k 0 + 1⟩ : Tensor 2 ℚ) ![1, 2] (by decide)
  refine ⟨R, h, ?_⟩
  have := hc ![1, 0] (by decide)
  rw [show (fun d => (![1, 0] : Fin 2 → ℕ) d + ![1, 2] d) = ![2, 2] by decide] at this
  rw [this]
  norm_num

/-- The top corner with the same array; a smaller array is refused. -/
example : (∃ R, assignSlices (zerosOf ![3, 3]) (sliceTop ![2, 1]) (⟨![2, 1], fun k => k 0 + 1⟩ : Tensor 2 ℚ) = .ok R) ∧
    assignSlices (zerosOf ![1, 3]) (sliceTop ![2, 1]) (⟨![2, 1], fun k => k 0 + 1⟩ : Tensor 2 ℚ) = .error .valueError := by
  constructor
  · obtain ⟨R, h, -⟩ := C114_top (⟨![2, 1], fun k => k 0 + 1⟩ : Tensor 2 ℚ) ![3, 3] (by decide)
    exact ⟨R, h⟩
  · exact (C114_top_error (⟨![2, 1], fun k => k 0 + 1⟩ : Tensor 2 ℚ) ![1, 3]).2 ⟨0, by decide, by decide⟩

/-- An array without entries. -/
example : assignSlices (zerosOf fun d => (![0] : Fin 1 → ℕ) d + ![2] d) (sliceBottom (⟨![0], fun _ => 0⟩ : Tensor 1 ℚ))
    (⟨![0], fun _ => 0⟩ : Tensor 1 ℚ) = .error .valueError :=
  (C114_bottom_empty_false (⟨![0], fun _ => 0⟩ : Tensor 1 ℚ) ![2] 0 rfl (by decide)).1

end C114

/-! ### C115 -/

theorem varLoop (dim : ℕ) : ∀ j ≤ dim, (List.range j).foldl
    (fun s i => (s.1 ++ [s.2.set i 1], (s.2.set i 1).set i 0)) (([] : List (List ℕ)), List.replicate dim 0)
      = ((List.range j).map fun i => (List.replicate dim 0).set i 1, List.replicate dim 0)
  | 0, _ => rfl
  | j + 1, h => by
    rw [List.range_succ, List.foldl_append, varLoop dim j (by omega)]
    simp only [List.foldl_cons, List.foldl_nil, List.map_append, List.map_cons, List.map_nil, List.set_set]
    congr 1
    apply List.ext_getElem (by simp)
    intro i h1 h2
    simp

/-- **C115.**  `get_var_list(dim)` has `dim` entries; entry `i` is the tuple of length `dim` with 1 at position `i` and 0 elsewhere. -/
theorem C115_varList (dim : ℕ) : (getVarList dim).length = dim ∧ ∀ i < dim, ∀ v, (getVarList dim)[i]? = some v →
    v.length = dim ∧ ∀ j, v.getD j 0 = if j = i then 1 else 0 := by
  unfold getVarList
  rw [varLoop dim dim le_rfl]
  refine ⟨by simp, fun i hi v hv => ?_⟩
  simp only [List.getElem?_map, List.getElem?_range hi, Option.map_some, Option.some.injEq] at hv
  subst hv
  refine ⟨by simp, fun j => ?_⟩
  rw [List.getD_eq_getElem?_getD, List.getElem?_set]
  by_cases h : i = j
  · subst h; simp [hi]
  · simp only [h, if_false, Ne.symm h, List.getElem?_replicate]
    split <;> rfl

theorem varList_getD {dim i : ℕ} (hi : i < dim) (j : ℕ) : ((getVarList dim).getD i []).getD j 0 = if j = i then 1 else 0 := by
  obtain ⟨h1, h2⟩ := C115_varList dim
  have hg : (getVarList dim)[i]? = some ((getVarList dim)[i]'(by omega)) := List.getElem?_eq_getElem _
  have he : (getVarList dim).getD i [] = (getVarList dim)[i]'(by omega) := by
    rw [List.getD_eq_getElem?_getD, hg, Option.getD_some]
  rw [he]
  exact (h2 i hi _ hg).2 j

/-- **C115.**  `coeff[tuple(get_var_list(dim))]` is the list of the coefficients of the linear terms, in the order of the variables,
if every axis has at least two entries. -/
theorem C115_linear (M : Tensor (n + 1) K) (h : ∀ d, 1 < M.shape d) :
    fancyIndex M (getVarList (n + 1)) = .ok (List.ofFn fun i : Fin (n + 1) => M.coef (Pi.single i 1)) ∧
    ∀ i : Fin (n + 1), tupleIndex M ((getVarList (n + 1)).getD i []) = .ok (M.coef (Pi.single i 1)) := by
  have hidx : ∀ i d : Fin (n + 1), (if (i : ℕ) = d then 1 else 0) = (Pi.single i 1 : Fin (n + 1) → ℕ) d := by
    intro i d
    rw [Pi.single_apply]
    simp only [Fin.ext_iff, eq_comm]
  refine ⟨?_, fun i => ?_⟩
  · have hlen : ((getVarList (n + 1)).headD []).length = n + 1 := by
      obtain ⟨h1, h2⟩ := C115_varList (n + 1)
      cases hv : getVarList (n + 1) with
      | nil => rw [hv] at h1; simp at h1
      | cons v l => exact (h2 0 (by omega) v (by rw [hv]; rfl)).1
    unfold fancyIndex
    rw [hlen, mapM_ok _ (fun r => M.coef fun d : Fin (n + 1) => if r = (d : ℕ) then 1 else 0)]
    · congr 1
      apply List.ext_getElem (by simp)
      intro i h1 h2
      simp only [List.getElem_map, List.getElem_range, List.getElem_ofFn]
      congr 1
      funext d
      exact hidx ⟨i, by simpa using h1⟩ d
    · intro r _
      simp only [varList_getD (Fin.is_lt _)]
      rw [if_pos]
      intro d
      have := h d
      split <;> omega
  · unfold tupleIndex
    simp only [varList_getD i.2]
    rw [if_pos]
    · congr 2
      funext d
      rw [← hidx i d]
      simp only [eq_comm]
    · intro d
      have := h d
      split <;> omega

/-- **C115.**  If an axis has one entry only (the polynomial does not contain that variable), `IndexError` is raised. -/
theorem C115_linear_short_false (M : Tensor (n + 1) K) (d : Fin (n + 1)) (h : M.shape d ≤ 1) :
    fancyIndex M (getVarList (n + 1)) = .error .indexError := by
  have hlen : ((getVarList (n + 1)).headD []).length = n + 1 := by
    obtain ⟨h1, h2⟩ := C115_varList (n + 1)
    cases hv : getVarList (n + 1) with
    | nil => rw [hv] at h1; simp at h1
    | cons v l => exact (h2 0 (by omega) v (by rw [hv]; rfl)).1
  have key : ∀ (f : ℕ → Except Exc K) (l : List ℕ), (∀ r ∈ l, ∀ e, f r = .error e → e = .indexError) →
      (∃ r ∈ l, f r = .error .indexError) → l.mapM f = .error .indexError := by
    intro f l
    induction l with
    | nil => rintro - ⟨r, hr, -⟩; simp at hr
    | cons a l ih =>
      intro h1 h2
      rw [List.mapM_cons]
      cases hf : f a with
      | error e => rw [h1 a List.mem_cons_self e hf]; rfl
      | ok b =>
        rw [ih (fun r hr => h1 r (List.mem_cons_of_mem _ hr))]
        · rfl
        · obtain ⟨r, hr, h3⟩ := h2
          rcases List.mem_cons.1 hr with rfl | hr
          · rw [hf] at h3; cases h3
          · exact ⟨r, hr, h3⟩
  unfold fancyIndex
  rw [hlen]
  refine key _ _ (fun r _ e he => ?_) ⟨d, List.mem_range.2 d.2, ?_⟩
  · split at he
    · cases he
    · cases he; rfl
  · simp only [varList_getD (Fin.is_lt _)]
    rw [if_neg]
    intro hc
    have := hc d
    simp at this
    omega

/-- `get_var_list(3)`. -/
example : getVarList 3 = [[1, 0, 0], [0, 1, 0], [0, 0, 1]] := by decide

/-- The linear coefficients of `5 x + 7 y + ...`; a polynomial without `y` (shape `2 × 1`). -/
example : fancyIndex (⟨fun _ => 2, fun k => 5 * k 0 + 7 * k 1⟩ : Tensor 2 ℕ) (getVarList 2) = .ok [5, 7] ∧
    fancyIndex (⟨![2, 1], fun k => k 0 + 1⟩ : Tensor 2 ℕ) (getVarList 2) = .error .indexError :=
  ⟨(C115_linear _ fun _ => by simp).1, C115_linear_short_false _ 1 (by decide)⟩

end YRoots.Legacy
