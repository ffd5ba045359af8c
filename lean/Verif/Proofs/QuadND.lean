import Verif.Proofs.Quad2D3D

/-!
# Helper lemmas: the n-D quadratic check
-/

set_option linter.unusedSectionVars false
set_option linter.unusedVariables false
set_option linter.unusedSimpArgs false

namespace YRoots

open Finset

variable {n : ℕ} {K : Type*} [Field K] [LinearOrder K]

/-- The external linear algebra is exact for the principal submatrices on `S`: the rank test succeeds exactly for
nonsingular matrices and `solve` solves nonsingular systems. -/
structure LinAlg.ExactOn (la : LinAlg n K) (S : Finset (Fin n)) : Prop where
  rank : ∀ A : Matrix (Fin n) (Fin n) K, la.fullRank S A = true ↔
    (A.submatrix (Subtype.val : S → Fin n) (Subtype.val : S → Fin n)).det ≠ 0
  solve : ∀ (A : Matrix (Fin n) (Fin n) K) (b : Fin n → K),
    (A.submatrix (Subtype.val : S → Fin n) (Subtype.val : S → Fin n)).det ≠ 0 →
      ∀ i ∈ S, ∑ j ∈ S, A i j * la.solve S A b j = b i

variable [IsStrictOrderedRing K]

theorem NonsingOn.det {A : Matrix (Fin n) (Fin n) K} {S : Finset (Fin n)} (h : NonsingOn A S) :
    (A.submatrix (Subtype.val : S → Fin n) (Subtype.val : S → Fin n)).det ≠ 0 := by
  classical
  intro h0
  obtain ⟨v, hv, hz⟩ := Matrix.exists_mulVec_eq_zero_iff.2 h0
  apply hv
  let w : Fin n → K := fun i => if hi : i ∈ S then v ⟨i, hi⟩ else 0
  have hw : ∀ i : S, w i = v i := fun i => by simp [w]
  have := h w (fun i hi => by simp [w, hi]) (fun i hi => by
    have e := congrFun hz ⟨i, hi⟩
    simp only [Matrix.mulVec, dotProduct, Matrix.submatrix_apply, Pi.zero_apply] at e
    rw [← e, ← sum_subset (subset_univ S), ← sum_coe_sort S]
    · exact sum_congr rfl fun j _ => by rw [hw]
    · intro j _ hj; simp [w, hj])
  funext i
  rw [← hw, this]; rfl

theorem mem_combinations {α : Type*} {l l' : List α} (h : l'.Sublist l) : l' ∈ combinations l l'.length := by
  induction h with
  | slnil => simp [combinations]
  | @cons l' l a h ih =>
    cases l' with
    | nil => simp [combinations]
    | cons b l' =>
      rw [List.length_cons, combinations]
      exact List.mem_append_right _ ih
  | @cons_cons l' l a h ih =>
    rw [List.length_cons, combinations]
    exact List.mem_append_left _ (List.mem_map_of_mem ih)

theorem mem_sides {l : List (Fin n)} {x : Fin n → K} (hl : l.Nodup) (h1 : ∀ i ∈ l, x i = -1 ∨ x i = 1)
    (h2 : ∀ i, i ∉ l → x i = 0) : x ∈ sides l := by
  induction l generalizing x with
  | nil =>
    rw [sides, List.mem_singleton]
    funext i; exact h2 i (by simp)
  | cons a l ih =>
    rw [List.nodup_cons] at hl
    rw [sides, List.mem_flatMap]
    refine ⟨x a, by rcases h1 a (by simp) with h | h <;> simp [h], List.mem_map.2 ⟨Function.update x a 0, ?_, ?_⟩⟩
    · refine ih hl.2 (fun i hi => ?_) (fun i hi => ?_)
      · rw [Function.update_of_ne (by rintro rfl; exact hl.1 hi)]
        exact h1 i (by simp [hi])
      · by_cases hia : i = a
        · subst hia; simp
        · rw [Function.update_of_ne hia]; exact h2 i (by simp [hi, hia])
    · rw [Function.update_idem]; exact Function.update_eq_self a x

theorem signChange_false {l : List K} (h : (∀ a ∈ l, 0 ≤ a) ∨ ∀ a ∈ l, a ≤ 0) : signChange l = false := by
  induction l with
  | nil => rfl
  | cons a l ih =>
    cases l with
    | nil => rfl
    | cons b l =>
      rw [signChange, Bool.or_eq_false_iff]
      refine ⟨decide_eq_false (not_lt.2 ?_), ih ?_⟩
      · rcases h with h | h
        · exact mul_nonneg (h a (by simp)) (h b (by simp))
        · exact mul_nonneg_of_nonpos_of_nonpos (h a (by simp)) (h b (by simp))
      · rcases h with h | h
        · exact .inl fun c hc => h c (List.mem_cons_of_mem _ hc)
        · exact .inr fun c hc => h c (List.mem_cons_of_mem _ hc)

theorem foldl_add_eq_sum (f : Fin n → K) (a : K) : (List.finRange n).foldl (fun s i => s + f i) a = a + ∑ i, f i := by
  have : ∀ (l : List (Fin n)) (a : K), l.foldl (fun s i => s + f i) a = a + (l.map f).sum := by
    intro l
    induction l with
    | nil => simp
    | cons b l ih => intro a; simp [ih, add_assoc]
  rw [this, Fin.sum_univ_def]

theorem evalFuncND_eq (M : Tensor n K) (x : Fin n → K) : evalFuncND M x = evalQ M x := by
  unfold evalFuncND
  rw [foldl_add_eq_sum, evalQ_eq_qf]
  unfold qf
  rw [sum_symm_split _ (quadA_symm M), add_assoc, ← sum_div_helper]
where
  sum_div_helper : ∑ i, (quadB M i + pureQuad M i * 2 * x i + ∑ j ∈ univ.filter (i < ·), quadA M i j * x j) * x i
      = ∑ i, quadB M i * x i + (∑ i, quadA M i i * x i ^ 2
        + 2 * ∑ i, ∑ j ∈ univ.filter (i < ·), quadA M i j * (x i * x j)) / 2 := by
    rw [add_div, sum_div, mul_div_cancel_left₀ _ (two_ne_zero), ← sum_add_distrib, ← sum_add_distrib]
    refine sum_congr rfl fun i _ => ?_
    rw [add_mul, sum_mul, add_mul, quadA_diag]
    rw [← add_assoc]
    congr 1
    · ring
    · exact sum_congr rfl fun j _ => by ring

theorem otherSumND_eq (M : Tensor n K) (tol : K) : otherSumND M tol = restAbs M + tol := by
  unfold otherSumND restAbs
  congr 1
  rw [sum_filter, ← sum_subset (idx_subset_pad3 M)]
  · refine sum_congr rfl fun k hk => ?_
    rw [pad3_coef, if_pos hk]
    split_ifs <;> simp_all
  · intro k _ hk
    rw [pad3_coef, if_neg hk]
    simp

theorem pointsFixed_mem (la : LinAlg n K) (M : Tensor n K) (c : Fin n → K) (hc : InCube c)
    (hla : la.ExactOn (free c))
    (hg : ∀ i ∈ free c, grad (quadA M) (quadB M) c i = 0) (hns : NonsingOn (quadA M) (free c))
    (hdiag : (∀ i ∈ free c, 0 ≤ quadA M i i) ∨ ∀ i ∈ free c, quadA M i i ≤ 0) :
    c ∈ pointsFixed la M ((List.finRange n).filter (· ∉ free c)) := by
  set fixed := (List.finRange n).filter (· ∉ free c) with hfixed
  have hmf : ∀ i, i ∈ fixed ↔ i ∉ free c := fun i => by simp [hfixed]
  have hun : (List.finRange n).filter (· ∉ fixed) = (List.finRange n).filter (· ∈ free c) := by
    apply List.filter_congr
    intro i _
    simp [hmf]
  have huf : ((List.finRange n).filter (· ∈ free c)).toFinset = free c := by ext i; simp
  have hff : fixed.toFinset = univ \ free c := by ext i; simp [hmf]
  unfold pointsFixed
  dsimp only
  rw [hun, huf, signChange_false]
  · rw [if_neg (by simp), if_pos ((hla.rank _).2 hns.det), List.mem_flatMap]
    refine ⟨fun i => if i ∈ fixed then c i else 0, mem_sides ?_ (fun i hi => ?_) (fun i hi => if_neg hi), ?_⟩
    · exact (List.nodup_finRange n).filter _
    · rw [if_pos hi]; exact boundary_of_not_free hc ((hmf i).1 hi)
    · have hsol := hla.solve (quadA M) (fun i => -quadB M i - ∑ j ∈ fixed.toFinset,
        quadA M i j * (if j ∈ fixed then c j else 0)) hns.det
      set X := la.solve (free c) (quadA M) (fun i => -quadB M i - ∑ j ∈ fixed.toFinset,
        quadA M i j * (if j ∈ fixed then c j else 0))
      have hX : ∀ i ∈ free c, X i = c i := by
        have hz := hns (fun i => if i ∈ free c then X i - c i else 0) (fun i hi => if_neg hi) (fun i hi => by
          have e1 := hsol i hi
          have e2 := hg i hi
          have e3 : ∑ j, quadA M i j * (if j ∈ free c then X j - c j else 0)
              = ∑ j ∈ free c, quadA M i j * X j - ∑ j ∈ free c, quadA M i j * c j := by
            rw [← sum_sub_distrib, ← sum_subset (subset_univ (free c))]
            · exact sum_congr rfl fun j hj => by rw [if_pos hj]; ring
            · intro j _ hj; rw [if_neg hj, mul_zero]
          have e4 : ∑ j ∈ fixed.toFinset, quadA M i j * (if j ∈ fixed then c j else 0)
              = ∑ j ∈ univ \ free c, quadA M i j * c j := by
            rw [hff]
            refine sum_congr rfl fun j hj => ?_
            rw [mem_sdiff] at hj
            rw [if_pos ((hmf j).2 hj.2)]
          have e5 := sum_sdiff (f := fun j => quadA M i j * c j) (subset_univ (free c))
          unfold grad at e2
          rw [e4] at e1
          rw [e3]
          linear_combination e1 - e2 - e5)
        intro i hi
        have := hz i
        rw [if_pos hi] at this
        linear_combination this
      refine mem_guard (fun i hi => ?_) ?_
      · have hi' : i ∈ free c := by simpa using hi
        rw [hX i hi']
        exact abs_le.1 (hc i)
      · funext i
        by_cases hi : i ∈ fixed
        · simp [hi]
        · have hi' : i ∈ free c := by by_contra h; exact hi ((hmf i).2 h)
          simp only [if_neg hi]
          exact (hX i hi').symm
  · have hp : ∀ i, quadA M i i = 4 * pureQuad M i := quadA_diag M
    rcases hdiag with h | h
    · left
      intro a ha
      rw [List.mem_map] at ha
      obtain ⟨i, hi, rfl⟩ := ha
      have := h i (by simpa using hi)
      split_ifs
      · rw [hp] at this; linarith
      · exact this
    · right
      intro a ha
      rw [List.mem_map] at ha
      obtain ⟨i, hi, rfl⟩ := ha
      have := h i (by simpa using hi)
      split_ifs
      · rw [hp] at this; linarith
      · exact this

theorem pointsND_complete (la : LinAlg n K) (M : Tensor n K) (c : Fin n → K) (hc : InCube c)
    (hla : (free c).Nonempty → la.ExactOn (free c))
    (hg : ∀ i ∈ free c, grad (quadA M) (quadB M) c i = 0) (hns : NonsingOn (quadA M) (free c))
    (hdiag : (∀ i ∈ free c, 0 ≤ quadA M i i) ∨ ∀ i ∈ free c, quadA M i i ≤ 0) :
    c ∈ sides (List.finRange n) ++ (getFixedVars n).flatMap (pointsFixed la M) ++ pointsFixed la M [] := by
  rw [List.mem_append, List.mem_append]
  rcases (free c).eq_empty_or_nonempty with hE | hE
  · left; left
    refine mem_sides (List.nodup_finRange n) (fun i _ => boundary_of_not_free hc (by simp [hE])) (fun i hi => ?_)
    exact absurd (List.mem_finRange i) hi
  have h := pointsFixed_mem la M c hc (hla hE) hg hns hdiag
  by_cases hU : free c = univ
  · right
    have e : (List.finRange n).filter (· ∉ free c) = [] := by rw [hU]; simp
    rwa [e] at h
  · left; right
    rw [List.mem_flatMap]
    refine ⟨_, ?_, h⟩
    have hlen : ((List.finRange n).filter (· ∉ free c)).length = n - (free c).card := by
      rw [← List.toFinset_card_of_nodup ((List.nodup_finRange n).filter _)]
      have : ((List.finRange n).filter (· ∉ free c)).toFinset = univ \ free c := by ext i; simp
      rw [this, card_sdiff_of_subset (subset_univ _), card_univ, Fintype.card_fin]
    have h1 : 0 < (free c).card := card_pos.2 hE
    have h2 : (free c).card < n := by
      have := card_lt_card (Finset.ssubset_univ_iff.2 hU)
      rwa [card_univ, Fintype.card_fin] at this
    unfold getFixedVars
    rw [List.mem_flatMap]
    refine ⟨((List.finRange n).filter (· ∉ free c)).length, ?_, mem_combinations List.filter_sublist⟩
    rw [List.mem_map]
    refine ⟨n - (free c).card - 1, ?_, by rw [hlen]; omega⟩
    rw [List.mem_reverse, List.mem_range]
    omega

end YRoots
