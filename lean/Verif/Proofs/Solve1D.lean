import Verif.Model.Solve1D
import Verif.Props.MMaker
import Verif.Props.BlockCopy
import Verif.Props.OneDim

/-!
# Lemmas for C75: the one-dimensional subdivision solver
-/

namespace YRoots.Legacy

open Finset Polynomial

/-- `c₀ T₀ + c₁ T₁ + …` with real coefficients. -/
noncomputable def chebReal (c : List ℝ) : ℝ[X] := ∑ i ∈ range c.length, C (c.getD i 0) * Chebyshev.T ℝ (i : ℤ)

theorem chebPoly_eq_map (c : List ℝ) : OneD.chebPoly c = (chebReal c).map (algebraMap ℝ ℂ) := by
  unfold OneD.chebPoly chebReal
  rw [Polynomial.map_sum]
  refine Finset.sum_congr rfl fun i _ => ?_
  rw [Polynomial.map_mul, map_C, Chebyshev.map_T]
  rfl

theorem chebReal_eval (c : List ℝ) (x : ℝ) : (chebReal c).eval x = ∑ i ∈ range c.length, c.getD i 0 * chebT i x := by
  unfold chebReal
  rw [eval_finsetSum]
  refine Finset.sum_congr rfl fun i _ => ?_
  rw [eval_mul, eval_C]
  rfl

theorem chebReal_natDegree (c : List ℝ) : (chebReal c).natDegree ≤ c.length - 1 := by
  unfold chebReal
  refine natDegree_sum_le_of_forall_le _ _ fun i hi => ?_
  refine (natDegree_C_mul_le _ _).trans ?_
  have := mem_range.1 hi
  rw [Chebyshev.natDegree_T]
  simp only [Int.natAbs_natCast]
  omega

/-- The function as one of a vector of length one. -/
def asMaker (f : ℝ → ℝ) (a b : ℝ) : MakerFn 1 := ⟨fun x => f (x 0), fun _ => a, fun _ => b, false⟩

theorem approx1D_length (f : ℝ → ℝ) (a b : ℝ) (deg : ℕ) : (approx1D f a b deg).length = deg + 1 := by
  simp [approx1D]

theorem cos_mirror {deg j : ℕ} (hd : 1 ≤ deg) (hj : j < 2 * deg) :
    Real.cos (Real.pi * j / deg) = Real.cos ((mirror deg j : ℕ) * Real.pi / deg) := by
  have hd0 : (deg : ℝ) ≠ 0 := by positivity
  unfold mirror
  split_ifs with h
  · congr 1; ring
  · have e : (((2 * deg - j : ℕ) : ℝ)) * Real.pi / deg = 2 * Real.pi - Real.pi * j / deg := by
      rw [Nat.cast_sub hj.le]
      push_cast
      field_simp
    rw [e, Real.cos_two_pi_sub]

theorem values1D_eq (f : ℝ → ℝ) (a b : ℝ) {deg j : ℕ} (hd : 1 ≤ deg) (hj : j < 2 * deg) :
    values1D f a b deg j = (gridValues (asMaker f a b) fun _ => deg).coef fun _ => mirror deg j := by
  unfold values1D
  rw [cos_mirror hd hj]
  rfl

theorem approx1D_getD (f : ℝ → ℝ) (a b : ℝ) {deg : ℕ} (hd : 1 ≤ deg) {k : ℕ} (hk : k < deg + 1) :
    (approx1D f a b deg).getD k 0 = (interp (asMaker f a b) fun _ => deg).coef fun _ => k := by
  have hd' : ∀ i : Fin 1, 1 ≤ (fun _ : Fin 1 => deg) i := fun _ => hd
  rw [interp, ← fftCoeffs_eq (asMaker f a b) (fun _ => deg) hd' (gridValues (asMaker f a b) fun _ => deg) fun j _ => rfl]
  unfold fftCoeffs
  dsimp only
  rw [halveEdges_eq]
  have e1 : (approx1D f a b deg).getD k 0 = (fftn (fun _ : Fin 1 => 2 * deg) (fun j => values1D f a b deg (j 0) / deg) fun _ => k).re * wt deg k := by
    unfold approx1D
    dsimp only
    rw [List.getD_eq_getElem?_getD, List.getElem?_map, List.getElem?_range hk]
    simp only [Option.map_some, Option.getD_some]
    unfold wt
    split_ifs <;> ring
  rw [e1]
  simp only [Finset.univ_unique, Finset.prod_singleton]
  congr 2
  unfold fftn
  refine Finset.sum_congr rfl fun j hj => ?_
  rw [Fintype.mem_piFinset] at hj
  have hj' : ∀ i, j i < 2 * deg := fun i => mem_range.1 (hj i)
  congr 2
  beta_reduce
  rw [blockCopy_eq (fun _ => deg) _ j hj', values1D_eq f a b hd (hj' 0)]
  have e2 : (fun i : Fin 1 => mirror ((fun _ : Fin 1 => deg) i) (j i)) = fun _ => mirror deg (j 0) := by
    funext i
    rw [Subsingleton.elim i 0]
  rw [e2]

theorem sum_fin_one {N : ℕ} (g : (Fin 1 → ℕ) → ℝ) :
    ∑ k ∈ Fintype.piFinset (fun _ : Fin 1 => range N), g k = ∑ k ∈ range N, g fun _ => k := by
  refine Finset.sum_nbij' (fun k => k 0) (fun k _ => k) ?_ ?_ ?_ ?_ ?_
  · intro k hk
    exact (Fintype.mem_piFinset.1 hk) 0
  · intro k hk
    exact Fintype.mem_piFinset.2 fun _ => hk
  · intro k _
    funext i
    rw [Subsingleton.elim i 0]
  · intro k _
    rfl
  · intro k _
    congr 1
    funext i
    rw [Subsingleton.elim i 0]

theorem approx1D_eval (f : ℝ → ℝ) (a b : ℝ) {deg : ℕ} (hd : 1 ≤ deg) (x : ℝ) :
    (chebReal (approx1D f a b deg)).eval x = (interp (asMaker f a b) fun _ => deg).eval fun _ => x := by
  rw [chebReal_eval, approx1D_length]
  unfold Tensor.eval Tensor.idx
  rw [interp_shape]
  refine Eq.trans ?_ (sum_fin_one (N := deg + 1) _).symm
  refine Finset.sum_congr rfl fun k hk => ?_
  rw [approx1D_getD f a b hd (mem_range.1 hk)]
  simp

theorem sum_list_range (N : ℕ) (g : ℕ → ℝ) : ((List.range N).map g).sum = ∑ k ∈ range N, g k := rfl

theorem error1D_eq (f : ℝ → ℝ) (a b : ℝ) {deg : ℕ} (hd : 1 ≤ deg) :
    error1D (approx1D f a b deg) (approx1D f a b (deg * 2)) =
      getErr (interp (asMaker f a b) fun _ => deg) (interp (asMaker f a b) fun _ => 2 * deg) := by
  unfold error1D getErr Tensor.idx
  rw [interp_shape, interp_shape, approx1D_length, approx1D_length, sum_list_range]
  refine Eq.trans ?_ (sum_fin_one (N := 2 * deg + 1) _).symm
  rw [mul_comm deg 2]
  refine Finset.sum_congr rfl fun k hk => ?_
  rw [approx1D_getD f a b (by omega) (mem_range.1 hk)]
  by_cases h : k < deg + 1
  · rw [if_pos h, if_pos fun _ => h, approx1D_getD f a b hd h]
  · rw [if_neg h, if_neg fun h' => h (h' 0)]

/-- The largest value of `|f|` at the extrema of degree `deg`. -/
theorem infNorm1D_spec (f : ℝ → ℝ) (a b : ℝ) {deg : ℕ} (hd : 1 ≤ deg) :
    (∀ j ≤ deg, |f (transform1 (Real.cos (j * Real.pi / deg)) a b)| ≤ infNorm1D f a b deg) ∧
      ∃ j ≤ deg, infNorm1D f a b deg = |f (transform1 (Real.cos (j * Real.pi / deg)) a b)| := by
  obtain ⟨-, h2, h3⟩ := foldl_max_abs (List.range (2 * deg)) (values1D f a b deg) 0 le_rfl
  have hle : ∀ j ≤ deg, |f (transform1 (Real.cos (j * Real.pi / deg)) a b)| ≤ infNorm1D f a b deg := by
    intro j hj
    have := h2 j (List.mem_range.2 (by omega))
    unfold values1D at this
    rwa [cos_mirror hd (by omega), mirror, if_pos hj] at this
  refine ⟨hle, ?_⟩
  rcases h3 with h3 | ⟨j, hj, h3⟩
  · have h0 := hle 0 (Nat.zero_le _)
    have h0' : infNorm1D f a b deg = 0 := h3
    refine ⟨0, Nat.zero_le _, ?_⟩
    rw [h0'] at h0 ⊢
    exact (le_antisymm h0 (abs_nonneg _)).symm
  · have hj' := List.mem_range.1 hj
    refine ⟨mirror deg j, ?_, ?_⟩
    · unfold mirror; split_ifs <;> omega
    · rw [← cos_mirror hd hj']
      exact h3

/-- What the trimming keeps and what it drops. -/
theorem trimLoop1D_spec (allowed : ℝ) (l : List ℝ) (e : ℝ) (hl : l ≠ []) (he : e ≤ allowed) :
    ∃ d, l = d ++ (trimLoop1D allowed l e).1 ∧ (trimLoop1D allowed l e).2 = e + (d.map abs).sum ∧ (trimLoop1D allowed l e).1 ≠ [] ∧
      (trimLoop1D allowed l e).2 ≤ allowed ∧
      ((trimLoop1D allowed l e).1.length = 1 ∨ ∀ h, allowed ≤ (trimLoop1D allowed l e).2 + |(trimLoop1D allowed l e).1.head h|) := by
  induction l generalizing e with
  | nil => exact absurd rfl hl
  | cons c l ih =>
    rw [trimLoop1D.eq_def]
    by_cases h : e + |c| < allowed
    · cases l with
      | nil =>
        simp only [h, if_true]
        exact ⟨[], rfl, by simp, by simp, he, .inl rfl⟩
      | cons d l =>
        simp only [h, if_true]
        obtain ⟨D, h1, h2, h3, h4, h5⟩ := ih (e + |c|) (by simp) h.le
        refine ⟨c :: D, ?_, ?_, h3, h4, h5⟩
        · rw [List.cons_append, ← h1]
        · rw [h2]; simp [add_assoc]
    · simp only [h, if_false]
      exact ⟨[], rfl, by simp, by simp, he, .inr fun _ => not_lt.1 h⟩

/-- As soon as something is dropped the error is strictly below the bound. -/
theorem trimLoop1D_strict (allowed : ℝ) (l : List ℝ) (e : ℝ) : (trimLoop1D allowed l e).2 = e ∨ (trimLoop1D allowed l e).2 < allowed := by
  induction l generalizing e with
  | nil => exact .inl rfl
  | cons c l ih =>
    rw [trimLoop1D.eq_def]
    by_cases h : e + |c| < allowed
    · cases l with
      | nil => simp only [h, if_true]; exact .inl trivial
      | cons d l =>
        simp only [h, if_true]
        rcases ih (e + |c|) with h1 | h1
        · exact .inr (by rw [h1]; exact h)
        · exact .inr h1
    · simp only [h, if_false]
      exact .inl trivial

theorem chebReal_append (u v : List ℝ) (x : ℝ) (hx : |x| ≤ 1) :
    |(chebReal (u ++ v)).eval x - (chebReal u).eval x| ≤ (v.map abs).sum := by
  rw [chebReal_eval, chebReal_eval, List.length_append, Finset.sum_range_add]
  have h1 : ∑ i ∈ range u.length, (u ++ v).getD i 0 * chebT i x = ∑ i ∈ range u.length, u.getD i 0 * chebT i x := by
    refine Finset.sum_congr rfl fun i hi => ?_
    rw [List.getD_append _ _ _ _ (mem_range.1 hi)]
  rw [h1, add_sub_cancel_left]
  refine (Finset.abs_sum_le_sum_abs _ _).trans ?_
  have h2 : (v.map abs).sum = ∑ i ∈ range v.length, |v.getD i 0| := by
    rw [← sum_list_range]
    congr 1
    apply List.ext_getElem
    · simp
    · intro i h3 h4
      simp only [List.length_map] at h3
      simp [List.getElem?_eq_getElem h3]
  rw [h2]
  refine Finset.sum_le_sum fun i _ => ?_
  rw [List.getD_append_right _ _ _ _ (by simp), Nat.add_sub_cancel_left, abs_mul]
  exact mul_le_of_le_one_right (abs_nonneg _) (abs_chebT_le_one _ hx)

/-- Whenever `multCheb` returns, the finite values are the roots with multiplicity. -/
theorem multCheb_ok {E : OneD.Eigen} (hE : E.OK) (c : List ℝ) (hne : c ≠ []) (l : List (Option ℂ)) (h : OneD.multCheb E c true = .ok l) :
    ((l.filterMap id : List ℂ) : Multiset ℂ) = ((chebReal c).map (algebraMap ℝ ℂ)).roots := by
  rw [← chebPoly_eq_map]
  by_cases hc : c.getD (c.length - 1) 0 = 0
  · have hlen : 0 < c.length := List.length_pos_iff.2 hne
    unfold OneD.multCheb at h
    by_cases h1 : c.length ≤ 1
    · simp only [h1, if_true, Except.ok.injEq] at h
      rw [← h, OneD.const_roots (OneD.chebPoly c) (c.getD 0 0 : ℝ) (by rw [OneD.chebPoly, show c.length = 1 by omega]; simp)]
      rfl
    by_cases h2 : c.length - 1 = 1
    · simp only [h1, h2, if_true, if_false, Except.ok.injEq] at h
      rw [h2] at hc
      rw [← h, OneD.npDiv, if_pos (by rw [hc]; simp), OneD.const_roots (OneD.chebPoly c) (c.getD 0 0 : ℝ)]
      · rfl
      · rw [OneD.chebPoly, show c.length = 2 by omega, Finset.sum_range_succ, Finset.sum_range_one, hc]
        simp
    · simp only [h1, h2, hc, if_true, if_false] at h
      simp at h
  · obtain ⟨l', e, hl⟩ := OneD.multCheb_finds hE c true hne hc
    rw [e] at h
    simp only [Except.ok.injEq] at h
    subst h
    rw [← Multiset.filterMap_coe, hl, Multiset.filterMap_map]
    simp

/-! ### Polynomials -/

/-- The polynomial as one in a vector of length one. -/
noncomputable def asMv (P : ℝ[X]) : MvPolynomial (Fin 1) ℝ := ∑ i ∈ range (P.natDegree + 1), MvPolynomial.C (P.coeff i) * MvPolynomial.X 0 ^ i

theorem asMv_eval (P : ℝ[X]) (x : Fin 1 → ℝ) : MvPolynomial.eval x (asMv P) = P.eval (x 0) := by
  unfold asMv
  rw [map_sum, eval_eq_sum_range]
  simp

theorem asMv_degreeOf (P : ℝ[X]) (i : Fin 1) : (asMv P).degreeOf i ≤ P.natDegree := by
  unfold asMv
  refine (MvPolynomial.degreeOf_sum_le _ _ _).trans (Finset.sup_le fun k hk => ?_)
  refine (MvPolynomial.degreeOf_C_mul_le _ _ _).trans ?_
  rw [Subsingleton.elim i 0]
  refine (MvPolynomial.degreeOf_pow_le _ _ _).trans ?_
  rw [MvPolynomial.degreeOf_X_self, mul_one]
  have := mem_range.1 hk
  omega

theorem asMaker_poly (P : ℝ[X]) (a b : ℝ) : (asMaker (fun x => P.eval x) a b).f = fun x => MvPolynomial.eval x (asMv P) := by
  funext x
  rw [asMv_eval]
  rfl

/-- `P` moved from `[a, b]` to `[-1, 1]`. -/
noncomputable def moved (P : ℝ[X]) (a b : ℝ) : ℝ[X] := P.comp (C ((b - a) / 2) * X + C ((b + a) / 2))

theorem moved_eval (P : ℝ[X]) (a b x : ℝ) : (moved P a b).eval x = P.eval (transform1 x a b) := by
  unfold moved transform1
  rw [eval_comp]
  congr 1
  simp
  ring

theorem approx1D_poly (P : ℝ[X]) (a b : ℝ) {deg : ℕ} (hd : 1 ≤ deg) (hP : P.natDegree ≤ deg) :
    chebReal (approx1D (fun x => P.eval x) a b deg) = moved P a b := by
  refine Polynomial.funext fun x => ?_
  rw [approx1D_eval _ a b hd, moved_eval, interp, asMaker_poly, C36_exact (asMv P) _ fun i => (asMv_degreeOf P i).trans hP, asMv_eval]
  rfl

theorem error1D_poly (P : ℝ[X]) (a b : ℝ) {deg : ℕ} (hd : 1 ≤ deg) (hP : P.natDegree ≤ deg) :
    error1D (approx1D (fun x => P.eval x) a b deg) (approx1D (fun x => P.eval x) a b (deg * 2)) = 0 := by
  rw [error1D_eq _ a b hd]
  exact getErr_poly hd _ (asMv P) (fun i => (asMv_degreeOf P i).trans hP) (asMaker_poly P a b)

theorem chebReal_zeros (u : List ℝ) (m : ℕ) : chebReal (u ++ List.replicate m 0) = chebReal u := by
  unfold chebReal
  rw [List.length_append, Finset.sum_range_add]
  have h1 : ∑ i ∈ range (List.replicate m (0 : ℝ)).length, C ((u ++ List.replicate m 0).getD (u.length + i) 0) *
      Chebyshev.T ℝ ((u.length + i : ℕ) : ℤ) = 0 := by
    refine Finset.sum_eq_zero fun i hi => ?_
    rw [List.getD_append_right _ _ _ _ (by simp), Nat.add_sub_cancel_left]
    rw [List.getD_eq_getElem?_getD, List.getElem?_replicate]
    split_ifs <;> simp
  rw [h1, add_zero]
  refine Finset.sum_congr rfl fun i hi => ?_
  rw [List.getD_append _ _ _ _ (mem_range.1 hi)]

theorem chebReal_lead (u : List ℝ) (x : ℝ) (hx : x ≠ 0) :
    (chebReal (u ++ [x])).natDegree = u.length ∧ (chebReal (u ++ [x])).leadingCoeff = x * 2 ^ (u.length - 1) := by
  have e : chebReal (u ++ [x]) = chebReal u + C x * Chebyshev.T ℝ (u.length : ℤ) := by
    unfold chebReal
    rw [List.length_append, List.length_singleton, Finset.sum_range_succ]
    congr 1
    · refine Finset.sum_congr rfl fun i hi => ?_
      rw [List.getD_append _ _ _ _ (mem_range.1 hi)]
    · rw [List.getD_append_right _ _ _ _ le_rfl]
      simp
  have hdeg : (C x * Chebyshev.T ℝ (u.length : ℤ)).degree = (u.length : WithBot ℕ) := by
    rw [degree_C_mul hx, Chebyshev.degree_T]
    simp
  have hlt : (chebReal u).degree < (C x * Chebyshev.T ℝ (u.length : ℤ)).degree := by
    rw [hdeg]
    unfold chebReal
    refine (degree_sum_le _ _).trans_lt ((Finset.sup_lt_iff (WithBot.bot_lt_coe _)).2 fun i hi => ?_)
    by_cases hc : u.getD i 0 = 0
    · rw [hc, C_0, zero_mul, degree_zero]
      exact WithBot.bot_lt_coe _
    · rw [degree_C_mul hc, Chebyshev.degree_T]
      simpa using mem_range.1 hi
  constructor
  · rw [e]
    exact natDegree_eq_of_degree_eq_some (by rw [degree_add_eq_right_of_degree_lt hlt, hdeg])
  · rw [e, leadingCoeff_add_of_degree_lt hlt, leadingCoeff_mul, leadingCoeff_C, Chebyshev.leadingCoeff_T]
    simp

/-- A list of reals is zero or ends with zeros after a last nonzero entry. -/
theorem last_nonzero (c : List ℝ) : (∃ m, c = List.replicate m 0) ∨ ∃ u x m, c = (u ++ [x]) ++ List.replicate m 0 ∧ x ≠ 0 := by
  induction c using List.reverseRecOn with
  | nil => exact .inl ⟨0, rfl⟩
  | append_singleton c y ih =>
    by_cases hy : y = 0
    · rcases ih with ⟨m, e⟩ | ⟨u, x, m, e, hx⟩
      · refine .inl ⟨m + 1, ?_⟩
        rw [e, hy, List.replicate_succ']
      · refine .inr ⟨u, x, m + 1, ?_, hx⟩
        rw [e, hy, List.replicate_succ', List.append_assoc]
    · exact .inr ⟨c, y, 0, by simp, hy⟩

theorem trimLoop1D_zeros {allowed : ℝ} (h : 0 < allowed) (m : ℕ) (x : ℝ) (l : List ℝ) :
    trimLoop1D allowed (List.replicate m 0 ++ x :: l) 0 = trimLoop1D allowed (x :: l) 0 := by
  induction m with
  | zero => rfl
  | succ m ih =>
    rw [List.replicate_succ, List.cons_append, trimLoop1D.eq_def]
    simp only [abs_zero, add_zero, h, if_true]
    cases m with
    | zero => simp
    | succ m => simpa [List.replicate_succ] using ih

/-- The coefficients of a polynomial whose degree is between 1 and `deg`. -/
theorem approx1D_split (P : ℝ[X]) {a b : ℝ} (hab : a < b) {deg : ℕ} (hd : 1 ≤ deg) (h1 : 1 ≤ P.natDegree) (hP : P.natDegree ≤ deg) :
    ∃ u x m, approx1D (fun x => P.eval x) a b deg = (u ++ [x]) ++ List.replicate m 0 ∧ u.length = P.natDegree ∧
      x = P.leadingCoeff * ((b - a) / 2) ^ P.natDegree / 2 ^ (P.natDegree - 1) := by
  have hb : (b - a) / 2 ≠ 0 := by
    have : 0 < b - a := sub_pos.2 hab
    positivity
  have hq : (C ((b - a) / 2) * X + C ((b + a) / 2) : ℝ[X]).natDegree = 1 := natDegree_linear hb
  have hdeg : (moved P a b).natDegree = P.natDegree := by
    unfold moved
    rw [natDegree_comp, hq, mul_one]
  have hlead : (moved P a b).leadingCoeff = P.leadingCoeff * ((b - a) / 2) ^ P.natDegree := by
    unfold moved
    rw [leadingCoeff_comp (by rw [hq]; exact one_ne_zero), leadingCoeff_linear hb]
  have e := approx1D_poly P a b hd hP
  rcases last_nonzero (approx1D (fun x => P.eval x) a b deg) with ⟨m, hm⟩ | ⟨u, x, m, hm, hx⟩
  · rw [hm] at e
    have := chebReal_zeros [] m
    rw [List.nil_append, e] at this
    have h0 : chebReal [] = 0 := by simp [chebReal]
    rw [this, h0, natDegree_zero] at hdeg
    omega
  · rw [hm, chebReal_zeros] at e
    obtain ⟨h2, h3⟩ := chebReal_lead u x hx
    rw [e] at h2 h3
    have hu : u.length = P.natDegree := by rw [← h2, hdeg]
    refine ⟨u, x, m, hm, hu, ?_⟩
    rw [← hlead, h3, hu, mul_div_cancel_right₀]
    positivity

end YRoots.Legacy
