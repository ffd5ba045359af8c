import Verif.Proofs.MMaker

/-!
# C65, C66: the approximator of the earlier solver
-/

namespace YRoots.Legacy

open Finset Real

variable {n : ℕ}

/-! ### C65: `interval_approximate_nd` of `M_maker` -/

/-- The states of the two dictionaries after any sequence of calls. -/
inductive MakerReachable (F : MakerFn n) : MakerState n → Prop
  | empty : MakerReachable F ⟨[], []⟩
  | call (st st' : MakerState n) (degs : Fin n → ℕ) (r : Tensor n ℝ × ℝ) : MakerReachable F st → (∀ i, 1 ≤ degs i) →
      makerApprox F degs st = .ok (r, st') → MakerReachable F st'

/-- Specification: the grid point `j` of `[-1, 1]^n`, and its image in `[a, b]`. -/
noncomputable def extremum (degs : Fin n → ℕ) (j : Fin n → ℕ) : Fin n → ℝ := fun i => cos (j i * π / degs i)

noncomputable def onBox (F : MakerFn n) (x : Fin n → ℝ) : Fin n → ℝ := fun i => ((F.b i - F.a i) * x i + (F.b i + F.a i)) / 2

/-- Specification: a tensor of one more coefficient than the degree along each axis that interpolates `f` on the grid. -/
structure Interpolates (F : MakerFn n) (degs : Fin n → ℕ) (M : Tensor n ℝ) : Prop where
  shape : M.shape = fun i => degs i + 1
  interpolates : ∀ j, (∀ i, j i ≤ degs i) → M.eval (extremum degs j) = F.f (onBox F (extremum degs j))

/-- Specification: the largest absolute value of `f` on the grid. -/
structure GridNorm (F : MakerFn n) (degs : Fin n → ℕ) (norm : ℝ) : Prop where
  upper : ∀ j, (∀ i, j i ≤ degs i) → |F.f (onBox F (extremum degs j))| ≤ norm
  attained : ∃ j, (∀ i, j i ≤ degs i) ∧ norm = |F.f (onBox F (extremum degs j))|

theorem MakerReachable.inv {F : MakerFn n} {st : MakerState n} (h : MakerReachable F st) : MakerInv F st := by
  induction h with
  | empty => exact makerInv_empty F
  | call st st' degs r _ hd hr ih =>
    obtain ⟨h1, h2⟩ := makerApprox_good F degs hd st ih
    by_cases hok : GridOK F degs ∨ degs ∈ keys st.memo
    · obtain ⟨r', st'', e, -, hi, -⟩ := h1 hok
      rw [e] at hr
      simp only [Except.ok.injEq, Prod.mk.injEq] at hr
      rw [← hr.2]
      exact hi
    · rw [not_or] at hok
      rw [h2 hok.1 hok.2] at hr
      simp at hr

theorem interp_interpolates (F : MakerFn n) (degs : Fin n → ℕ) (hd : ∀ i, 1 ≤ degs i) : Interpolates F degs (interp F degs) :=
  ⟨rfl, fun j hj => C36_interpolates F.f degs hd F.a F.b j hj⟩

theorem gridNorm_of_good {F : MakerFn n} {degs : Fin n → ℕ} {r : Tensor n ℝ × ℝ} (h : GoodFft F degs r) : GridNorm F degs r.2 :=
  ⟨fun j hj => h.norm.1 j hj, h.norm.2⟩

theorem interpolates_of_good {F : MakerFn n} {degs : Fin n → ℕ} {r : Tensor n ℝ × ℝ} (h : GoodFft F degs r) :
    Interpolates F degs r.1 := by
  have : r.1 = interp F degs := h.coeffs
  rw [this]
  obtain ⟨b, hb, -⟩ := h
  exact interp_interpolates F degs hb.1

/-- **C65** (partial).  Whatever was computed and memoised before, what `interval_approximate_nd` returns interpolates `f` at the
Chebyshev extrema, has the right shape, and comes with the largest value of `|f|` there; polynomials of these degrees are
reproduced.  It succeeds if `f` has no `evaluate_grid` or the degrees are equal.  Not included (and false, see `C65_grid_false`):
success for functions with `evaluate_grid` and different degrees. -/
theorem C65_interpolates_partial (F : MakerFn n) (st : MakerState n) (hst : MakerReachable F st) (degs : Fin n → ℕ)
    (hd : ∀ i, 1 ≤ degs i) :
    (∀ r st', makerApprox F degs st = .ok (r, st') →
      Interpolates F degs r.1 ∧ GridNorm F degs r.2 ∧
        ∀ p : MvPolynomial (Fin n) ℝ, (∀ i, p.degreeOf i ≤ degs i) → F.f = (fun x => MvPolynomial.eval x p) →
          ∀ x, r.1.eval x = F.f (onBox F x)) ∧
      ((F.hasGrid = false ∨ ∀ i j, degs i = degs j) → ∃ r st', makerApprox F degs st = .ok (r, st')) := by
  obtain ⟨h1, h2⟩ := makerApprox_good F degs hd st hst.inv
  constructor
  · intro r st' hr
    have hg : GoodFft F degs r := by
      by_cases hok : GridOK F degs ∨ degs ∈ keys st.memo
      · obtain ⟨r', st'', e, hg, -⟩ := h1 hok
        rw [e] at hr
        simp only [Except.ok.injEq, Prod.mk.injEq] at hr
        rw [← hr.1]
        exact hg
      · rw [not_or] at hok
        rw [h2 hok.1 hok.2] at hr
        simp at hr
    refine ⟨interpolates_of_good hg, gridNorm_of_good hg, fun p hp hf x => ?_⟩
    rw [hg.coeffs, hf]
    exact C36_exact p degs hp F.a F.b x
  · intro h
    obtain ⟨r, st', e, -⟩ := h1 (.inl fun hg => h.resolve_left (by simp [hg]))
    exact ⟨r, st', e⟩

/-- The same call twice gives the same answer, whatever happened in between. -/
theorem C65_deterministic (F : MakerFn n) (st1 st2 : MakerState n) (h1 : MakerReachable F st1) (h2 : MakerReachable F st2)
    (degs : Fin n → ℕ) (hd : ∀ i, 1 ≤ degs i) (r1 r2 : Tensor n ℝ × ℝ) (st1' st2' : MakerState n)
    (e1 : makerApprox F degs st1 = .ok (r1, st1')) (e2 : makerApprox F degs st2 = .ok (r2, st2')) : r1 = r2 := by
  have key : ∀ st : MakerState n, MakerReachable F st → ∀ r st', makerApprox F degs st = .ok (r, st') → GoodFft F degs r := by
    intro st hst r st' hr
    obtain ⟨h1, h2⟩ := makerApprox_good F degs hd st hst.inv
    by_cases hok : GridOK F degs ∨ degs ∈ keys st.memo
    · obtain ⟨r', st'', e, hg, -⟩ := h1 hok
      rw [e] at hr
      simp only [Except.ok.injEq, Prod.mk.injEq] at hr
      rw [← hr.1]
      exact hg
    · rw [not_or] at hok
      rw [h2 hok.1 hok.2] at hr
      simp at hr
  have g1 := key st1 h1 r1 st1' e1
  have g2 := key st2 h2 r2 st2' e2
  refine Prod.ext (g1.coeffs.trans g2.coeffs.symm) ?_
  obtain ⟨u1, j1, hj1, a1⟩ := gridNorm_of_good g1
  obtain ⟨u2, j2, hj2, a2⟩ := gridNorm_of_good g2
  refine le_antisymm ?_ ?_
  · rw [a1]; exact u2 j1 hj1
  · rw [a2]; exact u1 j2 hj2

/-- **C65** is false of the code for functions with `evaluate_grid` in two variables: line 287 puts the coordinates of the two axes
into the columns of one array, which fails if the degrees differ. -/
theorem C65_grid_false (f : (Fin 2 → ℝ) → ℝ) : makerApprox ⟨f, fun _ => -1, fun _ => 1, true⟩ ![1, 2] ⟨[], []⟩ = .error .columnStack := by
  refine (makerApprox_good _ _ (fun i => by fin_cases i <;> simp) _ (makerInv_empty _)).2 (fun h => ?_) (by simp [keys])
  have := h rfl 0 1
  simp at this

/-! ### C66: the search for the degrees -/

/-- **C66** (partial).  For a function without `evaluate_grid`, or of one variable, and an initial guess that is not larger than the
largest degree allowed, the constructor ends without an error.  `degs` is between the guess and the maximum, `M` interpolates `f`
on the grid of `degs`, `M2` on that of `2 degs`, `inf_norm` is the largest value on the grid, `err` bounds the difference of `M`
and `M2` on the cube, and the search was ended for one of the two reasons given: the difference of `M` and `M2` is below
the tolerance, or in every direction that can still be refined the difference of `M2` and the interpolant that is not doubled
there is.  Not included (and false, see below): guesses larger than the maximum, functions of several variables with
`evaluate_grid`, and the attribute `values_block`. -/
theorem C66_search_partial (F : MakerFn n) (hG : F.hasGrid = false ∨ n ≤ 1) (relTol : ℝ) (maxDeg guess : ℕ) (h1 : 1 ≤ guess)
    (hmax : guess ≤ maxDeg) (fuel : ℕ) (hfuel : n * maxDeg < fuel) :
    ∃ m, mMaker F relTol maxDeg fuel guess = .ok m ∧ (∀ i, guess ≤ m.degs i ∧ m.degs i ≤ maxDeg) ∧
      Interpolates F m.degs m.cur.M ∧ GridNorm F m.degs m.cur.infNorm ∧ Interpolates F (fun i => 2 * m.degs i) m.cur.M2 ∧
      (∀ x : Fin n → ℝ, (∀ i, |x i| ≤ 1) → |m.cur.M2.eval x - m.cur.M.eval x| ≤ m.cur.err) ∧
      (m.cur.err < max relTol (10 * ((∏ i, (2 * m.degs i + 1 : ℝ)) - ∏ i, (m.degs i + 1 : ℝ)) * macheps * m.cur.infNorm) ∨
        ∀ i, m.degs i < maxDeg → ∃ T : Tensor n ℝ, Interpolates F (fun j => if j = i then m.degs j else 2 * m.degs j) T ∧
          ∀ x : Fin n → ℝ, (∀ i, |x i| ≤ 1) → |m.cur.M2.eval x - T.eval x| ≤ max relTol (10 * ((∏ j, (2 * m.degs j + 1 : ℝ)) -
            ∏ j, ((if j = i then m.degs j else 2 * m.degs j : ℕ) + 1 : ℝ)) * macheps * m.cur.infNorm)) := by
  have hGall : ∀ degs, GridOK F degs := by
    intro degs hg i j
    rcases hG with h | h
    · rw [h] at hg; simp at hg
    · have : i = j := Fin.ext (by omega)
      rw [this]
  obtain ⟨cur, st, e1, g1, i1, -⟩ := makerCurrent_good F (fun _ => guess) (fun _ => h1) (hGall _) ⟨[], []⟩ (makerInv_empty F)
  have hsum : ∑ i : Fin n, (maxDeg - (fun _ : Fin n => guess) i) < fuel := by
    simp only [sum_const, card_univ, Fintype.card_fin, smul_eq_mul]
    exact lt_of_le_of_lt (Nat.mul_le_mul_left _ (Nat.sub_le _ _)) hfuel
  obtain ⟨degs, cur', st', e2, hge, hle, g2, i2, -, hstop⟩ := makerLoop_good F relTol maxDeg hGall (fun _ _ => True)
    (fun _ _ _ => trivial) (fun _ _ _ _ _ _ _ _ => trivial) fuel (fun _ => guess) (fun _ => h1) (fun _ => hmax) hsum cur g1 st i1
    trivial
  have hrun : mMaker F relTol maxDeg fuel guess = .ok ⟨degs, cur', ((st'.memo.map Prod.snd).reverse)[1]?⟩ := by
    unfold mMaker findGoodApprox
    have : (fun i : Fin n => if (fun _ : Fin n => guess) i > maxDeg then maxDeg else (fun _ : Fin n => guess) i) =
        fun _ => guess := by
      funext i
      exact if_neg (not_lt.2 hmax)
    simp only [e1]
    rw [this] 
    simp only [e2]
  have hd : ∀ i, 1 ≤ degs i := fun i => h1.trans (hge i)
  have hM : cur'.M = interp F degs := g2.fft.coeffs
  have hI2 : Interpolates F (fun i => 2 * degs i) cur'.M2 := by
    rw [g2.M2]
    exact interp_interpolates F _ fun i => by have := hd i; omega
  refine ⟨_, hrun, fun i => ⟨hge i, hle i⟩, interpolates_of_good g2.fft, gridNorm_of_good g2.fft, hI2, ?_, ?_⟩
  · intro x hx
    simp only
    rw [g2.err]
    refine abs_sub_le_getErr _ _ (fun i => ?_) x hx
    rw [hM, g2.M2, interp_shape, interp_shape]
    have := hd i
    beta_reduce
    omega
  · have hent : ∀ N : Fin n → ℕ, (entries (interp F N) : ℝ) = ∏ i, ((N i : ℝ) + 1) := by
      intro N
      unfold entries
      rw [interp_shape]
      push_cast
      rfl
    rcases hstop with h | h
    · left
      unfold floatTol at h
      rw [hM, g2.M2, hent, hent] at h
      simpa using h
    · right
      intro i hi
      have ht : testDegs degs i = fun j => if j = i then degs j else 2 * degs j := by
        funext j
        unfold testDegs
        by_cases hij : i = j
        · subst hij; simp
        · rw [if_pos hij, if_neg (Ne.symm hij), mul_comm]
      refine ⟨interp F (testDegs degs i), ?_, fun x hx => ?_⟩
      · rw [← ht]
        exact interp_interpolates F _ (one_le_testDegs hd i)
      · have hns := h i hi
        unfold Significant at hns
        rw [gt_iff_lt, not_lt] at hns
        refine (abs_sub_le_getErr _ _ (fun j => ?_) x hx).trans (hns.trans (le_of_eq ?_))
        · simp only
          rw [g2.M2, interp_shape, interp_shape, ht]
          simp only
          split_ifs <;> omega
        · unfold floatTol
          rw [g2.M2, hent, hent, ht]
          push_cast
          rfl

/-- The keys of the memo in one variable: the last two belong to `degs` and `2 degs`, the others are smaller unless `degs` is
the maximum. -/
def LastTwo (maxDeg : ℕ) (degs : Fin 1 → ℕ) (ks : List (Fin 1 → ℕ)) : Prop :=
  ∃ pre, ks = pre ++ [degs, fun i => 2 * degs i] ∧ (degs 0 < maxDeg → ∀ k ∈ pre, k 0 < degs 0)

theorem lastTwo_tests (maxDeg : ℕ) (degs : Fin 1 → ℕ) (ks : List (Fin 1 → ℕ)) (h : LastTwo maxDeg degs ks) :
    (((List.finRange 1).filter fun i => degs i < maxDeg).map (testDegs degs)).foldl addKey ks = ks := by
  have ht : testDegs degs 0 = degs := by
    funext j
    unfold testDegs
    rw [if_neg (by rw [Subsingleton.elim j 0]; simp)]
  have : degs ∈ ks := by
    obtain ⟨pre, rfl, -⟩ := h
    simp
  by_cases hd : degs 0 < maxDeg
  · have : List.finRange 1 = [0] := rfl
    rw [this]
    simp only [List.filter_cons, List.filter_nil, hd, decide_true, if_true, List.map_cons, List.map_nil, List.foldl_cons,
      List.foldl_nil, ht]
    unfold addKey
    rw [if_pos ‹degs ∈ ks›]
  · have : List.finRange 1 = [0] := rfl
    rw [this]
    simp [hd]

theorem lastTwo_round (maxDeg : ℕ) (degs : Fin 1 → ℕ) (ks : List (Fin 1 → ℕ)) (dims : List (Fin 1)) (hd : ∀ i, 1 ≤ degs i)
    (hne : dims ≠ []) (hlt : ∀ i ∈ dims, degs i < maxDeg) (h : LastTwo maxDeg degs ks) :
    LastTwo maxDeg (nextDegs maxDeg degs dims) (roundKeys maxDeg degs dims ks) := by
  unfold roundKeys
  rw [lastTwo_tests maxDeg degs ks h]
  obtain ⟨pre, rfl, hpre⟩ := h
  obtain ⟨i0, hi0⟩ := List.exists_mem_of_ne_nil dims hne
  have h0 : (0 : Fin 1) ∈ dims := by rwa [Subsingleton.elim 0 i0]
  have hm := hlt 0 h0
  have h1 := hd 0
  have hn : nextDegs maxDeg degs dims 0 = if 2 * degs 0 < maxDeg then 2 * degs 0 else maxDeg := by
    unfold nextDegs
    rw [if_pos h0]
  set nd := nextDegs maxDeg degs dims with hnd
  have hnd1 : degs 0 < nd 0 := by rw [hn]; split_ifs <;> omega
  have hnd2 : nd 0 ≤ 2 * degs 0 := by rw [hn]; split_ifs <;> omega
  have hext : ∀ k k' : Fin 1 → ℕ, k = k' ↔ k 0 = k' 0 := fun k k' =>
    ⟨fun h => by rw [h], fun h => funext fun i => by rw [Subsingleton.elim i 0]; exact h⟩
  have hmem2 : (fun i => 2 * nd i) ∉ (pre ++ [degs, fun i => 2 * degs i]) ∧ (fun i => 2 * nd i) ≠ nd := by
    constructor
    · intro hc
      rw [List.mem_append] at hc
      rcases hc with hc | hc
      · have : 2 * nd 0 < degs 0 := hpre hm _ hc
        omega
      · simp only [List.mem_cons, hext, List.not_mem_nil, or_false] at hc
        omega
    · rw [Ne, hext]
      omega
  by_cases he : nd 0 = 2 * degs 0
  · have hmem : nd = fun i => 2 * degs i := (hext _ _).2 he
    have : addKey (pre ++ [degs, fun i => 2 * degs i]) nd = pre ++ [degs, fun i => 2 * degs i] := by
      unfold addKey
      rw [if_pos]
      rw [hmem]
      simp
    rw [this]
    unfold addKey
    rw [if_neg hmem2.1]
    refine ⟨pre ++ [degs], ?_, ?_⟩
    · rw [← hmem]
      simp
    · intro _ k hk
      rw [List.mem_append, List.mem_singleton] at hk
      rcases hk with hk | rfl
      · exact (hpre hm k hk).trans hnd1
      · exact hnd1
  · have hnot : nd ∉ pre ++ [degs, fun i => 2 * degs i] := by
      intro hc
      rw [List.mem_append] at hc
      rcases hc with hc | hc
      · have := hpre hm _ hc
        omega
      · simp only [List.mem_cons, hext, List.not_mem_nil, or_false] at hc
        omega
    have hk2 : (fun i => 2 * nd i) ∉ (pre ++ [degs, fun i => 2 * degs i]) ++ [nd] := by
      rw [List.mem_append, List.mem_singleton, not_or]
      exact hmem2
    unfold addKey
    rw [if_neg hnot, if_neg hk2]
    refine ⟨pre ++ [degs, fun i => 2 * degs i], by simp, fun hlt' => ?_⟩
    exfalso
    rw [hn] at hlt' he
    split_ifs at hlt' he
    · exact he rfl
    · omega

/-- **C66** (partial): in one variable the attribute `values_block` holds the values of `f` on the grid of `degs`. -/
theorem C66_values_block_partial (F : MakerFn 1) (relTol : ℝ) (maxDeg guess : ℕ) (h1 : 1 ≤ guess) (hmax : guess ≤ maxDeg) (fuel : ℕ)
    (hfuel : maxDeg < fuel) :
    ∃ m block, mMaker F relTol maxDeg fuel guess = .ok m ∧ m.valuesBlock = some block ∧ block.shape = (fun i => m.degs i + 1) ∧
      ∀ j, j 0 ≤ m.degs 0 → block.coef j = F.f (onBox F (extremum m.degs j)) := by
  have hGall : ∀ degs, GridOK F degs := fun degs _ i j => by rw [Subsingleton.elim i j]
  obtain ⟨cur, st, e1, g1, i1, k1⟩ := makerCurrent_good F (fun _ => guess) (fun _ => h1) (hGall _) ⟨[], []⟩ (makerInv_empty F)
  have hsum : ∑ i : Fin 1, (maxDeg - (fun _ : Fin 1 => guess) i) < fuel := by
    simp only [Finset.univ_unique, sum_singleton]
    omega
  have hq : LastTwo maxDeg (fun _ => guess) (keys st.memo) := by
    refine ⟨[], ?_, by simp⟩
    have ha : addKey (keys ([] : List ((Fin 1 → ℕ) × Tensor 1 ℝ))) (fun _ => guess) = [fun _ => guess] := by
      unfold addKey keys
      simp
    rw [k1, ha]
    unfold addKey
    rw [if_neg]
    · rfl
    · rw [List.mem_singleton]
      intro h
      have : 2 * guess = guess := congrFun h 0
      omega
  obtain ⟨degs, cur', st', e2, hge, hle, g2, i2, hq2, hstop⟩ := makerLoop_good F relTol maxDeg hGall (LastTwo maxDeg)
    (fun degs ks h => by rw [lastTwo_tests maxDeg degs ks h]; exact h)
    (fun degs ks dims hd _ hne hlt h => lastTwo_round maxDeg degs ks dims hd hne hlt h) fuel (fun _ => guess) (fun _ => h1)
    (fun _ => hmax) hsum cur g1 st i1 hq
  have hrun : mMaker F relTol maxDeg fuel guess = .ok ⟨degs, cur', ((st'.memo.map Prod.snd).reverse)[1]?⟩ := by
    unfold mMaker findGoodApprox
    have : (fun i : Fin 1 => if (fun _ : Fin 1 => guess) i > maxDeg then maxDeg else (fun _ : Fin 1 => guess) i) =
        fun _ => guess := by
      funext i
      exact if_neg (not_lt.2 hmax)
    simp only [e1]
    rw [this]
    simp only [e2]
  obtain ⟨pre, hk, -⟩ := hq2
  obtain ⟨m1, m2, hm, -, hm2⟩ := List.map_eq_append_iff.1 hk
  obtain ⟨⟨k, block⟩, m3, rfl, hk1, hm3⟩ := List.map_eq_cons_iff.1 hm2
  obtain ⟨e, m4, rfl, -, hm4⟩ := List.map_eq_cons_iff.1 hm3
  rw [List.map_eq_nil_iff] at hm4
  subst hm4
  simp only at hk1
  have hgood : GoodBlock F degs block := by
    rw [← hk1]
    exact i2.memo (k, block) (by rw [hm]; simp)
  refine ⟨_, block, hrun, ?_, hgood.2.1, fun j hj => hgood.2.2 j fun i => by rw [Subsingleton.elim i 0]; exact hj⟩
  simp only [hm]
  simp

/-! ### The disagreements -/

/-- **C66** is false of the code for guesses above the maximum: lines 198-200 change the degrees but not `M`, which then has four
coefficients for the degree two. -/
theorem C66_guess_false (F : MakerFn 1) (relTol : ℝ) :
    ∃ m, mMaker F relTol 2 1 3 = .ok m ∧ m.degs 0 = 2 ∧ m.cur.M.shape 0 = 4 := by
  have hGall : ∀ degs, GridOK F degs := fun degs _ i j => by rw [Subsingleton.elim i j]
  obtain ⟨cur, st, e1, g1, -, -⟩ := makerCurrent_good F (fun _ => 3) (fun _ => by norm_num) (hGall _) ⟨[], []⟩ (makerInv_empty F)
  refine ⟨⟨fun _ => 2, cur, ((st.memo.map Prod.snd).reverse)[1]?⟩, ?_, rfl, ?_⟩
  · unfold mMaker findGoodApprox
    simp only [e1]
    unfold makerLoop
    simp
  · have : cur.M = interp F _ := g1.fft.coeffs
    simp only [this, interp_shape]

/-- The function of the two witnesses: `x^2 + y^2` on the square. -/
noncomputable def paraboloid (grid : Bool) : MakerFn 2 := ⟨fun x => x 0 ^ 2 + x 1 ^ 2, fun _ => -1, fun _ => 1, grid⟩

/-- With degree one along an axis the square is taken for the constant one. -/
theorem interp_paraboloid (grid : Bool) (degs : Fin 2 → ℕ) (hd : ∀ i, degs i = 1 ∨ degs i = 2) :
    (interp (paraboloid grid) degs).eval (fun _ => 0) = (if degs 0 = 1 then 1 else 0) + if degs 1 = 1 then 1 else 0 := by
  let U : ℕ → Polynomial ℝ := fun d => if d = 1 then 1 else Polynomial.X ^ 2
  have hU : ∀ d, d = 1 ∨ d = 2 → (U d).natDegree ≤ d := by
    rintro d (rfl | rfl) <;> simp [U]
  have hd1 : ∀ i, 1 ≤ degs i := fun i => by rcases hd i with h | h <;> omega
  have htr : ∀ x : Fin 2 → ℝ, transformPt x (fun _ => -1) (fun _ => 1) = x := by
    intro x
    funext i
    unfold transformPt
    ring
  have hpt : ∀ d j, d = 1 ∨ d = 2 → (U d).eval (chebPt d j) = chebPt d j ^ 2 := by
    rintro d j (rfl | rfl)
    · have h : Real.cos ((j : ℝ) * Real.pi) ^ 2 = 1 := by
        rw [Real.cos_nat_mul_pi, ← pow_mul, mul_comm, pow_mul]
        norm_num
      simp [U, chebPt, h]
    · simp [U]
  have e : intervalApproximate (paraboloid grid).f degs (fun _ => -1) (fun _ => 1) =
      intervalApproximate (fun x => (U (degs 0)).eval (x 0) + (U (degs 1)).eval (x 1)) degs (fun _ => -1) (fun _ => 1) := by
    have hv : (fun j => (paraboloid grid).f (gridPt degs (fun _ => -1) (fun _ => 1) j)) = fun j =>
        (U (degs 0)).eval (gridPt degs (fun _ => -1) (fun _ => 1) j 0) + (U (degs 1)).eval (gridPt degs (fun _ => -1) (fun _ => 1) j 1) := by
      funext j
      unfold gridPt
      rw [htr]
      simp only [hpt _ _ (hd 0), hpt _ _ (hd 1)]
      rfl
    unfold intervalApproximate
    simp only [bumpDegs_eq hd1] at hv ⊢
    simp only [congrFun hv]
  have h2 := intervalApproximate_exact (fun x => (U (degs 0)).eval (x 0) + (U (degs 1)).eval (x 1)) degs (fun _ => -1) (fun _ => 1)
    (fun i => by
      intro x
      fin_cases i
      · refine ⟨U (degs 0) + Polynomial.C ((U (degs 1)).eval (x 1)), ?_, fun t => ?_⟩
        · exact Polynomial.natDegree_add_le_of_degree_le (hU _ (hd 0)) (by simp)
        · simp
      · refine ⟨U (degs 1) + Polynomial.C ((U (degs 0)).eval (x 0)), ?_, fun t => ?_⟩
        · exact Polynomial.natDegree_add_le_of_degree_le (hU _ (hd 1)) (by simp)
        · simp [add_comm]) (fun _ => 0)
  unfold interp
  rw [show (paraboloid grid).a = fun _ => -1 from rfl, show (paraboloid grid).b = fun _ => 1 from rfl, e, h2, htr]
  rcases hd 0 with h0 | h0 <;> rcases hd 1 with h1 | h1 <;> simp [U, h0, h1]

/-- The first approximation of the paraboloid, of degree one, is not accepted, and both directions have a significant error. -/
theorem paraboloid_significant (grid : Bool) (cur : Current 2) (h : GoodCurrent (paraboloid grid) (fun _ => 1) cur) :
    ¬ cur.err < floatTol (1 / 10 ^ 15) cur.infNorm cur.M cur.M2 ∧
      ∀ i, Significant (paraboloid grid) (1 / 10 ^ 15) (fun _ => 1) cur i := by
  have hnorm : cur.infNorm = 2 := by
    obtain ⟨-, j, -, h2⟩ := gridNorm_of_good h.fft
    simp only at h2
    rw [h2]
    have hc : ∀ i, onBox (paraboloid grid) (extremum (fun _ => 1) j) i = Real.cos (j i * Real.pi) := by
      intro i
      simp [onBox, extremum, paraboloid]
      ring
    have hs : ∀ k : ℕ, Real.cos ((k : ℝ) * Real.pi) ^ 2 = 1 := by
      intro k
      rw [Real.cos_nat_mul_pi, ← pow_mul, mul_comm, pow_mul]
      norm_num
    change |(onBox (paraboloid grid) (extremum (fun _ => 1) j) 0) ^ 2 + (onBox (paraboloid grid) (extremum (fun _ => 1) j) 1) ^ 2| = 2
    rw [hc, hc, hs, hs]
    norm_num
  have hM : cur.M = interp (paraboloid grid) (fun _ => 1) := h.fft.coeffs
  have hM2 : cur.M2 = interp (paraboloid grid) (fun _ => 2) := h.M2
  have v2 : cur.M2.eval (fun _ => 0) = 0 := by
    rw [hM2, interp_paraboloid grid _ fun _ => .inr rfl]
    simp
  have hent : ∀ d0 d1 : ℕ, ∀ N : Fin 2 → ℕ, N 0 = d0 → N 1 = d1 → (entries (interp (paraboloid grid) N) : ℝ) = (d0 + 1) * (d1 + 1) := by
    rintro d0 d1 N rfl rfl
    unfold entries
    rw [interp_shape, Fin.prod_univ_two]
    push_cast
    rfl
  constructor
  · rw [h.err, not_lt]
    have hle := abs_sub_le_getErr cur.M cur.M2 (fun i => by rw [hM, hM2, interp_shape, interp_shape]; norm_num) (fun _ => 0)
      (fun _ => by norm_num)
    rw [v2, hM, interp_paraboloid grid _ fun _ => .inl rfl] at hle
    rw [hM]
    refine le_trans ?_ hle
    unfold floatTol
    rw [hnorm, hM2, hent 1 1 (fun _ => 1) rfl rfl, hent 2 2 (fun _ => 2) rfl rfl]
    norm_num [macheps]
  · intro i
    unfold Significant
    have hT : ∀ j, testDegs (fun _ => 1) i j = if j = i then 1 else 2 := by
      intro j
      unfold testDegs
      by_cases hij : i = j
      · subst hij; simp
      · simp [hij, Ne.symm hij]
    have hle := abs_sub_le_getErr (interp (paraboloid grid) (testDegs (fun _ => 1) i)) cur.M2 (fun j => by
      rw [hM2, interp_shape, interp_shape]
      simp only [hT]
      split_ifs <;> norm_num) (fun _ => 0) (fun _ => by norm_num)
    rw [v2, interp_paraboloid grid _ fun j => by rw [hT]; split_ifs <;> simp] at hle
    refine lt_of_lt_of_le ?_ hle
    unfold floatTol
    rw [hnorm, hM2, hent 2 2 (fun _ => 2) rfl rfl, hent _ _ (testDegs (fun _ => 1) i) rfl rfl]
    fin_cases i <;> norm_num [macheps, testDegs]

/-- The keys after the first two approximations. -/
theorem paraboloid_first (grid : Bool) : ∃ cur st, makerCurrent (paraboloid grid) (fun _ => 1) ⟨[], []⟩ = .ok (cur, st) ∧
    GoodCurrent (paraboloid grid) (fun _ => 1) cur ∧ MakerInv (paraboloid grid) st ∧ keys st.memo = [fun _ => 1, fun _ => 2] := by
  obtain ⟨cur, st, h1, h2, h3, h4⟩ := makerCurrent_good (paraboloid grid) (fun _ => 1) (fun _ => le_rfl) (fun _ _ _ => rfl) ⟨[], []⟩
    (makerInv_empty _)
  refine ⟨cur, st, h1, h2, h3, h4.trans ?_⟩
  decide

/-- **C66** is false of the code for functions with `evaluate_grid` in two variables: for `x^2 + y^2` and the guess 1 the
constructor fails at the first test of a direction. -/
theorem C66_grid_false (maxDeg fuel : ℕ) (hmax : 2 ≤ maxDeg) : mMaker (paraboloid true) (1 / 10 ^ 15) maxDeg (fuel + 1) 1 = .error .columnStack := by
  obtain ⟨cur, st, h1, h2, h3, h4⟩ := paraboloid_first true
  obtain ⟨t1, t2⟩ := paraboloid_significant true cur h2
  have he : makerApprox (paraboloid true) (testDegs (fun _ => 1) 0) st = .error .columnStack := by
    refine (makerApprox_good _ _ (one_le_testDegs (fun _ => le_rfl) 0) st h3).2 (fun h => ?_) ?_
    · have := h rfl 0 1
      simp [testDegs] at this
    · rw [h4]
      decide
  have he' : makerApprox (paraboloid true) (fun j => if (0 : Fin 2) ≠ j then 1 * 2 else 1) st = .error .columnStack := he
  have hcl : (fun i : Fin 2 => if (fun _ : Fin 2 => 1) i > maxDeg then maxDeg else (fun _ : Fin 2 => 1) i) = fun _ => 1 := by
    funext i
    exact if_neg (by simp; omega)
  unfold mMaker findGoodApprox
  simp only [h1]
  rw [hcl]
  unfold makerLoop
  rw [if_pos ⟨0, Nat.lt_of_lt_of_le (by norm_num) hmax⟩, if_neg (by rwa [test_iff])]
  have hfr : List.finRange 2 = [0, 1] := rfl
  rw [hfr]
  unfold dimsToExpand
  rw [if_neg (by simp; omega)]
  simp only [he']

/-- **C66** is false of the code for the attribute `values_block` in two variables: for `x^2 + y^2`, the guess 1 and the maximum 2
the degrees found are `(2, 2)`, but the block is the one of the degrees `(2, 1)`. -/
theorem C66_values_block_false : ∃ m block, mMaker (paraboloid false) (1 / 10 ^ 15) 2 3 1 = .ok m ∧ (∀ i, m.degs i = 2) ∧
    m.valuesBlock = some block ∧ block.shape = ![3, 2] := by
  obtain ⟨cur, st, h1, h2, h3, h4⟩ := paraboloid_first false
  obtain ⟨t1, t2⟩ := paraboloid_significant false cur h2
  have hG : ∀ degs, GridOK (paraboloid false) degs := fun _ h => by simp [paraboloid] at h
  obtain ⟨dims, st1, d1, d2, d3, d4⟩ := dimsToExpand_good (paraboloid false) (1 / 10 ^ 15) 2 (fun _ => 1) (fun _ => le_rfl) hG cur
    (List.finRange 2) st h3
  have hmem : ∀ i, i ∈ dims := fun i => (d3 i).2 ⟨List.mem_finRange i, by norm_num, t2 i⟩
  have hne : dims ≠ [] := fun h => by
    have := hmem 0
    rw [h] at this
    simp at this
  obtain ⟨cur2, st2, c1, c2, c3, c4⟩ := makerCurrent_good (paraboloid false) (fun _ => 2) (fun _ => by norm_num) (hG _) st1 d2
  have hk : keys st2.memo = [fun _ => 1, fun _ => 2, ![1, 2], ![2, 1], fun _ => 4] := by
    rw [c4, d4, h4]
    decide
  have hrun : mMaker (paraboloid false) (1 / 10 ^ 15) 2 3 1 = .ok ⟨fun _ => 2, cur2, ((st2.memo.map Prod.snd).reverse)[1]?⟩ := by
    have hcl : (fun i : Fin 2 => if (fun _ : Fin 2 => 1) i > 2 then 2 else (fun _ : Fin 2 => 1) i) = fun _ => 1 := by
      funext i
      exact if_neg (by norm_num)
    have hnext : (fun i : Fin 2 => if i ∈ dims then (if 2 * 1 < 2 then 2 * 1 else 2) else 1) = fun _ => 2 := by
      funext i
      rw [if_pos (hmem i)]
      rfl
    unfold mMaker findGoodApprox
    simp only [h1]
    rw [hcl]
    unfold makerLoop
    rw [if_pos ⟨0, by norm_num⟩, if_neg (by rwa [test_iff])]
    simp only [d1]
    rw [if_pos hne, hnext]
    simp only [c1]
    unfold makerLoop
    rw [if_neg (by simp)]
  obtain ⟨e1, l1, q1, -, r1⟩ := List.map_eq_cons_iff.1 hk
  obtain ⟨e2, l2, q2, -, r2⟩ := List.map_eq_cons_iff.1 r1
  obtain ⟨e3, l3, q3, -, r3⟩ := List.map_eq_cons_iff.1 r2
  obtain ⟨⟨k, block⟩, l4, q4, hkey, r4⟩ := List.map_eq_cons_iff.1 r3
  obtain ⟨e5, l5, q5, -, r5⟩ := List.map_eq_cons_iff.1 r4
  rw [List.map_eq_nil_iff] at r5
  subst r5 q5 q4 q3 q2
  have hgood := c3.memo (k, block) (by rw [q1]; simp)
  simp only at hkey
  refine ⟨_, block, hrun, fun _ => rfl, ?_, ?_⟩
  · simp only [q1]
    simp
  · rw [hgood.2.1]
    simp only [hkey]
    decide

/-- Instance of `C65_interpolates_partial` and `C65_deterministic`: the state after the first two approximations of the
paraboloid is reachable. -/
example : ∃ st, MakerReachable (paraboloid false) st ∧ (∃ r st', makerApprox (paraboloid false) ![4, 2] st = .ok (r, st') ∧
    Interpolates (paraboloid false) ![4, 2] r.1 ∧ ∀ x, r.1.eval x = (paraboloid false).f (onBox (paraboloid false) x)) := by
  have hd : ∀ i, 1 ≤ (![4, 2] : Fin 2 → ℕ) i := fun i => by fin_cases i <;> simp
  obtain ⟨r, st, h⟩ := (C65_interpolates_partial (paraboloid false) _ .empty (fun _ => 1) fun _ => le_rfl).2 (.inl rfl)
  have hst := MakerReachable.call _ _ _ _ .empty (fun _ => le_rfl) h
  obtain ⟨r2, st2, h2⟩ := (C65_interpolates_partial (paraboloid false) st hst ![4, 2] hd).2 (.inl rfl)
  obtain ⟨a, -, c⟩ := (C65_interpolates_partial (paraboloid false) st hst ![4, 2] hd).1 r2 st2 h2
  refine ⟨st, hst, r2, st2, h2, a, c (MvPolynomial.X 0 ^ 2 + MvPolynomial.X 1 ^ 2) (fun i => ?_) ?_⟩
  · refine (MvPolynomial.degreeOf_add_le _ _ _).trans (max_le ?_ ?_)
    · refine (MvPolynomial.degreeOf_pow_le _ _ _).trans ?_
      rw [MvPolynomial.degreeOf_X]
      fin_cases i <;> simp
    · refine (MvPolynomial.degreeOf_pow_le _ _ _).trans ?_
      rw [MvPolynomial.degreeOf_X]
      fin_cases i <;> simp
  · funext x
    simp [paraboloid]

/-- Instance of `C66_search_partial` and `C66_values_block_partial`: the exponential function, guess 4, maximum 64. -/
example : ∃ m, mMaker (n := 1) ⟨fun x => exp (x 0), fun _ => 0, fun _ => 2, false⟩ (1 / 10 ^ 15) 64 65 4 = .ok m ∧
    4 ≤ m.degs 0 ∧ m.cur.M.eval (extremum m.degs fun _ => 0) = exp 2 := by
  obtain ⟨m, h, h1, h2, -⟩ := C66_search_partial (n := 1) ⟨fun x => exp (x 0), fun _ => 0, fun _ => 2, false⟩ (.inl rfl) (1 / 10 ^ 15)
    64 4 (by norm_num) (by norm_num) 65 (by norm_num)
  refine ⟨m, h, (h1 0).1, ?_⟩
  rw [h2.interpolates _ fun _ => Nat.zero_le _]
  simp [onBox, extremum]

end YRoots.Legacy
