import Verif.Model.MonMult
import Verif.Proofs.TransformND
import Verif.Proofs.PolyArith

/-!
# C64: multiplication by a monomial
-/

namespace YRoots.Legacy

open Finset

/-! ### Helper lemmas: products of Chebyshev polynomials -/

theorem chebT_mul {K : Type*} [CommRing K] (x : K) (a b : ℕ) (hab : a ≤ b) :
    2 * chebT a x * chebT b x = chebT (b + a) x + chebT (b - a) x := by
  have := congrArg (Polynomial.eval x) (Polynomial.Chebyshev.T_mul_T K (b : ℤ) (a : ℤ))
  simp only [Polynomial.eval_mul, Polynomial.eval_add, Polynomial.eval_ofNat] at this
  unfold chebT
  rw [Nat.cast_add, Nat.cast_sub hab]
  linear_combination this

/-! ### Helper lemmas: the loop -/

section Rows

variable {V : Type*} [AddCommGroup V]

/-- The value that the fold puts at index `j`. -/
def foldVal (c : ℕ → V) (N f j : ℕ) : V :=
  (if j ≤ f then c (f - j) else 0) + if f + j < N then c (f + j) else 0

theorem foldLoop_apply (c : ℕ → V) (N f : ℕ) (r n : ℕ) (sol : ℕ → V) (hr : r + n = N)
    (hsol : ∀ j, n < j → sol j = 0) (j : ℕ) :
    foldLoop c N f r n sol j = if n < j ∧ j < N + 1 then foldVal c N f j else sol j := by
  induction r generalizing n sol with
  | zero =>
    rw [foldLoop, if_neg]
    omega
  | succ r ih =>
    have hupd : ∀ v : V, ∀ j, n + 1 < j → Function.update sol (n + 1) v j = 0 := fun v j hj => by
      rw [Function.update_of_ne (by omega), hsol j (by omega)]
    have hfin : ∀ v : V, v = foldVal c N f (n + 1) →
        (if n + 1 < j ∧ j < N + 1 then foldVal c N f j else Function.update sol (n + 1) v j) =
          if n < j ∧ j < N + 1 then foldVal c N f j else sol j := by
      rintro v rfl
      by_cases h1 : n + 1 < j ∧ j < N + 1
      · rw [if_pos h1, if_pos (by omega)]
      · rw [if_neg h1]
        by_cases h2 : j = n + 1
        · subst h2
          rw [Function.update_self, if_pos (by omega)]
        · rw [Function.update_of_ne h2]
          by_cases h3 : n < j ∧ j < N + 1
          · omega
          · rw [if_neg h3]
    unfold foldLoop
    by_cases h1 : f < n + 1
    all_goals by_cases h2 : f + n + 2 > N
    all_goals simp only [h1, h2, if_true, if_false]
    · -- break: the remaining values are zero
      by_cases h3 : n < j ∧ j < N + 1
      · rw [if_pos h3, hsol j h3.1, foldVal, if_neg (by omega), if_neg (by omega), add_zero]
      · rw [if_neg h3]
    · rw [ih (n + 1) _ (by omega) (hupd _)]
      refine hfin _ ?_
      rw [foldVal, if_neg (by omega), if_pos (by omega), zero_add, ← Nat.add_assoc]
    · rw [ih (n + 1) _ (by omega) (hupd _)]
      refine hfin _ ?_
      rw [foldVal, if_pos (by omega), if_neg (by omega), add_zero, Nat.sub_sub]
    · rw [ih (n + 1) _ (by omega) (hupd _)]
      refine hfin _ ?_
      rw [foldVal, if_pos (by omega), if_pos (by omega), Nat.sub_sub, ← Nat.add_assoc]

variable {K : Type*} [Field K] [Module K V]

/-- The folded slices are the coefficients of `∑ c_k T_|k-f|`. -/
theorem fold_sum (c : ℕ → V) (N f : ℕ) (hf : 0 < f) (hfN : f < N) (x : K) :
    ∑ j ∈ range N, chebT j x • foldLoop c N f N 0 (Function.update (fun _ => 0) 0 (c f)) j =
      ∑ k ∈ range N, chebT (if k ≤ f then f - k else k - f) x • c k := by
  have hval : ∀ j ∈ range N, chebT j x • foldLoop c N f N 0 (Function.update (fun _ => 0) 0 (c f)) j =
      (if j ≤ f then chebT j x • c (f - j) else 0) + if 0 < j ∧ f + j < N then chebT j x • c (f + j) else 0 := by
    intro j hj
    rw [mem_range] at hj
    rw [foldLoop_apply c N f N 0 _ (by omega) (fun j hj => by rw [Function.update_of_ne (by omega)])]
    by_cases h0 : j = 0
    · subst h0
      simp
    · rw [if_pos (by omega), foldVal, smul_add]
      congr 1
      · split_ifs
        · rfl
        · rw [smul_zero]
      · by_cases h : f + j < N
        · rw [if_pos h, if_pos ⟨by omega, h⟩]
        · rw [if_neg h, if_neg (fun h' => h h'.2), smul_zero]
  rw [Finset.sum_congr rfl hval, Finset.sum_add_distrib]
  have hsplit : ∑ k ∈ range N, chebT (if k ≤ f then f - k else k - f) x • c k =
      (∑ k ∈ range (f + 1), chebT (f - k) x • c k) + ∑ j ∈ range (N - (f + 1)), chebT (j + 1) x • c (f + 1 + j) := by
    have : N = f + 1 + (N - (f + 1)) := by omega
    conv_lhs => rw [this, Finset.sum_range_add]
    congr 1
    · exact Finset.sum_congr rfl fun k hk => by rw [mem_range] at hk; rw [if_pos (by omega)]
    · exact Finset.sum_congr rfl fun k hk => by
        rw [if_neg (by omega), show f + 1 + k - f = k + 1 by omega]
  rw [hsplit]
  congr 1
  · rw [← Finset.sum_filter]
    have hset : {j ∈ range N | j ≤ f} = range (f + 1) := by
      ext j; simp only [mem_filter, mem_range]; omega
    rw [hset, ← Finset.sum_range_reflect]
    exact Finset.sum_congr rfl fun k hk => by
      rw [mem_range] at hk
      rw [show f + 1 - 1 - k = f - k by omega, show f - (f - k) = k by omega]
  · rw [← Finset.sum_filter]
    refine (Finset.sum_nbij' (fun j => j + 1) (fun j => j - 1) ?_ ?_ ?_ ?_ ?_).symm
    · intro j hj; simp only [mem_filter, mem_range] at *; omega
    · intro j hj; simp only [mem_filter, mem_range] at *; omega
    · intro j hj; simp
    · intro j hj; simp only [mem_filter, mem_range] at *; omega
    · intro j hj; rw [show f + 1 + j = f + (j + 1) by omega]

/-- One axis: the slices of the product with `T_m`. -/
theorem monMultRows_sum [NeZero (2 : K)] (c : ℕ → V) (N m : ℕ) (hN : 0 < N) (x : K) :
    ∃ r, monMultRows (K := K) true c N m = some r ∧
      ∑ j ∈ range (N + m), chebT j x • r j = chebT m x • ∑ j ∈ range N, chebT j x • c j := by
  have h2 : (2 : K) ≠ 0 := two_ne_zero
  have hp1 : ∑ j ∈ range (N + m), chebT j x • (if j < m then 0 else c (j - m)) = ∑ j ∈ range N, chebT (j + m) x • c j := by
    rw [Nat.add_comm N m, Finset.sum_range_add, Finset.sum_eq_zero, zero_add]
    · exact Finset.sum_congr rfl fun j hj => by
        rw [if_neg (by omega), Nat.add_sub_cancel_left, Nat.add_comm]
    · intro j hj
      rw [mem_range] at hj
      rw [if_pos hj, smul_zero]
  by_cases hm : m = 0
  · subst hm
    refine ⟨_, by simp only [monMultRows, foldIn, if_pos]; rfl, ?_⟩
    simp only [Nat.add_zero, chebT_zero, one_smul]
    refine Finset.sum_congr rfl fun j hj => ?_
    rw [mem_range] at hj
    rw [if_neg (Nat.not_lt_zero j), if_neg (show ¬ N ≤ 0 by omega), if_pos hj, if_pos hj, Nat.sub_zero, ← two_smul K (c j),
      smul_smul, smul_smul]
    congr 1
    field_simp
  · set N' := if N ≤ m then m + 1 else N with hN'
    have hmN : m < N' := by rw [hN']; split_ifs <;> omega
    have hNN : N ≤ N' := by rw [hN']; split_ifs <;> omega
    have hN'le : N' ≤ N + m := by rw [hN']; split_ifs <;> omega
    set pd : ℕ → V := fun j => if j < N then c j else 0 with hpd
    set sol := foldLoop pd N' m N' 0 (Function.update (fun _ => 0) 0 (pd m)) with hsol
    refine ⟨fun j => (1 / 2 : K) • ((if j < m then 0 else c (j - m)) + if j < N' then sol j else 0), ?_, ?_⟩
    · simp only [monMultRows, foldIn, if_neg hm]
      rfl
    · have hfold : ∑ j ∈ range (N + m), chebT j x • (if j < N' then sol j else 0) =
          ∑ k ∈ range N, chebT (if k ≤ m then m - k else k - m) x • c k := by
        have e1 : ∑ j ∈ range (N + m), chebT j x • (if j < N' then sol j else 0) = ∑ j ∈ range N', chebT j x • sol j := by
          rw [← Finset.sum_subset (Finset.range_subset_range.2 hN'le)]
          · exact Finset.sum_congr rfl fun j hj => by rw [if_pos (mem_range.1 hj)]
          · intro j _ hj
            rw [mem_range] at hj
            rw [if_neg hj, smul_zero]
        rw [e1, hsol, fold_sum pd N' m (by omega) hmN x, ← Finset.sum_subset (Finset.range_subset_range.2 hNN)]
        · exact Finset.sum_congr rfl fun j hj => by rw [hpd]; simp only [if_pos (mem_range.1 hj)]
        · intro j _ hj
          rw [mem_range] at hj
          simp only [hpd, if_neg hj, smul_zero]
      have e2 : ∀ j ∈ range (N + m), chebT j x • ((1 / 2 : K) • ((if j < m then 0 else c (j - m)) + if j < N' then sol j else 0))
          = (1 / 2 : K) • (chebT j x • (if j < m then 0 else c (j - m)) + chebT j x • (if j < N' then sol j else 0)) := by
        intro j _
        rw [smul_comm, smul_add]
      rw [Finset.sum_congr rfl e2, ← Finset.smul_sum, Finset.sum_add_distrib, hp1, hfold, ← Finset.sum_add_distrib,
        Finset.smul_sum, Finset.smul_sum]
      refine Finset.sum_congr rfl fun k hk => ?_
      rw [← add_smul, smul_smul, smul_smul]
      congr 1
      split_ifs with h
      · have := chebT_mul x k m h
        rw [Nat.add_comm k m, ← this]
        field_simp
      · have := chebT_mul x m k (by omega)
        rw [← this]
        field_simp

end Rows

variable {n : ℕ} {K : Type*} [Field K]

theorem monMult1_spec [NeZero (2 : K)] (M : Tensor n K) (d : Fin n) (m : ℕ) (h0 : 0 < M.shape d) :
    ∃ R, monMult1 true M d m = some R ∧ R.shape = Function.update M.shape d (M.shape d + m) ∧
      ∀ x, R.eval x = M.eval x * chebT m (x d) := by
  have hex : ∃ r, monMultRows (K := K) true (M.rows d) (M.shape d) m = some r := by
    obtain ⟨r, hr, -⟩ := monMultRows_sum (K := K) (M.rows d) (M.shape d) m h0 0
    exact ⟨r, hr⟩
  obtain ⟨r, hr⟩ := hex
  refine ⟨M.ofRows d (r, M.shape d + m), by rw [monMult1, hr]; rfl, rfl, fun x => ?_⟩
  obtain ⟨r', hr', hsum⟩ := monMultRows_sum (K := K) (M.rows d) (M.shape d) m h0 (x d)
  have : r' = r := Option.some_inj.1 (hr'.symm.trans hr)
  subst this
  rw [ofRows_eval, outEval, hsum, map_smul, map_sum, smul_eq_mul, eval_axis M d, mul_comm]
  congr 1
  exact Finset.sum_congr rfl fun j _ => by rw [map_smul, smul_eq_mul]

theorem monMultFold_spec [NeZero (2 : K)] (mon : Fin n → ℕ) (l : List (Fin n)) (hl : l.Nodup) (M : Tensor n K) (hM : M.Nonempty) :
    ∃ R, l.foldlM (fun M d => monMult1 true M d (mon d)) M = some R ∧
      (∀ i, R.shape i = if i ∈ l then M.shape i + mon i else M.shape i) ∧
      ∀ x, R.eval x = M.eval x * (l.map fun d => chebT (mon d) (x d)).prod := by
  induction l generalizing M with
  | nil => exact ⟨M, rfl, by simp, by simp⟩
  | cons d l ih =>
    obtain ⟨R, hR, hs, he⟩ := monMult1_spec M d (mon d) (hM d)
    obtain ⟨hd, hl'⟩ := List.nodup_cons.1 hl
    obtain ⟨R', hR', hs', he'⟩ := ih hl' R (fun i => by
      rw [hs]
      by_cases h : i = d
      · subst h; rw [Function.update_self]; have := hM i; omega
      · rw [Function.update_of_ne h]; exact hM i)
    refine ⟨R', by rw [List.foldlM_cons, hR]; exact hR', fun i => ?_, fun x => ?_⟩
    · rw [hs' i, hs]
      by_cases h : i = d
      · subst h
        rw [if_neg hd, if_pos List.mem_cons_self, Function.update_self]
      · rw [Function.update_of_ne h]
        simp [h]
    · rw [he' x, he x, List.map_cons, List.prod_cons, mul_assoc]

/-! ### The properties -/

/-- C64, power basis: `mon_mult2` multiplies by the monomial. -/
theorem C64_power (M : Tensor n K) (mon : Fin n → ℕ) (x : Fin n → K) :
    (monMultPower M mon).evalPow x = M.evalPow x * ∏ i, x i ^ mon i := by
  unfold Tensor.evalPow
  rw [Finset.sum_mul]
  symm
  refine Finset.sum_bij_ne_zero (fun k _ _ i => k i + mon i) ?_ ?_ ?_ ?_
  · intro k hk _
    rw [Tensor.idx, Fintype.mem_piFinset] at hk ⊢
    intro i
    have := mem_range.1 (hk i)
    exact mem_range.2 (by simp only [monMultPower]; omega)
  · intro a _ _ b _ _ h
    funext i
    have : a i + mon i = b i + mon i := congrFun h i
    omega
  · intro k hk hne
    have hle : ∀ i, mon i ≤ k i := by
      by_contra hc
      refine hne ?_
      simp only [monMultPower, if_neg hc, zero_mul]
    have hback : (fun i => k i - mon i + mon i) = k := by
      funext i
      have := hle i
      omega
    refine ⟨fun i => k i - mon i, ?_, ?_, hback⟩
    · rw [Tensor.idx, Fintype.mem_piFinset] at hk ⊢
      intro i
      have := mem_range.1 (hk i)
      simp only [monMultPower] at this
      have := hle i
      exact mem_range.2 (by omega)
    · intro h
      refine hne ?_
      simp only [monMultPower, if_pos hle]
      rw [mul_assoc, ← Finset.prod_mul_distrib] at h
      rw [← h]
      congr 1
      refine Finset.prod_congr rfl fun i _ => ?_
      rw [← pow_add, Nat.sub_add_cancel (hle i)]
  · intro k _ _
    simp only [monMultPower]
    rw [if_pos (fun i => by omega), mul_assoc, ← Finset.prod_mul_distrib]
    congr 1
    · congr 1
      funext i
      omega
    · exact Finset.prod_congr rfl fun i _ => by rw [← pow_add]

/-- C64, Chebyshev basis, with a numpy that accepts lists of slices: `mon_mult2` multiplies by the product of the
`T_(mon i)(x_i)`. -/
theorem C64_cheb_partial [NeZero (2 : K)] (M : Tensor n K) (hM : M.Nonempty) (mon : Fin n → ℕ) :
    ∃ R, monMultCheb true M mon = some R ∧ (∀ i, R.shape i = M.shape i + mon i) ∧
      ∀ x, R.eval x = M.eval x * ∏ i, chebT (mon i) (x i) := by
  obtain ⟨R, hR, hs, he⟩ := monMultFold_spec mon (List.finRange n) (List.nodup_finRange n) M hM
  refine ⟨R, hR, fun i => by rw [hs i, if_pos (List.mem_finRange i)], fun x => ?_⟩
  rw [he x, ← List.ofFn_eq_map, List.prod_ofFn]

/-- C64 is false with the numpy of `requirements.txt`: for every monomial but `1` the function raises `IndexError`. -/
theorem C64_cheb_false (M : Tensor n K) (mon : Fin n → ℕ) (h : ∃ i, mon i ≠ 0) : monMultCheb false M mon = none := by
  have key : ∀ (l : List (Fin n)) (M : Tensor n K), (∃ i ∈ l, mon i ≠ 0) →
      l.foldlM (fun M d => monMult1 false M d (mon d)) M = none := by
    intro l
    induction l with
    | nil => rintro M ⟨i, hi, -⟩; simp at hi
    | cons d l ih =>
      rintro M ⟨i, hi, hne⟩
      rw [List.foldlM_cons]
      by_cases hd : mon d = 0
      · have hil : i ∈ l := by
          rcases List.mem_cons.1 hi with e | e
          · rw [e] at hne; exact absurd hd hne
          · exact e
        cases hc : monMult1 false M d (mon d) with
        | none => rfl
        | some R => exact ih R ⟨i, hil, hne⟩
      · have : monMult1 false M d (mon d) = none := by
          simp [monMult1, monMultRows, foldIn, hd]
        rw [this]
        rfl
  obtain ⟨i, hi⟩ := h
  exact key _ M ⟨i, List.mem_finRange i, hi⟩

/-- `(1 + 2 T₁(x)) · T₁(x) T₂(y)` in two variables. -/
example : ∃ R, monMultCheb true (⟨![2, 1], fun k => k 0 + 1⟩ : Tensor 2 ℚ) ![1, 2] = some R ∧ R.shape 0 = 3 ∧ R.shape 1 = 3 ∧
    ∀ x, R.eval x = (1 + 2 * x 0) * (x 0 * (2 * x 1 ^ 2 - 1)) := by
  obtain ⟨R, h1, h2, h3⟩ := C64_cheb_partial (⟨![2, 1], fun k => k 0 + 1⟩ : Tensor 2 ℚ)
    (fun i => by fin_cases i <;> simp) ![1, 2]
  refine ⟨R, h1, h2 0, h2 1, fun x => ?_⟩
  rw [h3 x, Fin.prod_univ_two]
  have : (⟨![2, 1], fun k => k 0 + 1⟩ : Tensor 2 ℚ).eval x = 1 + 2 * x 0 := by
    rw [eval_axis _ 0]
    have hr : restIdx (![2, 1] : Fin 2 → ℕ) 0 = {![0, 0]} := by decide
    have hu : (univ : Finset (Fin 2)).erase 0 = {1} := by decide
    simp only [rowL_apply, hr, hu, Finset.sum_singleton, Finset.prod_singleton, Tensor.rows]
    simp [Finset.sum_range_succ]
    ring
  rw [this]
  simp [chebT_two]

/-- Instance of `C64_power`: `(1 + 2 x) x y^2`. -/
example (x : Fin 2 → ℚ) : (monMultPower (⟨![2, 1], fun k => k 0 + 1⟩ : Tensor 2 ℚ) ![1, 2]).evalPow x = (1 + 2 * x 0) * (x 0 * x 1 ^ 2) := by
  rw [C64_power, Fin.prod_univ_two]
  have : (⟨![2, 1], fun k => k 0 + 1⟩ : Tensor 2 ℚ).evalPow x = 1 + 2 * x 0 := by
    unfold Tensor.evalPow Tensor.idx
    have hi : (Fintype.piFinset fun i => Finset.range ((![2, 1] : Fin 2 → ℕ) i)) = {![0, 0], ![1, 0]} := by decide
    simp only [hi]
    rw [Finset.sum_pair (by decide)]
    simp [Fin.prod_univ_two]
    norm_num
  rw [this]
  simp

end YRoots.Legacy
