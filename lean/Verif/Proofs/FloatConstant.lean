import Verif.Proofs.FloatBounding
import Verif.Proofs.Trim
import Verif.Model.FloatTrim

/-!
# The constant check and the trimming with rounding
-/

namespace YRoots

open Finset

section Rnd

variable {n : ℕ} {K : Type*} [Field K] [LinearOrder K] [IsStrictOrderedRing K] [FloorRing K] {p : ℕ} {fl : K → K} (hfl : RoundsToNearest p fl)

include hfl

theorem SumTree.val_float (t : SumTree K) (h : ∀ x ∈ t.leaves, IsFloat p x) : IsFloat p (t.val fl) := by
  cases t with
  | leaf x => exact h x (by simp [leaves])
  | node a b => exact hfl.isFloat _

/-- A rounded sum of nonnegative numbers is at least each of them. -/
theorem SumTree.le_val (t : SumTree K) (h0 : ∀ x ∈ t.leaves, 0 ≤ x) (h : ∀ x ∈ t.leaves, IsFloat p x) :
    0 ≤ t.val fl ∧ ∀ x ∈ t.leaves, x ≤ t.val fl := by
  induction t with
  | leaf x => exact ⟨h0 x (by simp [leaves]), fun y hy => by simp only [leaves, List.mem_singleton] at hy; exact hy.le⟩
  | node a b iha ihb =>
    have ha : ∀ x ∈ a.leaves, IsFloat p x := fun x hx => h x (by simp [leaves, hx])
    have hb : ∀ x ∈ b.leaves, IsFloat p x := fun x hx => h x (by simp [leaves, hx])
    obtain ⟨a1, a2⟩ := iha (fun x hx => h0 x (by simp [leaves, hx])) ha
    obtain ⟨b1, b2⟩ := ihb (fun x hx => h0 x (by simp [leaves, hx])) hb
    have ea : a.val fl ≤ fl (a.val fl + b.val fl) := by
      conv_lhs => rw [← fl_eq hfl (a.val_float hfl ha)]
      exact fl_mono hfl (by linarith)
    have eb : b.val fl ≤ fl (a.val fl + b.val fl) := by
      conv_lhs => rw [← fl_eq hfl (b.val_float hfl hb)]
      exact fl_mono hfl (by linarith)
    refine ⟨a1.trans ea, fun x hx => ?_⟩
    simp only [leaves, List.mem_append] at hx
    rcases hx with hx | hx
    · exact (a2 x hx).trans ea
    · exact (b2 x hx).trans eb

omit [LinearOrder K] [IsStrictOrderedRing K] [FloorRing K] hfl in
theorem isFloat_ravel {M : Tensor n K} (hM : M.Nonempty) (h : ∀ k ∈ M.idx, IsFloat p (M.coef k)) (q : ℕ) : IsFloat p (M.ravel q) := by
  apply h
  unfold Tensor.idx
  rw [Fintype.mem_piFinset]
  intro i
  exact mem_range.2 (Nat.mod_lt _ (hM i))

omit hfl in
/-- `np.sum(np.abs(M))` is at least `|M.ravel()[0]|` and loses little of the exact sum. -/
theorem sum_absList {ar : FloatArith K} (hfl : RoundsToNearest p ar.fl) (hp : 1 ≤ p) (hs : ar.Sums) (M : Tensor n K) (hM : M.Nonempty)
    (hFl : ∀ k ∈ M.idx, IsFloat p (M.coef k)) :
    |M.const| ≤ ar.sum M.absList ∧ (1 - 1 / 2 ^ p) ^ (∏ i, M.shape i) * M.absSum ≤ ar.sum M.absList := by
  have hpos : 0 < ∏ i, M.shape i := prod_pos fun i _ => hM i
  have hlen : M.absList.length = ∏ i, M.shape i := by simp [Tensor.absList]
  have hne : M.absList ≠ [] := by
    intro h
    rw [h] at hlen
    simp at hlen
    omega
  obtain ⟨t, ht, hv⟩ := hs.tree _ hne
  have h0 : ∀ x ∈ t.leaves, 0 ≤ x := by
    intro x hx
    have := ht.mem_iff.1 hx
    simp only [Tensor.absList, List.mem_map] at this
    obtain ⟨q, -, rfl⟩ := this
    exact abs_nonneg _
  refine ⟨?_, ?_⟩
  · have hf : ∀ x ∈ t.leaves, IsFloat p x := by
      intro x hx
      have := ht.mem_iff.1 hx
      simp only [Tensor.absList, List.mem_map, List.mem_range] at this
      obtain ⟨q, hq, rfl⟩ := this
      exact (isFloat_ravel hM hFl q).abs
    rw [← hv]
    refine (t.le_val hfl h0 hf).2 _ (ht.mem_iff.2 ?_)
    simp only [Tensor.absList, List.mem_map, List.mem_range]
    exact ⟨0, hpos, by rw [ravel_zero]⟩
  · obtain ⟨g1, -⟩ := t.val_ge hfl hp h0
    rw [ht.length_eq, ht.sum_eq, hlen, absList_sum M hM] at g1
    rw [← hv]
    exact g1

/-! ### Trimming -/

omit [IsStrictOrderedRing K] [FloorRing K] hfl in
theorem lastSlice_absSum (M : Tensor n K) (d : Fin n) (hd : 0 < M.shape d) : (M.lastSlice d).absSum = M.lastSum d := by
  unfold Tensor.absSum Tensor.lastSum
  refine sum_bij' (fun k _ => Function.update k d (M.shape d - 1)) (fun k _ => Function.update k d 0) ?_ ?_ ?_ ?_ ?_
  · intro k hk
    simp only [Tensor.idx, Tensor.lastSlice, Fintype.mem_piFinset, mem_range, mem_filter, Function.update_self, and_true] at hk ⊢
    intro i
    by_cases hi : i = d
    · subst hi
      rw [Function.update_self]
      omega
    · have := hk i
      rw [Function.update_of_ne hi] at this ⊢
      exact this
  · intro k hk
    simp only [Tensor.idx, Tensor.lastSlice, Fintype.mem_piFinset, mem_range, mem_filter] at hk ⊢
    intro i
    by_cases hi : i = d
    · subst hi
      rw [Function.update_self, Function.update_self]
      omega
    · rw [Function.update_of_ne hi, Function.update_of_ne hi]
      exact hk.1 i
  · intro k hk
    simp only [Tensor.idx, Tensor.lastSlice, Fintype.mem_piFinset, mem_range] at hk
    have := hk d
    rw [Function.update_self] at this
    rw [Function.update_idem]
    have h0 : k d = 0 := by omega
    rw [← h0, Function.update_eq_self]
  · intro k hk
    simp only [mem_filter] at hk
    rw [Function.update_idem, ← hk.2, Function.update_eq_self]
  · intro k _
    rfl

end Rnd

section TrimF

variable {n : ℕ} {K : Type*} [Field K] [LinearOrder K] [IsStrictOrderedRing K]

/-- What a trimming with rounding does; `m` bounds the number of coefficients and `k` the number of rows removed. -/
structure TrimmedF (u : K) (m k : ℕ) (s s' : TrimState n K) : Prop where
  coef : s'.M.coef = s.M.coef
  shape_le : ∀ j, s'.M.shape j ≤ s.M.shape j
  three : ∀ j, s'.M.shape j = s.M.shape j ∨ 3 ≤ s'.M.shape j
  count : ∑ j, s'.M.shape j + k ≤ ∑ j, s.M.shape j
  err_nonneg : 0 ≤ s'.err
  allowed_nonneg : 0 ≤ s'.allowed
  bound : ∀ R : K, 0 ≤ R → ∀ l : ℕ, (1 - u) ^ (l + m) * R ≤ s.err → ∀ x, InCube x →
    (1 - u) ^ (l + k + m) * (R + |s.M.eval x - s'.M.eval x|) ≤ s'.err
  budget : s'.err + s'.allowed ≤ (1 + u) ^ k * (s.err + s.allowed)

theorem TrimmedF.refl {u : K} {m : ℕ} (hu0 : 0 ≤ u) (hu1 : u ≤ 1) {s : TrimState n K} (he : 0 ≤ s.err) (ha : 0 ≤ s.allowed) : TrimmedF u m 0 s s where
  coef := rfl
  shape_le _ := le_rfl
  three _ := Or.inl rfl
  count := le_rfl
  err_nonneg := he
  allowed_nonneg := ha
  bound R _ l h x _ := by simpa using h
  budget := by simp

theorem TrimmedF.trans {u : K} {m k k' : ℕ} (hu0 : 0 ≤ u) (hu1 : u ≤ 1) {s t r : TrimState n K} (h : TrimmedF u m k s t) (h' : TrimmedF u m k' t r) :
    TrimmedF u m (k + k') s r where
  coef := h'.coef.trans h.coef
  shape_le j := (h'.shape_le j).trans (h.shape_le j)
  three j := by
    rcases h'.three j with e | e
    · rw [e]; exact h.three j
    · exact Or.inr e
  count := by have := h.count; have := h'.count; omega
  err_nonneg := h'.err_nonneg
  allowed_nonneg := h'.allowed_nonneg
  bound R hR l hl x hx := by
    have h1 := h.bound R hR l hl x hx
    have h2 := h'.bound (R + |s.M.eval x - t.M.eval x|) (by positivity) (l + k) h1 x hx
    refine le_trans ?_ h2
    rw [add_assoc l k k']
    apply mul_le_mul_of_nonneg_left _ (pow_nonneg (by linarith) _)
    have := abs_add_le (s.M.eval x - t.M.eval x) (t.M.eval x - r.M.eval x)
    rw [sub_add_sub_cancel] at this
    linarith
  budget := by
    refine h'.budget.trans ?_
    rw [pow_add, mul_comm ((1 + u) ^ k), mul_assoc]
    exact mul_le_mul_of_nonneg_left h.budget (pow_nonneg (by linarith) _)

theorem dropLast_nonempty {M : Tensor n K} (hM : M.Nonempty) (d : Fin n) (h : 3 < M.shape d) : (M.dropLast d).Nonempty := by
  intro i
  simp only [Tensor.dropLast]
  by_cases hi : i = d
  · subst hi
    rw [Function.update_self]
    omega
  · rw [Function.update_of_ne hi]
    exact hM i

theorem dropLast_shape_le (M : Tensor n K) (d j : Fin n) : (M.dropLast d).shape j ≤ M.shape j := by
  simp only [Tensor.dropLast]
  by_cases hi : j = d
  · subst hi
    rw [Function.update_self]
    omega
  · rw [Function.update_of_ne hi]

variable [FloorRing K] {p : ℕ} {ar : FloatArith K} (hfl : RoundsToNearest p ar.fl) (hp : 1 ≤ p) (hs : ar.Sums)

include hfl hp hs

theorem lastSumF_bounds (M : Tensor n K) (hM : M.Nonempty) (hFl : ∀ k ∈ M.idx, IsFloat p (M.coef k)) {m : ℕ} (hm : ∏ i, M.shape i ≤ m) (d : Fin n) :
    0 ≤ lastSumF ar M d ∧ (1 - 1 / 2 ^ p) ^ m * M.lastSum d ≤ lastSumF ar M d := by
  have hne : (M.lastSlice d).Nonempty := by
    intro i
    simp only [Tensor.lastSlice]
    by_cases hi : i = d
    · subst hi
      rw [Function.update_self]
      omega
    · rw [Function.update_of_ne hi]
      exact hM i
  have hfl' : ∀ k ∈ (M.lastSlice d).idx, IsFloat p ((M.lastSlice d).coef k) := by
    intro k hk
    apply hFl
    simp only [Tensor.idx, Tensor.lastSlice, Fintype.mem_piFinset, mem_range] at hk ⊢
    intro i
    by_cases hi : i = d
    · subst hi
      rw [Function.update_self]
      have := hM i
      omega
    · have := hk i
      rw [Function.update_of_ne hi] at this ⊢
      exact this
  obtain ⟨h1, h2⟩ := sum_absList hfl hp hs (M.lastSlice d) hne hfl'
  refine ⟨(abs_nonneg _).trans h1, le_trans ?_ h2⟩
  rw [lastSlice_absSum M d (hM d)]
  apply mul_le_mul_of_nonneg_right _ (lastSum_nonneg M d)
  apply pow_le_pow_of_le_one
  · rw [sub_nonneg, div_le_one (by positivity)]
    exact one_le_pow₀ one_le_two
  · have : (0 : K) ≤ 1 / 2 ^ p := by positivity
    linarith
  · refine le_trans (prod_le_prod' fun i _ => ?_) hm
    simp only [Tensor.lastSlice]
    by_cases hi : i = d
    · subst hi
      rw [Function.update_self]
      exact hM i
    · rw [Function.update_of_ne hi]

theorem trimStepF (s : TrimState n K) (hM : s.M.Nonempty) (hFl : ∀ k ∈ s.M.idx, IsFloat p (s.M.coef k)) {m : ℕ} (hm : ∏ i, s.M.shape i ≤ m)
    (he : 0 ≤ s.err) (d : Fin n) (h : lastSumF ar s.M d < s.allowed ∧ 3 < s.M.shape d) :
    TrimmedF (1 / 2 ^ p) m 1 s ⟨s.M.dropLast d, ar.fl (s.allowed - lastSumF ar s.M d), ar.fl (s.err + lastSumF ar s.M d)⟩ := by
  obtain ⟨l0, l1⟩ := lastSumF_bounds hfl hp hs s.M hM hFl hm d
  have hu1 : (0 : K) ≤ 1 - 1 / 2 ^ p := by
    rw [sub_nonneg, div_le_one (by positivity)]
    exact one_le_pow₀ one_le_two
  have hu2 : (1 : K) - 1 / 2 ^ p ≤ 1 := by
    have : (0 : K) ≤ 1 / 2 ^ p := by positivity
    linarith
  have hle : ∀ y : K, 0 ≤ y → ar.fl y ≤ (1 + 1 / 2 ^ p) * y := by
    intro y hy
    have := (abs_le.1 (fl_rel hfl hp y)).2
    rw [abs_of_nonneg hy] at this
    have e : (1 + 1 / 2 ^ p) * y = y + y / 2 ^ p := by ring
    rw [e]
    linarith
  refine ⟨rfl, fun j => dropLast_shape_le _ _ _, fun j => ?_, ?_, fl_nonneg hfl (by linarith), fl_nonneg hfl (by linarith [h.1]), ?_, ?_⟩
  · simp only [Tensor.dropLast]
    by_cases hi : j = d
    · subst hi
      rw [Function.update_self]
      right
      omega
    · rw [Function.update_of_ne hi]
      exact Or.inl rfl
  · simp only [Tensor.dropLast]
    rw [sum_update_of_mem (mem_univ d), ← add_sum_erase univ (fun j => s.M.shape j) (mem_univ d), sdiff_singleton_eq_erase]
    omega
  · intro R hR l hl x hx
    simp only
    have h1 := fl_ge hfl hp (add_nonneg he l0)
    refine le_trans ?_ h1
    have h2 := dropLast_eval_bound s.M d (hM d) hx
    have e : (1 - 1 / 2 ^ p : K) ^ (l + 1 + m) = (1 - 1 / 2 ^ p) * (1 - 1 / 2 ^ p) ^ (l + m) := by
      rw [show l + 1 + m = (l + m) + 1 by omega, pow_succ, mul_comm]
    rw [e, mul_assoc]
    apply mul_le_mul_of_nonneg_left _ hu1
    have h3 : (1 - 1 / 2 ^ p : K) ^ (l + m) * |s.M.eval x - (s.M.dropLast d).eval x| ≤ (1 - 1 / 2 ^ p) ^ m * s.M.lastSum d :=
      mul_le_mul (pow_le_pow_of_le_one hu1 hu2 (by omega)) h2 (abs_nonneg _) (pow_nonneg hu1 _)
    rw [mul_add]
    linarith
  · simp only [pow_one]
    have h1 := hle _ (add_nonneg he l0)
    have h2 := hle _ (sub_nonneg.2 h.1.le)
    have e : (1 + 1 / 2 ^ p) * (s.err + lastSumF ar s.M d) + (1 + 1 / 2 ^ p) * (s.allowed - lastSumF ar s.M d) =
      (1 + 1 / 2 ^ p) * (s.err + s.allowed) := by ring
    linarith

theorem trimAxisF_trimmed {m : ℕ} (d : Fin n) (s : TrimState n K) (hM : s.M.Nonempty) (hFl : ∀ k ∈ s.M.idx, IsFloat p (s.M.coef k))
    (hm : ∏ i, s.M.shape i ≤ m) (he : 0 ≤ s.err) (ha : 0 ≤ s.allowed) : ∃ k, TrimmedF (1 / 2 ^ p) m k s (trimAxisF ar d s) := by
  have hu0 : (0 : K) ≤ 1 / 2 ^ p := by positivity
  have hu1 : (1 : K) / 2 ^ p ≤ 1 := by
    rw [div_le_one (by positivity)]
    exact one_le_pow₀ one_le_two
  obtain ⟨N, hN⟩ : ∃ N, s.M.shape d = N := ⟨_, rfl⟩
  induction N using Nat.strong_induction_on generalizing s with
  | _ N ih =>
    rw [trimAxisF]
    by_cases h : lastSumF ar s.M d < s.allowed ∧ 3 < s.M.shape d
    · rw [dif_pos h]
      have h1 := trimStepF hfl hp hs s hM hFl hm he d h
      obtain ⟨k, hk⟩ := ih (s.M.shape d - 1) (by omega)
        ⟨s.M.dropLast d, ar.fl (s.allowed - lastSumF ar s.M d), ar.fl (s.err + lastSumF ar s.M d)⟩ (dropLast_nonempty hM d h.2)
        (fun k hk => hFl k (by
          simp only [Tensor.idx, Fintype.mem_piFinset, mem_range] at hk ⊢
          exact fun i => lt_of_lt_of_le (hk i) (dropLast_shape_le _ _ _)))
        ((prod_le_prod' fun i _ => dropLast_shape_le _ _ _).trans hm) h1.err_nonneg h1.allowed_nonneg (by simp [Tensor.dropLast])
      exact ⟨1 + k, h1.trans hu0 hu1 hk⟩
    · rw [dif_neg h]
      exact ⟨0, TrimmedF.refl hu0 hu1 he ha⟩

theorem trimFoldF_trimmed {m : ℕ} (l : List (Fin n)) (s : TrimState n K) (hM : s.M.Nonempty) (hFl : ∀ k ∈ s.M.idx, IsFloat p (s.M.coef k))
    (hm : ∏ i, s.M.shape i ≤ m) (he : 0 ≤ s.err) (ha : 0 ≤ s.allowed) :
    ∃ k, TrimmedF (1 / 2 ^ p) m k s (l.foldl (fun s d => trimAxisF ar d s) s) := by
  have hu0 : (0 : K) ≤ 1 / 2 ^ p := by positivity
  have hu1 : (1 : K) / 2 ^ p ≤ 1 := by
    rw [div_le_one (by positivity)]
    exact one_le_pow₀ one_le_two
  induction l generalizing s with
  | nil => exact ⟨0, TrimmedF.refl hu0 hu1 he ha⟩
  | cons d l ih =>
    obtain ⟨k, hk⟩ := trimAxisF_trimmed hfl hp hs d s hM hFl hm he ha
    obtain ⟨k', hk'⟩ := ih (trimAxisF ar d s) (fun i => by
        rcases hk.three i with e | e
        · rw [e]; exact hM i
        · omega)
      (fun q hq => by
        rw [hk.coef]
        apply hFl
        simp only [Tensor.idx, Fintype.mem_piFinset, mem_range] at hq ⊢
        exact fun i => lt_of_lt_of_le (hq i) (hk.shape_le i))
      ((prod_le_prod' fun i _ => hk.shape_le i).trans hm) hk.err_nonneg hk.allowed_nonneg
    exact ⟨k + k', hk.trans hu0 hu1 hk'⟩

end TrimF

end YRoots
