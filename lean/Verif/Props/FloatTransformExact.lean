import Verif.Proofs.FloatTransformRun

/-!
# Property C109: rounding errors of the re-expansion with `exact=True`

Specification: the value of the array returned is compared with the exact value `M.eval` at the transformed point; `fl` is any rounding to nearest
with 53 digits.
-/

namespace YRoots

open Finset

/-- The claim of C109 for one array and one axis: whatever subinterval of `[-1, 1]` with representable midpoint and half length is the target,
`getTransformationError` bounds the error of the rounded computation with `exact=True` on the whole cube. -/
def RoundedErrorClaimExact {n : ℕ} {K : Type*} [Field K] [LinearOrder K] (fl : K → K) (M : Tensor n K) (d : Fin n) : Prop :=
  ∀ α β : K, IsFloat 53 α → IsFloat 53 β → (∀ t : K, |t| ≤ 1 → |α * t + β| ≤ 1) → ∀ x : Fin n → K, InCube x →
    |M.eval (Function.update x d (α * x d + β)) - (transformNDEF fl M d α β).eval x| ≤ getTransformationError M d

section ND

variable {n : ℕ} {fl : ℝ → ℝ}

theorem transformAxisEF_bound (M : Tensor n ℝ) (d : Fin n) (α β : ℝ) {x : Fin n → ℝ} (hx : InCube x) {C : ℝ}
    (h : ∀ k, |∑ c ∈ range (M.shape d), chebT c (α * x d + β) * M.rows d c k -
      ∑ i ∈ range (transform1DErrorFreeF fl (M.rows d) (M.shape d) α β).2, chebT i (x d) * (transform1DErrorFreeF fl (M.rows d) (M.shape d) α β).1 i k|
        ≤ C * ∑ c ∈ range (M.shape d), |M.rows d c k|) :
    |M.eval (Function.update x d (α * x d + β)) - (transformAxisEF fl M d α β).eval x| ≤ C * M.absSum := by
  rw [transformAxisEF, ofRows_eval, eval_axis M d]
  generalize transform1DErrorFreeF fl (M.rows d) (M.shape d) α β = r at *
  simp only [rowL_update, Function.update_self, rowL_apply]
  have e1 : ∑ j ∈ range (M.shape d), chebT j (α * x d + β) * ∑ k ∈ restIdx M.shape d, M.rows d j k * ∏ i ∈ univ.erase d, chebT (k i) (x i) =
      ∑ k ∈ restIdx M.shape d, (∑ c ∈ range (M.shape d), chebT c (α * x d + β) * M.rows d c k) * ∏ i ∈ univ.erase d, chebT (k i) (x i) := by
    simp only [mul_sum, sum_mul]
    rw [sum_comm]
    refine sum_congr rfl fun k _ => sum_congr rfl fun c _ => by ring
  have e2 : ∀ k, outEval r.2 r.1 (x d) k = ∑ i ∈ range r.2, chebT i (x d) * r.1 i k := by
    intro k
    unfold outEval
    rw [Finset.sum_apply]
    rfl
  rw [e1, ← sum_sub_distrib]
  have e3 : M.absSum = ∑ k ∈ restIdx M.shape d, ∑ c ∈ range (M.shape d), |M.rows d c k| := by
    unfold Tensor.absSum Tensor.idx
    rw [sum_piFinset_axis _ d, sum_comm]
    rfl
  rw [e3, mul_sum]
  refine (abs_sum_le_sum_abs _ _).trans (sum_le_sum fun k _ => ?_)
  rw [← sub_mul, abs_mul, e2, abs_prod]
  refine (mul_le_of_le_one_right (abs_nonneg _) ?_).trans (h k)
  exact prod_le_one (fun _ _ => abs_nonneg _) fun i _ => abs_chebT_le_one _ (hx i)

theorem transformNDEF_cases (M : Tensor n ℝ) (d : Fin n) (α β : ℝ) :
    (transformNDEF fl M d α β = M ∧ ((α = 1 ∧ β = 0) ∨ M.shape d = 1)) ∨
    (M.shape d ≠ 1 ∧ ∃ (σ : Equiv.Perm (Fin n)) (z : Fin n), σ z = d ∧
      transformNDEF fl M d α β = (transformAxisEF fl (M.transpose σ) z α β).transpose σ.symm) := by
  unfold transformNDEF
  split
  · left; exact ⟨rfl, by assumption⟩
  · rename_i h
    right
    rw [not_or] at h
    refine ⟨h.2, ?_⟩
    split
    · exact ⟨Equiv.refl _, d, rfl, rfl⟩
    · exact ⟨moveAxisOrder d, ⟨0, d.pos⟩, moveAxisOrder_zero d, rfl⟩

/-- From fibres to arrays; the fibres may use that no row is dropped if that is known of the array. -/
theorem transformNDEF_bound (M : Tensor n ℝ) (d : Fin n) (hN : 0 < M.shape d) (α β : ℝ) {x : Fin n → ℝ} (hx : InCube x) {C : ℝ} (hC : 0 ≤ C)
    (h : 2 ≤ M.shape d → ∀ coeffs : ℕ → (Fin n → ℕ) → ℝ,
      ((transformNDEF fl M d α β).shape d = M.shape d → (transform1DErrorFreeF fl coeffs (M.shape d) α β).2 = M.shape d) →
      ∀ k, |∑ c ∈ range (M.shape d), chebT c (α * x d + β) * coeffs c k -
      ∑ i ∈ range (transform1DErrorFreeF fl coeffs (M.shape d) α β).2, chebT i (x d) * (transform1DErrorFreeF fl coeffs (M.shape d) α β).1 i k|
        ≤ C * ∑ c ∈ range (M.shape d), |coeffs c k|) :
    |M.eval (Function.update x d (α * x d + β)) - (transformNDEF fl M d α β).eval x| ≤ C * M.absSum := by
  have hS : 0 ≤ M.absSum := Finset.sum_nonneg fun _ _ => abs_nonneg _
  rcases transformNDEF_cases (fl := fl) M d α β with ⟨h0, h1 | h1⟩ | ⟨hne, σ, z, hz, h0⟩
  · rw [h0, h1.1, h1.2]; simpa using mul_nonneg hC hS
  · have : M.eval (Function.update x d (α * x d + β)) = M.eval x := by
      rw [eval_axis M d, eval_axis M d, h1]; simp [rowL_update]
    rw [h0, this, sub_self, abs_zero]; exact mul_nonneg hC hS
  · have h1 : (M.transpose σ).shape z = M.shape d := by simp [Tensor.transpose, hz]
    have hrow : (transformNDEF fl M d α β).shape d = (transform1DErrorFreeF fl ((M.transpose σ).rows z) (M.shape d) α β).2 := by
      have hσ : σ.symm d = z := by rw [← hz, Equiv.symm_apply_apply]
      rw [h0]
      show (transformAxisEF fl (M.transpose σ) z α β).shape (σ.symm d) = _
      rw [hσ, transformAxisEF, h1]
      simp [Tensor.ofRows]
    rw [h0, transpose_eval, Equiv.symm_symm]
    have hb := transformAxisEF_bound (fl := fl) (M.transpose σ) z α β (x := fun i => x (σ i)) (fun i => hx _) (C := C) (by
      intro k
      rw [h1, hz]
      exact h (by omega) _ (fun hs => by rw [← hrow]; exact hs) k)
    rw [transpose_eval, update_comp_perm, transpose_absSum, hz] at hb
    exact hb

end ND

section Bound

variable {n : ℕ} {fl : ℝ → ℝ} (hfl : RoundsToNearest 53 fl)

/-- A sharper form of `pow_u_le`. -/
theorem pow_u_le_sharp {u : ℝ} (hu : u = 1 / 2 ^ 53) (k : ℕ) (hk : k ≤ 2 ^ 11) : (1 + u) ^ k ≤ 1 + 1001 / 1000 * k * u := by
  have hu0 : 0 ≤ u := by rw [hu]; norm_num
  have h6 : (2 : ℝ) ^ 11 * u ≤ 1 / 2000 := by rw [hu]; norm_num
  clear hu
  induction k with
  | zero => simp
  | succ k ih =>
    have h1 := ih (by omega)
    have h2 : (k : ℝ) ≤ 2 ^ 11 := by exact_mod_cast (by omega : k ≤ 2 ^ 11)
    have h3 : (1 + u) ^ k * (1 + u) ≤ (1 + 1001 / 1000 * k * u) * (1 + u) := mul_le_mul_of_nonneg_right h1 (by linarith)
    rw [pow_succ]
    push_cast
    refine h3.trans ?_
    have h4 : (k : ℝ) * u ≤ 1 / 2000 := (mul_le_mul_of_nonneg_right h2 hu0).trans h6
    have h5 : (k : ℝ) * u * u ≤ 1 / 2000 * u := mul_le_mul_of_nonneg_right h4 hu0
    have e : (1 + 1001 / 1000 * k * u) * (1 + u) = 1 + 1001 / 1000 * (k * u) + u + 1001 / 1000 * (k * u * u) := by ring
    have e2 : 1 + 1001 / 1000 * ((k : ℝ) + 1) * u = 1 + 1001 / 1000 * (k * u) + 1001 / 1000 * u := by ring
    rw [e, e2]
    linarith

/-- The numbers of the bound. -/
theorem exact_numbers {m : ℕ} (hm : m + 2 ≤ 2 ^ 11) {ta κ M P E r : ℝ} (hP : P = √(2 * ((m + 2 : ℕ) : ℝ))) (hta : ta = 6 * (6 * (1 / 2 ^ 53)) * P)
    (hM : M = (m : ℝ) * (m + 1) / 2) (hκ : κ = (1 + 1 / 2 ^ 53) ^ 10 - 1) (hE : E = κ * ta * (6 * P * M + 1) * M) (hr : r = √((m + 2 : ℕ) : ℝ)) :
    ta * M ≤ 1 ∧ κ * (6 * P * M + 1) ≤ 1 ∧ E + ((1 + 1 / 2 ^ 53) ^ (m + 2) - 1) * (P * (1 + E)) ≤ r * (((m + 2 : ℕ) : ℝ) * (1 / 2 ^ 52)) := by
  have hm0 : (0 : ℝ) ≤ m := Nat.cast_nonneg m
  have hr2 : r ^ 2 = m + 2 := by rw [hr, Real.sq_sqrt (by positivity)]; push_cast; ring
  have hr0 : 0 ≤ r := by rw [hr]; positivity
  have hr1 : 1 ≤ r := by nlinarith
  have hN : (m : ℝ) + 2 ≤ 2 ^ 11 := by exact_mod_cast hm
  have hr46 : r ≤ 46 := by nlinarith
  have hP0 : 0 ≤ P := by rw [hP]; positivity
  have hP2 : P ^ 2 = 2 * r ^ 2 := by rw [hP, Real.sq_sqrt (by positivity), hr2]; push_cast; ring
  have hPr : P ≤ 1415 / 1000 * r := by
    apply (pow_le_pow_iff_left₀ hP0 (by positivity) two_ne_zero).1
    rw [hP2, mul_pow]
    nlinarith [sq_nonneg r]
  have hM0 : 0 ≤ M := by rw [hM]; positivity
  have hMr : M ≤ r ^ 4 / 2 := by
    have : r ^ 4 = (m + 2) ^ 2 := by rw [← hr2]; ring
    rw [hM, this]
    nlinarith
  have hκ0 : 0 ≤ κ := by rw [hκ]; norm_num
  have hκ1 : κ ≤ 11 * (1 / 2 ^ 53) := by rw [hκ]; norm_num
  obtain ⟨u, hu⟩ : ∃ u : ℝ, u = 1 / 2 ^ 53 := ⟨_, rfl⟩
  have hu0 : 0 ≤ u := by rw [hu]; norm_num
  rw [← hu] at hta hκ1
  have hPM : P * M ≤ 71 / 100 * r ^ 5 := by
    calc P * M ≤ 1415 / 1000 * r * (r ^ 4 / 2) := mul_le_mul hPr hMr hM0 (by positivity)
      _ ≤ 71 / 100 * r ^ 5 := by
        have : 0 ≤ r ^ 5 := by positivity
        nlinarith
  have hPM0 : 0 ≤ P * M := by positivity
  have hr5 : 1 ≤ r ^ 5 := one_le_pow₀ hr1
  have hQ : 6 * P * M + 1 ≤ 6 * r ^ 5 := by nlinarith
  have hr7 : u * r ^ 7 ≤ 1 / 20000 := by
    have : r ^ 7 ≤ 46 ^ 7 := pow_le_pow_left₀ hr0 hr46 7
    calc u * r ^ 7 ≤ u * 46 ^ 7 := mul_le_mul_of_nonneg_left this hu0
      _ ≤ 1 / 20000 := by rw [hu]; norm_num
  have hr57 : u * r ^ 5 ≤ u * r ^ 7 := mul_le_mul_of_nonneg_left (pow_le_pow_right₀ hr1 (by norm_num)) hu0
  have g1 : ta * M ≤ 26 * (u * r ^ 5) := by
    have : ta * M = 36 * u * (P * M) := by rw [hta]; ring
    rw [this]
    have := mul_le_mul_of_nonneg_left hPM hu0
    nlinarith
  have g2 : κ * (6 * P * M + 1) ≤ 66 * (u * r ^ 5) := by
    calc κ * (6 * P * M + 1) ≤ 11 * u * (6 * r ^ 5) := mul_le_mul hκ1 hQ (by linarith) (by positivity)
      _ = 66 * (u * r ^ 5) := by ring
  have hta0 : 0 ≤ ta * M := by rw [hta]; positivity
  have gE : E ≤ 1716 * (u * r ^ 5) * (u * r ^ 5) := by
    have : E = (κ * (6 * P * M + 1)) * (ta * M) := by rw [hE]; ring
    rw [this]
    calc _ ≤ 66 * (u * r ^ 5) * (26 * (u * r ^ 5)) := mul_le_mul g2 g1 hta0 (by positivity)
      _ = _ := by ring
  have gE0 : 0 ≤ E := by
    have : E = (κ * (6 * P * M + 1)) * (ta * M) := by rw [hE]; ring
    rw [this]
    exact mul_nonneg (mul_nonneg hκ0 (by linarith)) hta0
  have ur3 : 0 ≤ u * r ^ 3 := by positivity
  have gE2 : E ≤ 9 / 100 * (u * r ^ 3) := by
    have e : 1716 * (u * r ^ 5) * (u * r ^ 5) = 1716 * (u * r ^ 7) * (u * r ^ 3) := by ring
    rw [e] at gE
    have : 1716 * (u * r ^ 7) ≤ 9 / 100 := by linarith
    exact gE.trans (mul_le_mul_of_nonneg_right this ur3)
  refine ⟨by linarith, by linarith, ?_⟩
  have ur31 : u * r ^ 3 ≤ 1 := by
    have : u * r ^ 3 ≤ u * r ^ 7 := mul_le_mul_of_nonneg_left (pow_le_pow_right₀ hr1 (by norm_num)) hu0
    linarith
  have gE1 : E ≤ 1 / 10000 := by
    have : 1716 * (u * r ^ 5) * (u * r ^ 5) ≤ 1716 * (1 / 20000) * (1 / 20000) := by
      apply mul_le_mul <;> first | positivity | linarith
    linarith [show (1716 : ℝ) * (1 / 20000) * (1 / 20000) ≤ 1 / 10000 by norm_num]
  have hp := pow_u_le_sharp hu (m + 2) hm
  rw [← hu]
  have hpu : (1 + u) ^ (m + 2) - 1 ≤ 1001 / 1000 * (u * r ^ 2) := by
    push_cast at hp
    rw [hr2]
    linarith
  have hp0 : 0 ≤ (1 + u) ^ (m + 2) - 1 := by linarith [one_le_pow_u hu0 (m + 2)]
  have hPE : P * (1 + E) ≤ 1416 / 1000 * r := by
    have : P * (1 + E) ≤ 1415 / 1000 * r * (1 + 1 / 10000) := mul_le_mul hPr (by linarith) (by linarith) (by positivity)
    nlinarith
  have hlast : ((1 + u) ^ (m + 2) - 1) * (P * (1 + E)) ≤ 142 / 100 * (u * r ^ 3) := by
    calc _ ≤ 1001 / 1000 * (u * r ^ 2) * (1416 / 1000 * r) := mul_le_mul hpu hPE (by positivity) (by positivity)
      _ = 1001 / 1000 * (1416 / 1000) * (u * r ^ 3) := by ring
      _ ≤ 142 / 100 * (u * r ^ 3) := mul_le_mul_of_nonneg_right (by norm_num) ur3
  have hfin : r * (((m + 2 : ℕ) : ℝ) * (1 / 2 ^ 52)) = 2 * (u * r ^ 3) := by
    have h1 : ((m + 2 : ℕ) : ℝ) = r ^ 2 := by rw [hr2]; push_cast; ring
    have h2 : (1 / 2 ^ 52 : ℝ) = 2 * u := by rw [hu]; norm_num
    rw [h1, h2]; ring
  rw [hfin]
  linarith

include hfl

/-- Columns and output of a run without dropped rows. -/
theorem run_without_drop {ι : Type*} (coeffs : ℕ → ι → ℝ) {α β : ℝ} (hα : IsFloat 53 α) (hβ : IsFloat 53 β) (m : ℕ)
    (hrow : (transform1DErrorFreeF fl coeffs (m + 2) α β).2 = m + 2) :
    ∃ (a e : ℕ → ℕ → ℝ) (o : ℕ → ℕ → ι → ℝ), ESeq fl coeffs α β m a e o ∧ o m = (transform1DErrorFreeF fl coeffs (m + 2) α β).1 := by
  unfold transform1DErrorFreeF at hrow ⊢
  simp only [Nat.add_sub_cancel] at hrow ⊢
  by_cases h : α = 1 / 2 ∧ |β| = 1 / 2
  · rw [if_pos h] at hrow ⊢
    have hβ2 : β = 1 / 2 ∨ β = -(1 / 2) := (abs_eq (by norm_num)).1 h.2
    have hsg : (npSign β = 1 ∨ npSign β = -1) ∧ npSign β * (1 / 2) = β := by
      rcases hβ2 with rfl | rfl <;> norm_num [npSign]
    obtain ⟨a, e, o, q1, q2, -⟩ := eRunSplit_seq hfl coeffs hsg.1 (fl (1 / 10 ^ 32)) m hrow
    rw [hsg.2, ← h.1] at q1
    exact ⟨a, e, o, q1, q2⟩
  · rw [if_neg h] at hrow ⊢
    obtain ⟨a, e, o, q1, q2, -⟩ := eRun_seq hfl coeffs hα hβ (fl (1 / 10 ^ 32)) m hrow
    exact ⟨a, e, o, q1, q2⟩

/-- **C109, part.** For axes of at most 2048 entries on which no row is dropped, the error of the rounded computation with `exact=True` is at most
`√N` times the value of `getTransformationError`, where `N` is the number of entries. -/
theorem C109_bound_partial (M : Tensor n ℝ) (d : Fin n) (h0 : 0 < M.shape d) (hN : M.shape d ≤ 2 ^ 11) (α β : ℝ) (hα : IsFloat 53 α) (hβ : IsFloat 53 β)
    (hαβ : ∀ t : ℝ, |t| ≤ 1 → |α * t + β| ≤ 1) (hrow : (transformNDEF fl M d α β).shape d = M.shape d) (x : Fin n → ℝ) (hx : InCube x) :
    |M.eval (Function.update x d (α * x d + β)) - (transformNDEF fl M d α β).eval x| ≤ √(M.shape d : ℝ) * getTransformationError M d := by
  have hs := abs_add_abs_le_one hαβ
  have hb := transformNDEF_bound (fl := fl) M d h0 α β hx (C := √(M.shape d : ℝ) * ((M.shape d : ℝ) * (1 / 2 ^ 52))) (by positivity) (by
    intro h2 coeffs hr k
    have hr := hr hrow
    obtain ⟨m, hm⟩ : ∃ m, M.shape d = m + 2 := ⟨M.shape d - 2, by omega⟩
    rw [hm] at hN hr ⊢
    obtain ⟨a, e, o, q1, q2⟩ := run_without_drop hfl coeffs hα hβ m hr
    rw [hr, ← q2]
    obtain ⟨g1, g2, g3⟩ := exact_numbers hN rfl rfl rfl rfl rfl rfl
    obtain ⟨c1, c2⟩ := q1.cols hs rfl rfl rfl rfl rfl g1 g2
    refine (fibre_error_gen (N := m + 2) (R := m + 2) coeffs (o m) (fun c i => a c i + e c i) k (hx d) (u := 1 / 2 ^ 53) (by norm_num)
      (fun i => q1.out_near hfl m le_rfl i k) (fun c hc => c2 c (by omega)) (fun c hc => c1 c (by omega) (x d) (hx d))).trans ?_
    exact mul_le_mul_of_nonneg_right g3 (sum_nonneg fun _ _ => abs_nonneg _))
  refine hb.trans (le_of_eq ?_)
  unfold getTransformationError macheps
  ring

/-- With halves no row of at most 100 is dropped. -/
theorem halves_rows {ι : Type*} (coeffs : ℕ → ι → ℝ) {β : ℝ} (hβ : |β| = 1 / 2) {N : ℕ} (h2 : 2 ≤ N) (hN : N ≤ 100) :
    (transform1DErrorFreeF fl coeffs N (1 / 2) β).2 = N := by
  obtain ⟨m, rfl⟩ : ∃ m, N = m + 2 := ⟨N - 2, by omega⟩
  unfold transform1DErrorFreeF
  simp only [Nat.add_sub_cancel]
  rw [if_pos ⟨trivial, hβ⟩]
  exact eRunSplit_rows hfl coeffs m hN

/-- **C109, part.** On the two halves of an interval (`alpha = 0.5`, `beta = ±0.5`: the subdivision into equal parts) no row is dropped for axes of
at most 100 entries, so the bound holds without further condition. -/
theorem C109_halves_partial (M : Tensor n ℝ) (d : Fin n) (h0 : 0 < M.shape d) (hN : M.shape d ≤ 100) (β : ℝ) (hβ : |β| = 1 / 2)
    (x : Fin n → ℝ) (hx : InCube x) :
    (transformNDEF fl M d (1 / 2) β).shape d = M.shape d ∧
    |M.eval (Function.update x d (1 / 2 * x d + β)) - (transformNDEF fl M d (1 / 2) β).eval x| ≤ √(M.shape d : ℝ) * getTransformationError M d := by
  have f1 : IsFloat 53 (1 : ℝ) := by simpa using isFloat_zp (K := ℝ) (p := 53) (by norm_num) 0
  have fh : IsFloat 53 (1 / 2 : ℝ) := isFloat_half f1
  have fb : IsFloat 53 β := by
    rcases (abs_eq (by norm_num)).1 hβ with rfl | rfl
    · exact fh
    · exact fh.neg
  have hrow : (transformNDEF fl M d (1 / 2) β).shape d = M.shape d := by
    rcases transformNDEF_cases (fl := fl) M d (1 / 2) β with ⟨q, -⟩ | ⟨hne, σ, z, hz, q⟩
    · rw [q]
    · have h1 : (M.transpose σ).shape z = M.shape d := by simp [Tensor.transpose, hz]
      have hσ : σ.symm d = z := by rw [← hz, Equiv.symm_apply_apply]
      rw [q]
      show (transformAxisEF fl (M.transpose σ) z (1 / 2) β).shape (σ.symm d) = _
      rw [hσ, transformAxisEF, h1]
      simp only [Tensor.ofRows, Function.update_self]
      exact halves_rows hfl _ hβ (by omega) hN
  refine ⟨hrow, C109_bound_partial hfl M d h0 (by omega) (1 / 2) β fh fb ?_ hrow x hx⟩
  intro t ht
  have := abs_affine_le (α := 1 / 2) (β := β) (by rw [hβ]; norm_num) ht
  exact this

/-- **C109, part.** For axes with at most two entries (affine in that variable) the claim holds. -/
theorem C109_two_partial (M : Tensor n ℝ) (d : Fin n) (h0 : 0 < M.shape d) (hN : M.shape d ≤ 2) : RoundedErrorClaimExact fl M d := by
  intro α β hα hβ hαβ x hx
  have hs := abs_add_abs_le_one hαβ
  have hS : 0 ≤ M.absSum := Finset.sum_nonneg fun _ _ => abs_nonneg _
  have hC : (0 : ℝ) ≤ if M.shape d = 2 then (1 + 1 / 2 ^ 53) ^ 2 - 1 else 0 := by
    split <;> norm_num
  refine (transformNDEF_bound M d h0 α β hx hC ?_).trans ?_
  · intro h2 coeffs _ k
    have hsh : M.shape d = 2 := by omega
    rw [if_pos hsh, hsh]
    have hr : (transform1DErrorFreeF fl coeffs (0 + 2) α β).2 = 0 + 2 := by
      unfold transform1DErrorFreeF
      simp only [Nat.add_sub_cancel, List.range'_zero, List.foldl_nil]
      split <;> rfl
    obtain ⟨a, e, o, q1, q2⟩ := run_without_drop hfl coeffs hα hβ 0 hr
    rw [zero_add] at q2 hr
    rw [hr, ← q2]
    have := fibre_error_gen (N := 2) (R := 2) coeffs (o 0) (fun c i => a c i + e c i) k (y := α * x d + β) (hx d) (u := 1 / 2 ^ 53) (by norm_num)
      (fun i => q1.out_near hfl 0 le_rfl i k) (A := 1) (E := 0) (by
        intro c hc
        rcases (by omega : c = 0 ∨ c = 1) with rfl | rfl
        · simp [q1.a0, q1.e0, sum_range_succ]
        · simp only [q1.a1, q1.e1, sum_range_succ, range_zero, sum_empty]
          simpa [add_comm] using hs) (by
        intro c hc
        rcases (by omega : c = 0 ∨ c = 1) with rfl | rfl
        · simp [q1.a0, q1.e0, colEval, sum_range_succ]
        · simp [q1.a1, q1.e1, colEval, sum_range_succ]
          rw [add_comm, sub_self])
    rw [zero_add, mul_one] at this
    exact this
  · unfold getTransformationError macheps
    apply mul_le_mul_of_nonneg_right _ hS
    rcases (by omega : M.shape d = 1 ∨ M.shape d = 2) with h | h <;> norm_num [h]

end Bound

/-- The hypotheses are met: `T_5` re-expanded on the upper half of the interval. -/
example (fl : ℝ → ℝ) (hfl : RoundsToNearest 53 fl) :
    |(⟨fun _ => 6, fun k => if k 0 = 5 then 1 else 0⟩ : Tensor 1 ℝ).eval (Function.update (fun _ => 1) 0 (1 / 2 * 1 + 1 / 2)) -
      (transformNDEF fl ⟨fun _ => 6, fun k => if k 0 = 5 then 1 else 0⟩ (0 : Fin 1) (1 / 2) (1 / 2)).eval (fun _ => 1)| ≤
      √((6 : ℕ) : ℝ) * getTransformationError ⟨fun _ => 6, fun k => if k 0 = 5 then 1 else 0⟩ (0 : Fin 1) :=
  (C109_halves_partial hfl ⟨fun _ => 6, fun k => if k 0 = 5 then 1 else 0⟩ 0 (by norm_num) (by norm_num) (1 / 2) (by norm_num)
    (fun _ => 1) (fun _ => by simp)).2

/-- An affine array: `1 + 3 x`. -/
example (fl : ℝ → ℝ) (hfl : RoundsToNearest 53 fl) : RoundedErrorClaimExact fl (⟨fun _ => 2, fun k => 1 + 2 * k 0⟩ : Tensor 1 ℝ) 0 :=
  C109_two_partial hfl _ 0 (by norm_num) le_rfl

/-- No row is dropped in the computation of `T_5` on `[1 - 2 α, 1]` in binary64 (general variant), and the result differs from the one with
`exact=False`. -/
example : (transform1DErrorFreeF (roundFloat 53) (exT5.rows 0) 6 exAlpha (1 - exAlpha)).2 = 6 ∧
    (transform1DErrorFreeF (roundFloat 53) (exT5.rows 0) 6 exAlpha (1 - exAlpha)).1 0 0 ≠ (transform1DF (roundFloat 53) (exT5.rows 0) 6 exAlpha (1 - exAlpha)).1 0 0 := by
  decide +kernel

end YRoots
