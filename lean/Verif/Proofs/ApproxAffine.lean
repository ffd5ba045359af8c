import Verif.Props.Approx
import Mathlib.Algebra.BigOperators.Ring.Finset

/-!
# The approximator on affine functions
-/

namespace YRoots

open Finset Real

variable {n : ℕ}

/-- In the coordinates of the cube the function is `r + ∑ p i * x i`. -/
def LocAff (f : (Fin n → ℝ) → ℝ) (a b : Fin n → ℝ) (r : ℝ) (p : Fin n → ℝ) : Prop :=
  ∀ x, f (transformPt x a b) = r + ∑ i, p i * x i

/-- Chebyshev coefficients of `r + ∑ p i * x i`. -/
noncomputable def affCoef (r : ℝ) (p : Fin n → ℝ) (m : Fin n → ℕ) : ℝ := (if m = 0 then r else 0) + ∑ i, if m = Pi.single i 1 then p i else 0

theorem single_inj' {i j : Fin n} (h : (Pi.single i 1 : Fin n → ℕ) = Pi.single j 1) : i = j := by
  by_contra hij
  have := congrFun h i
  rw [Pi.single_eq_same, Pi.single_eq_of_ne hij] at this
  omega

theorem affCoef_zero (r : ℝ) (p : Fin n → ℝ) : affCoef r p 0 = r := by
  have : ∀ i : Fin n, ¬ ((0 : Fin n → ℕ) = Pi.single i 1) := fun i h => by
    have := congrFun h i
    rw [Pi.single_eq_same] at this
    simp at this
  simp [affCoef, this]

theorem affCoef_single (r : ℝ) (p : Fin n → ℝ) (i : Fin n) : affCoef r p (Pi.single i 1) = p i := by
  unfold affCoef
  rw [if_neg, zero_add, sum_eq_single i]
  · simp
  · intro j _ hj
    rw [if_neg]
    intro h
    exact hj (single_inj' h).symm
  · simp
  · intro h
    have := congrFun h i
    rw [Pi.single_eq_same] at this
    simp at this

theorem affCoef_other (r : ℝ) (p : Fin n → ℝ) {m : Fin n → ℕ} (h0 : m ≠ 0) (h1 : ∀ i, m ≠ Pi.single i 1) : affCoef r p m = 0 := by
  simp [affCoef, h0, h1]

theorem abs_affCoef (r : ℝ) (p : Fin n → ℝ) (m : Fin n → ℕ) : |affCoef r p m| = affCoef |r| (fun i => |p i|) m := by
  by_cases h0 : m = 0
  · subst h0
    rw [affCoef_zero, affCoef_zero]
  · by_cases h1 : ∃ i, m = Pi.single i 1
    · obtain ⟨i, rfl⟩ := h1
      rw [affCoef_single, affCoef_single]
    · push Not at h1
      rw [affCoef_other r p h0 h1, affCoef_other _ _ h0 h1, abs_zero]

variable {f : (Fin n → ℝ) → ℝ} {a b : Fin n → ℝ} {r : ℝ} {p : Fin n → ℝ}

theorem one_le_bump (N : Fin n → ℕ) (i : Fin n) : 1 ≤ bumpDegs N i := by
  unfold bumpDegs
  split <;> omega

theorem coef_aff (h : LocAff f a b r p) (N : Fin n → ℕ) (k : Fin n → ℕ) (hk : ∀ i, k i ≤ bumpDegs N i) :
    (intervalApproximate f N a b).coeffs.coef k = affCoef r p k := by
  rw [intervalApproximate_coef]
  refine fullCoef_recover (bumpDegs N) (one_le_bump N) (affCoef r p) _ (fun j _ => ?_) k (mem_gridIdx.2 hk)
  have e' : f (gridPt (bumpDegs N) a b j) = r + ∑ i, p i * chebPt (bumpDegs N i) (j i) := h _
  have hz : (0 : Fin n → ℕ) ∈ gridIdx (bumpDegs N) := by rw [mem_gridIdx]; simp
  have hs : ∀ i : Fin n, (Pi.single i 1 : Fin n → ℕ) ∈ gridIdx (bumpDegs N) := by
    intro i
    rw [mem_gridIdx]
    intro l
    by_cases h : l = i
    · subst h; simpa using one_le_bump N l
    · rw [Pi.single_eq_of_ne h]; omega
  rw [e']
  simp only [affCoef, add_mul, sum_add_distrib, ite_mul, zero_mul, sum_mul]
  rw [sum_ite_eq' (gridIdx _) (0 : Fin n → ℕ), if_pos hz, sum_comm]
  have : ∀ i : Fin n, ∑ m ∈ gridIdx (bumpDegs N), (if m = Pi.single i 1 then p i * ∏ l, chebT (m l) (chebPt (bumpDegs N l) (j l)) else 0) =
      p i * chebPt (bumpDegs N i) (j i) := by
    intro i
    rw [sum_ite_eq' (gridIdx _) (Pi.single i 1 : Fin n → ℕ), if_pos (hs i)]
    congr 1
    rw [Finset.prod_eq_single i]
    · rw [Pi.single_eq_same]; exact chebT_one _
    · intro l _ hl
      rw [Pi.single_eq_of_ne hl]; exact chebT_zero _
    · simp
  rw [sum_congr rfl fun i _ => this i]
  simp only [Pi.zero_apply, chebT_zero, prod_const_one, mul_one]

theorem abs_le_sup {x : Fin n → ℝ} (hx : ∀ i, |x i| ≤ 1) : |r + ∑ i, p i * x i| ≤ |r| + ∑ i, |p i| := by
  refine (abs_add_le _ _).trans (add_le_add le_rfl ((abs_sum_le_sum_abs _ _).trans (sum_le_sum fun i _ => ?_)))
  rw [abs_mul]
  exact mul_le_of_le_one_right (abs_nonneg _) (hx i)

theorem sup_aff (h : LocAff f a b r p) (N : Fin n → ℕ) : (intervalApproximate f N a b).supNorm = |r| + ∑ i, |p i| := by
  apply le_antisymm
  · apply supNorm_le _ _ _ _ (by positivity)
    intro j _
    have e' : f (gridPt (bumpDegs N) a b j) = r + ∑ i, p i * chebPt (bumpDegs N i) (j i) := h _
    rw [e']
    exact abs_le_sup fun i => abs_cos_le_one _
  · set σ : ℝ := if 0 ≤ r then 1 else -1 with hσ
    have hσr : r = σ * |r| := by
      rw [hσ]
      split_ifs with h0
      · rw [abs_of_nonneg h0, one_mul]
      · rw [abs_of_neg (not_le.1 h0)]; ring
    have hσ1 : |σ| = 1 := by
      rw [hσ]
      split_ifs <;> simp
    set j : Fin n → ℕ := fun i => if 0 ≤ σ * p i then 0 else bumpDegs N i with hj
    have hp : ∀ i, p i * chebPt (bumpDegs N i) (j i) = σ * |p i| := by
      intro i
      have hN : (bumpDegs N i : ℝ) ≠ 0 := by have := one_le_bump N i; positivity
      have hsq : σ * σ = 1 := by
        rw [hσ]
        split_ifs <;> norm_num
      have e1 : p i = σ * (σ * p i) := by rw [← mul_assoc, hsq, one_mul]
      have e2 : |p i| = |σ * p i| := by rw [abs_mul, hσ1, one_mul]
      simp only [hj]
      split_ifs with h0
      · rw [e2, abs_of_nonneg h0]
        simp [chebPt, ← mul_assoc, hsq]
      · rw [e2, abs_of_neg (not_le.1 h0)]
        have : chebPt (bumpDegs N i) (bumpDegs N i) = -1 := by
          unfold chebPt
          rw [mul_div_right_comm, div_self hN, one_mul, cos_pi]
        rw [this]
        linear_combination -e1
    have := le_supNorm f N a b (j := j) (mem_gridIdx.2 fun i => by simp only [hj]; split_ifs <;> omega)
    have e' : f (gridPt (bumpDegs N) a b j) = r + ∑ i, p i * chebPt (bumpDegs N i) (j i) := h _
    rw [e', sum_congr rfl fun i _ => hp i, hσr, ← mul_sum, ← mul_add, abs_mul, hσ1, one_mul] at this
    exact this.trans' (le_abs_self _)

/-- The chunks along axis `d` vanish from index 2 on. -/
theorem chunk_zero (h : LocAff f a b r p) (N : Fin n → ℕ) (d : Fin n) (k : ℕ) (hk : 2 ≤ k) :
    coeffChunk (intervalApproximate f N a b).coeffs d k = 0 := by
  unfold coeffChunk
  rw [sum_eq_zero, zero_div]
  intro j hj
  obtain ⟨h1, h2⟩ := mem_filter.1 hj
  rw [intervalApproximate_idx, mem_gridIdx] at h1
  rw [coef_aff h N j fun i => (h1 i).trans (by unfold bumpDegs; split <;> omega), affCoef_other, abs_zero]
  · rintro rfl
    simp at h2
    omega
  · rintro i rfl
    by_cases hi : d = i
    · subst hi
      rw [Pi.single_eq_same] at h2
      omega
    · rw [Pi.single_eq_of_ne hi] at h2
      omega

/-- The chunks along axis `d`. -/
theorem chunk_aff (h : LocAff f a b r p) (N : Fin n → ℕ) (hN : ∀ i, 1 ≤ N i) (d : Fin n) :
    coeffChunk (intervalApproximate f N a b).coeffs d = fun k => if k = 0 then (|r| + ∑ i ∈ univ.erase d, |p i|) / ∏ i ∈ univ.erase d, ((N i : ℝ) + 1)
      else if k = 1 then |p d| / ∏ i ∈ univ.erase d, ((N i : ℝ) + 1) else 0 := by
  funext k
  have hden : ∏ i ∈ univ.erase d, ((intervalApproximate f N a b).coeffs.shape i : ℝ) = ∏ i ∈ univ.erase d, ((N i : ℝ) + 1) := by
    refine prod_congr rfl fun i _ => ?_
    show ((N i + 1 : ℕ) : ℝ) = _
    push_cast
    ring
  by_cases hk : 2 ≤ k
  · rw [chunk_zero h N d k hk, if_neg (by omega), if_neg (by omega)]
  unfold coeffChunk
  rw [hden]
  have hsum : ∑ j ∈ (intervalApproximate f N a b).coeffs.idx.filter (fun j => j d = k), |(intervalApproximate f N a b).coeffs.coef j| =
      (if k = 0 then |r| else 0) + ∑ i, if (Pi.single i 1 : Fin n → ℕ) d = k then |p i| else 0 := by
    have e1 : ∀ j ∈ (intervalApproximate f N a b).coeffs.idx.filter (fun j => j d = k), |(intervalApproximate f N a b).coeffs.coef j| =
        affCoef |r| (fun i => |p i|) j := by
      intro j hj
      have h1 := (mem_filter.1 hj).1
      rw [intervalApproximate_idx, mem_gridIdx] at h1
      rw [coef_aff h N j fun i => (h1 i).trans (by unfold bumpDegs; split <;> omega), abs_affCoef]
    rw [sum_congr rfl e1]
    unfold affCoef
    rw [sum_add_distrib]
    rw [sum_comm]
    congr 1
    · rw [sum_ite_eq']
      refine if_congr ?_ rfl rfl
      rw [mem_filter, intervalApproximate_idx, mem_gridIdx]
      simp [eq_comm]
    · refine sum_congr rfl fun i _ => ?_
      rw [sum_ite_eq']
      refine if_congr ?_ rfl rfl
      rw [mem_filter, intervalApproximate_idx, mem_gridIdx, and_iff_right]
      intro l
      by_cases hl : l = i
      · subst hl; simpa using hN l
      · rw [Pi.single_eq_of_ne hl]; omega
  rw [hsum]
  obtain rfl | rfl : k = 0 ∨ k = 1 := by omega
  · simp only [if_true]
    congr 2
    rw [← add_sum_erase univ _ (mem_univ d), Pi.single_eq_same, if_neg one_ne_zero, zero_add]
    refine sum_congr rfl fun i hi => ?_
    rw [Pi.single_eq_of_ne (ne_of_mem_erase hi).symm, if_pos rfl]
  · simp only [one_ne_zero, if_false, if_true, zero_add]
    congr 1
    rw [sum_eq_single d]
    · simp
    · intro i _ hi
      rw [Pi.single_eq_of_ne hi.symm, if_neg (by norm_num)]
    · simp

/-- The search in direction `d` ends in its first round. -/
theorem loop_aff (h : LocAff f a b r p) {rtol : ℝ} (hr : 0 < rtol) (hS : 0 < |r| + ∑ i, |p i|) (d : Fin n) (fuel : ℕ) (degs : Fin n → ℕ)
    (hdegs : ∀ i, i ≠ d → degs i = 0 → |p i| < (|r| + ∑ i, |p i|) * rtol) :
    ∃ N : Fin n → ℕ, (∀ i, i ≠ d → N i = bumpDegs degs i) ∧ degreeLoop f a b rtol 0 d (fuel + 1) degs 8 =
      .ok (getFinalDegree 18 (fun k => if k = 0 then (|r| + ∑ i ∈ univ.erase d, |p i|) / ∏ i ∈ univ.erase d, ((N i : ℝ) + 1)
        else if k = 1 then |p d| / ∏ i ∈ univ.erase d, ((N i : ℝ) + 1) else 0) ((|r| + ∑ i, |p i|) * rtol)) := by
  set N : Fin n → ℕ := Function.update (bumpDegs (Function.update degs d 8)) d 17 with hN
  have hN1 : ∀ i, 1 ≤ N i := by
    intro i
    by_cases hi : i = d
    · subst hi; simp [hN]
    · rw [hN, Function.update_of_ne hi]; exact one_le_bump _ _
  have hbN : bumpDegs N = N := bumpDegs_eq hN1
  have hNd : N d = 17 := by simp [hN]
  have hpos : 0 < 0 + (|r| + ∑ i, |p i|) * rtol := by rw [zero_add]; exact mul_pos hS hr
  refine ⟨N, fun i hi => ?_, ?_⟩
  · rw [hN, Function.update_of_ne hi]
    unfold bumpDegs
    rw [Function.update_of_ne hi]
  rw [degreeLoop]
  simp only
  have hdg : (intervalApproximate f (Function.update degs d 8) a b).degs = bumpDegs (Function.update degs d 8) := rfl
  rw [hdg, show 8 * 2 + 1 = 17 from rfl, ← hN, sup_aff h, sup_aff h, max_self, chunk_aff h N hN1 d]
  rw [if_neg, if_neg]
  · rw [zero_add]
    congr 2
    show N d + 1 = 18
    rw [hNd]
  · rw [Bool.not_eq_true', Bool.not_eq_false]
    unfold hasConverged
    rw [test_iff]
    intro k hk
    rw [intervalApproximate_idx, mem_gridIdx] at hk
    have h2 := coef_aff h N k fun i => by rw [hbN]; exact hk i
    simp only
    split
    · rename_i hin
      rw [h2, coef_aff h _ k fun i => ?_, sub_self, abs_zero]
      · exact hpos
      · have : k i < Function.update degs d 8 i + 1 := hin i
        unfold bumpDegs
        split <;> omega
    · rename_i hin
      rw [h2]
      by_cases h0 : k = 0
      · exfalso
        apply hin
        intro i
        rw [h0]
        exact Nat.succ_pos _
      · by_cases h1 : ∃ i, k = Pi.single i 1
        · obtain ⟨i, rfl⟩ := h1
          rw [affCoef_single]
          have hi : i ≠ d ∧ degs i = 0 := by
            by_contra hc
            apply hin
            intro l
            show (Pi.single i 1 : Fin n → ℕ) l < Function.update degs d 8 l + 1
            by_cases hl : l = i
            · subst hl
              rw [Pi.single_eq_same]
              by_cases hld : l = d
              · subst hld; simp
              · rw [Function.update_of_ne hld]
                have : degs l ≠ 0 := fun h0 => hc ⟨hld, h0⟩
                omega
            · rw [Pi.single_eq_of_ne hl]
              exact Nat.succ_pos _
          rw [zero_add]
          exact hdegs i hi.1 hi.2
        · push Not at h1
          rw [affCoef_other r p h0 h1, abs_zero]
          exact hpos
  · rw [Bool.not_eq_true', Bool.not_eq_false]
    unfold startedConverging
    rw [test_iff]
    intro k hk1 hk2
    have : (intervalApproximate f (Function.update degs d 8) a b).coeffs.shape d = 9 := by
      show Function.update degs d 8 d + 1 = 9
      simp
    rw [this] at hk1
    rw [chunk_zero h _ d k (by omega)]
    exact hpos

/-- The degree, epsilon and rate found for coefficients that vanish from index 2 on. -/
theorem final_aff {α β tol : ℝ} (htol : 0 < tol) (hpos : 1 / 2 ^ 50 ≤ α ∨ 1 / 2 ^ 49 ≤ β)
    (hcase : (tol ≤ β ∧ 1 / 2 ^ 49 ≤ β) ∨ (β = 0)) :
    let R := getFinalDegree 18 (fun k => if k = 0 then α else if k = 1 then β else 0) tol
    R.degree = (if β = 0 then 0 else 1) ∧ R.epsVal = 2 / 2 ^ 52 ∧ 2 ≤ R.rho := by
  intro R
  set c : ℕ → ℝ := fun k => if k = 0 then α else if k = 1 then β else 0 with hc
  have h39 := C39_final_degree 18 (by norm_num) c tol
  have hp : (0 : ℝ) < macheps := by unfold macheps; norm_num
  have heps : R.epsVal = 2 / 2 ^ 52 := by
    have e : (List.range' (3 * (18 - 1) / 4) (18 - 3 * (18 - 1) / 4)).foldl (fun m k => max m (c k)) (macheps : ℝ) = macheps := by
      simp [List.range', hp.le, hc]
    change (if 2 * (List.range' (3 * (18 - 1) / 4) (18 - 3 * (18 - 1) / 4)).foldl
        (fun m k => max m (c k)) (macheps : ℝ) = 0 then _ else 2 * (List.range' (3 * (18 - 1) / 4)
        (18 - 3 * (18 - 1) / 4)).foldl (fun m k => max m (c k)) (macheps : ℝ)) = _
    rw [e, if_neg (by linarith)]
    unfold macheps
    ring
  obtain ⟨-, -, h3, h4, h5, h6⟩ := h39
  have hc1 : c 1 = β := by simp [hc]
  have hc0 : c 0 = α := by simp [hc]
  have hck : ∀ k, 2 ≤ k → c k = 0 := fun k hk => by
    simp only [hc]
    rw [if_neg (by omega), if_neg (by omega)]
  have hdeg : R.degree = if β = 0 then 0 else 1 := by
    split_ifs with hb
    · refine h5.2 fun k hk1 hk2 => ?_
      by_cases hk : k = 1
      · rw [hk, hc1, hb]; exact htol
      · rw [hck k (by omega)]; exact htol
    · have hb' := hcase.resolve_right hb
      have h0 : R.degree ≠ 0 := by
        intro h
        have := h5.1 h 1 (by norm_num) (by norm_num)
        rw [hc1] at this
        linarith [hb'.1]
      by_contra h1
      have := h6 (by change 2 ≤ R.degree; omega)
      change c R.degree > R.epsVal at this
      rw [hck _ (by omega), heps] at this
      norm_num at this
  refine ⟨hdeg, heps, ?_⟩
  obtain ⟨hm1, hm2⟩ := argmax_spec 18 (by norm_num) c
  have hrho : R.rho = (c (argmax 18 c) / R.epsVal) ^ ((1 : ℝ) / (((R.degree : ℝ) - (argmax 18 c : ℕ)) + 1)) := rfl
  have hmax0 := hm2 0 (by norm_num)
  have hmax1 := hm2 1 (by norm_num)
  rw [hc0] at hmax0
  rw [hc1] at hmax1
  have hmpos : 1 / 2 ^ 50 ≤ c (argmax 18 c) := by
    rcases hpos with h | h
    · linarith
    · have : (1 : ℝ) / 2 ^ 50 ≤ 1 / 2 ^ 49 := by norm_num
      linarith
  have hm01 : argmax 18 c = 0 ∨ argmax 18 c = 1 := by
    by_contra hne
    rw [hck _ (by omega)] at hmpos
    norm_num at hmpos
  rw [hrho, hdeg, heps]
  split_ifs with hb
  · have hm : argmax 18 c = 0 := by
      rcases hm01 with h | h
      · exact h
      · rw [h, hc1, hb] at hmpos
        norm_num at hmpos
    rw [hm] at hmpos ⊢
    norm_num at hmpos ⊢
    linarith
  · have hb' := hcase.resolve_right hb
    rcases hm01 with hm | hm
    · rw [hm]
      have h4 : (4 : ℝ) ≤ c 0 / (2 / 2 ^ 52) := by
        rw [hm] at hmax1
        rw [le_div_iff₀ (by positivity)]
        have := hb'.2
        norm_num at this ⊢
        linarith
      have e : (1 : ℝ) / (((1 : ℕ) : ℝ) - ((0 : ℕ) : ℝ) + 1) = 1 / 2 := by norm_num
      rw [e, ← sqrt_eq_rpow]
      exact le_sqrt_of_sq_le (by linarith)
    · rw [hm, hc1]
      have e : (1 : ℝ) / (((1 : ℕ) : ℝ) - ((1 : ℕ) : ℝ) + 1) = 1 := by norm_num
      rw [e, rpow_one, le_div_iff₀ (by positivity)]
      have := hb'.2
      norm_num at this ⊢
      linarith

theorem two_le_coe {x : ℝ} : (2 : WithTop ℝ) ≤ (x : WithTop ℝ) ↔ 2 ≤ x := by
  exact WithTop.coe_le_coe (b := (2 : ℝ))

/-- The slope in direction `d` is seen by the degree search. -/
def BigSlope (r : ℝ) (p : Fin n → ℝ) (rtol : ℝ) (d : Fin n) : Prop :=
  (6 : ℝ) ^ (n - 1) * max ((|r| + ∑ i, |p i|) * rtol) (1 / 2 ^ 49) ≤ |p d|

theorem BigSlope.ne {rtol : ℝ} {d : Fin n} (h : BigSlope r p rtol d) : p d ≠ 0 := by
  intro h0
  unfold BigSlope at h
  rw [h0, abs_zero] at h
  have : (0 : ℝ) < 6 ^ (n - 1) * max ((|r| + ∑ i, |p i|) * rtol) (1 / 2 ^ 49) :=
    mul_pos (by positivity) (lt_of_lt_of_le (by norm_num) (le_max_right _ _))
  linarith

theorem BigSlope.le {rtol : ℝ} {d : Fin n} (h : BigSlope r p rtol d) : (|r| + ∑ i, |p i|) * rtol ≤ |p d| := by
  refine le_trans ?_ h
  have h1 : (1 : ℝ) ≤ 6 ^ (n - 1) := one_le_pow₀ (by norm_num)
  have h2 := le_max_left ((|r| + ∑ i, |p i|) * rtol) (1 / 2 ^ 49)
  have h3 : (0 : ℝ) < max ((|r| + ∑ i, |p i|) * rtol) (1 / 2 ^ 49) := lt_of_lt_of_le (by norm_num) (le_max_right _ _)
  nlinarith

/-- A direction with a slope that is seen is not taken for constant. -/
theorem not_constant (h : LocAff f a b r p) {rtol : ℝ} (hr : 0 ≤ rtol) {d : Fin n} (hd : BigSlope r p rtol d) :
    checkConstantInDimension f a b d rtol 0 = false := by
  by_contra hc
  rw [Bool.not_eq_false] at hc
  simp only [checkConstantInDimension, constantAlong, Bool.and_eq_true, Bool.not_eq_true', test_iff] at hc
  have h1 := hc.1.2 (-1) (by simp [testVals1])
  set ξ : Fin n → ℝ := fun i : Fin n => (8984743990614998 / 10 ^ 16 : ℝ) ^ (i.1 + 1) with hξ
  have hξ0 : ∀ i, 0 < ξ i := fun i => by simp only [hξ]; positivity
  have hξ1 : ∀ i, ξ i ≤ 1 := fun i => pow_le_one₀ (by norm_num) (by norm_num)
  have hup : Function.update (transformPt ξ a b) d (transform1 (-1) (a d) (b d)) = transformPt (Function.update ξ d (-1)) a b := by
    funext i
    by_cases hi : i = d
    · subst hi
      simp only [Function.update_self, transformPt, transform1]
    · simp only [Function.update_of_ne hi, transformPt]
  rw [hup, h, h] at h1
  unfold isCloseTol at h1
  have hdiff : (r + ∑ i, p i * ξ i) - (r + ∑ i, p i * Function.update ξ d (-1) i) = p d * (ξ d + 1) := by
    rw [← add_sum_erase univ _ (mem_univ d), ← add_sum_erase univ (fun i => p i * Function.update ξ d (-1) i) (mem_univ d)]
    have : ∑ i ∈ univ.erase d, p i * Function.update ξ d (-1) i = ∑ i ∈ univ.erase d, p i * ξ i :=
      sum_congr rfl fun i hi => by rw [Function.update_of_ne (ne_of_mem_erase hi)]
    rw [this, Function.update_self]
    ring
  rw [hdiff, zero_add, abs_mul, abs_of_pos (by linarith [hξ0 d] : 0 < ξ d + 1)] at h1
  have hle : |r + ∑ i, p i * Function.update ξ d (-1) i| ≤ |r| + ∑ i, |p i| := by
    apply abs_le_sup
    intro i
    by_cases hi : i = d
    · subst hi; rw [Function.update_self]; norm_num
    · rw [Function.update_of_ne hi, abs_of_pos (hξ0 i)]; exact hξ1 i
  have h2 := mul_le_mul_of_nonneg_left hle hr
  have h3 := hd.le
  have h4 : 0 < |p d| * ξ d := mul_pos (abs_pos.2 hd.ne) (hξ0 d)
  nlinarith

/-- What is known of a direction before it is treated. -/
def ApxInv (f : (Fin n → ℝ) → ℝ) (a b : Fin n → ℝ) (r : ℝ) (p : Fin n → ℝ) (rtol : ℝ) (s : DegState n) (i : Fin n) : Prop :=
  (BigSlope r p rtol i → s.degs i = none ∨ s.degs i = some 1) ∧
    (¬ BigSlope r p rtol i → s.degs i = none ∧ checkConstantInDimension f a b i rtol 0 = false ∨ s.degs i = some 0)

/-- What is known of a direction afterwards. -/
def ApxDone (r : ℝ) (p : Fin n → ℝ) (rtol : ℝ) (s : DegState n) (i : Fin n) : Prop :=
  (BigSlope r p rtol i → s.degs i = some 1 ∧ s.epsilons i = 2 / 2 ^ 52 ∧ ∃ ρ : ℝ, s.rhos i = ρ ∧ 2 ≤ ρ) ∧
    (¬ BigSlope r p rtol i → s.degs i = some 0 ∧ 0 ≤ s.epsilons i ∧ s.epsilons i ≤ 2 / 2 ^ 52 ∧ 2 ≤ s.rhos i)

theorem ApxDone.inv {rtol : ℝ} {s : DegState n} {i : Fin n} (h : ApxDone r p rtol s i) : ApxInv f a b r p rtol s i :=
  ⟨fun hb => .inr (h.1 hb).1, fun hb => .inr (h.2 hb).1⟩

theorem fixedDegs_le (s : DegState n) (i : Fin n) : fixedDegs s i ≤ 5 := by
  unfold fixedDegs
  simp only
  split
  · split <;> omega
  · split <;> split at * <;> omega

theorem fixedDegs_zero {s : DegState n} {i : Fin n} (h : fixedDegs s i = 0) : s.degs i = some 0 := by
  unfold fixedDegs at h
  simp only at h
  split at h
  · split at h <;> omega
  · rename_i k hk
    rw [hk]
    split at h <;> split at h <;> first | omega | (rw [h])

theorem prod_bound (s : DegState n) (d : Fin n) (N : Fin n → ℕ) (hN : ∀ i, i ≠ d → N i = bumpDegs (fixedDegs s) i) :
    0 < ∏ i ∈ univ.erase d, ((N i : ℝ) + 1) ∧ ∏ i ∈ univ.erase d, ((N i : ℝ) + 1) ≤ 6 ^ (n - 1) := by
  refine ⟨prod_pos fun i _ => by positivity, ?_⟩
  have h1 : ∏ i ∈ univ.erase d, ((N i : ℝ) + 1) ≤ ∏ i ∈ univ.erase d, (6 : ℝ) := by
    refine prod_le_prod (fun i _ => by positivity) fun i hi => ?_
    rw [hN i (ne_of_mem_erase hi)]
    have h2 : bumpDegs (fixedDegs s) i ≤ 5 := by
      have := fixedDegs_le s i
      unfold bumpDegs
      split <;> omega
    have h3 : (bumpDegs (fixedDegs s) i : ℝ) ≤ 5 := by exact_mod_cast h2
    linarith
  refine h1.trans (le_of_eq ?_)
  rw [prod_const, card_erase_of_mem (mem_univ d), card_univ, Fintype.card_fin]

/-- One direction. -/
theorem step_aff (h : LocAff f a b r p) {rtol : ℝ} (hr : 0 < rtol) (hS : 6 ^ (n - 1) * (1 / 2 ^ 49) ≤ |r| + ∑ i, |p i|)
    (H : ∀ i, BigSlope r p rtol i ∨ (|p i| < (|r| + ∑ i, |p i|) * rtol ∧ (p i = 0 ∨ checkConstantInDimension f a b i rtol 0 = true)))
    (fuel : ℕ) (s : DegState n) (d : Fin n) (hs : ∀ i, ApxInv f a b r p rtol s i) :
    ∃ s', degStep f a b rtol 0 (fuel + 1) s d = .ok s' ∧ ApxDone r p rtol s' d ∧
      ∀ i, i ≠ d → s'.degs i = s.degs i ∧ s'.epsilons i = s.epsilons i ∧ s'.rhos i = s.rhos i := by
  have hS0 : 0 < |r| + ∑ i, |p i| := lt_of_lt_of_le (by positivity) hS
  unfold degStep
  by_cases h0 : s.degs d = some 0
  · rw [if_pos h0]
    refine ⟨_, rfl, ⟨fun hb => ?_, fun _ => ?_⟩, fun i hi => ?_⟩
    · rcases (hs d).1 hb with h1 | h1 <;> rw [h0] at h1 <;> simp at h1
    · refine ⟨h0, ?_, ?_, ?_⟩
      · simp
      · simp only [Function.update_self]; positivity
      · simp
    · simp [Function.update_of_ne hi]
  · rw [if_neg h0]
    obtain ⟨N, hN, hl⟩ := loop_aff h hr hS0 d fuel (fixedDegs s) (fun i _ hi => by
      have hz := fixedDegs_zero hi
      rcases H i with hb | hb
      · rcases (hs i).1 hb with h1 | h1 <;> rw [hz] at h1 <;> simp at h1
      · exact hb.1)
    obtain ⟨hP0, hP⟩ := prod_bound s d N hN
    set P := ∏ i ∈ univ.erase d, ((N i : ℝ) + 1) with hPd
    rw [hl]
    simp only
    by_cases hb : BigSlope r p rtol d
    · have hβ : max ((|r| + ∑ i, |p i|) * rtol) (1 / 2 ^ 49) ≤ |p d| / P := by
        rw [le_div_iff₀ hP0, mul_comm]
        refine le_trans ?_ hb
        exact mul_le_mul_of_nonneg_right hP (le_trans (by norm_num) (le_max_right _ _))
      have hβ1 := (le_max_left _ _).trans hβ
      have hβ2 := (le_max_right _ _).trans hβ
      have hne : |p d| / P ≠ 0 := (lt_of_lt_of_le (by norm_num) hβ2).ne'
      obtain ⟨f1, f2, f3⟩ := final_aff (α := (|r| + ∑ i ∈ univ.erase d, |p i|) / P) (β := |p d| / P) (mul_pos hS0 hr) (.inr hβ2)
        (.inl ⟨hβ1, hβ2⟩)
      rw [if_neg hne] at f1
      refine ⟨_, rfl, ⟨fun _ => ?_, fun hn => absurd hb hn⟩, fun i hi => ?_⟩
      · simp only [Function.update_self]
        exact ⟨by rw [f1], f2, _, rfl, f3⟩
      · simp [Function.update_of_ne hi]
    · have hp0 : p d = 0 := by
        have hch := (((hs d).2 hb).resolve_right h0).2
        rcases (H d).resolve_left hb with ⟨-, h1 | h1⟩
        · exact h1
        · rw [hch] at h1; simp at h1
      have hα : 1 / 2 ^ 50 ≤ (|r| + ∑ i ∈ univ.erase d, |p i|) / P := by
        have e : |r| + ∑ i ∈ univ.erase d, |p i| = |r| + ∑ i, |p i| := by
          rw [← add_sum_erase univ _ (mem_univ d), hp0, abs_zero, zero_add]
        rw [e, le_div_iff₀ hP0]
        refine le_trans ?_ hS
        have : (1 : ℝ) / 2 ^ 50 * P ≤ 1 / 2 ^ 50 * 6 ^ (n - 1) := mul_le_mul_of_nonneg_left hP (by norm_num)
        have h6 : (0 : ℝ) < 6 ^ (n - 1) := by positivity
        nlinarith
      obtain ⟨f1, f2, f3⟩ := final_aff (α := (|r| + ∑ i ∈ univ.erase d, |p i|) / P) (β := |p d| / P) (mul_pos hS0 hr) (.inl hα)
        (.inr (by rw [hp0, abs_zero, zero_div]))
      rw [if_pos (by rw [hp0, abs_zero, zero_div])] at f1
      refine ⟨_, rfl, ⟨fun hb' => absurd hb' hb, fun _ => ?_⟩, fun i hi => ?_⟩
      · simp only [Function.update_self]
        refine ⟨by rw [f1], ?_, f2.le, ?_⟩
        · rw [f2]; positivity
        · exact two_le_coe.2 f3
      · simp [Function.update_of_ne hi]

theorem fold_aff (h : LocAff f a b r p) {rtol : ℝ} (hr : 0 < rtol) (hS : 6 ^ (n - 1) * (1 / 2 ^ 49) ≤ |r| + ∑ i, |p i|)
    (H : ∀ i, BigSlope r p rtol i ∨ (|p i| < (|r| + ∑ i, |p i|) * rtol ∧ (p i = 0 ∨ checkConstantInDimension f a b i rtol 0 = true)))
    (fuel : ℕ) (l : List (Fin n)) (s : DegState n) (hs : ∀ i, ApxInv f a b r p rtol s i) :
    ∃ s', l.foldlM (degStep f a b rtol 0 (fuel + 1)) s = .ok s' ∧ ∀ i, (ApxDone r p rtol s i ∨ i ∈ l) → ApxDone r p rtol s' i := by
  induction l generalizing s with
  | nil => exact ⟨s, rfl, fun i hi => by simpa using hi⟩
  | cons d l ih =>
    obtain ⟨s1, e1, hd, ho⟩ := step_aff h hr hS H fuel s d hs
    have hs1 : ∀ i, ApxInv f a b r p rtol s1 i := by
      intro i
      by_cases hi : i = d
      · subst hi; exact hd.inv
      · unfold ApxInv; rw [(ho i hi).1]; exact hs i
    obtain ⟨s', e2, h2⟩ := ih s1 hs1
    refine ⟨s', ?_, fun i hi => ?_⟩
    · rw [List.foldlM_cons, e1]
      exact e2
    · by_cases hid : i = d
      · subst hid; exact h2 i (.inl hd)
      · refine h2 i ?_
        rcases hi with hi | hi
        · left
          unfold ApxDone
          rw [(ho i hid).1, (ho i hid).2.1, (ho i hid).2.2]
          exact hi
        · exact .inr ((List.mem_cons.1 hi).resolve_left hid)

theorem degrees_aff (h : LocAff f a b r p) {rtol : ℝ} (hr : 0 < rtol) (hS : 6 ^ (n - 1) * (1 / 2 ^ 49) ≤ |r| + ∑ i, |p i|)
    (H : ∀ i, BigSlope r p rtol i ∨ (|p i| < (|r| + ∑ i, |p i|) * rtol ∧ (p i = 0 ∨ checkConstantInDimension f a b i rtol 0 = true)))
    (fuel : ℕ) : ∃ s, getChebyshevDegrees f a b rtol 0 (fuel + 1) = .ok s ∧ ∀ i, ApxDone r p rtol s i := by
  unfold getChebyshevDegrees
  obtain ⟨s', e, h2⟩ := fold_aff h hr hS H fuel (List.finRange n)
    ⟨fun d => if checkConstantInDimension f a b d rtol 0 then some 0 else none, fun _ => 0, fun _ => ⊤⟩ (fun i => by
      constructor
      · intro hb
        left
        show (if checkConstantInDimension f a b i rtol 0 then some 0 else none) = none
        rw [not_constant h hr.le hb]
        rfl
      · intro _
        by_cases hc : checkConstantInDimension f a b i rtol 0 = true
        · right; show (if checkConstantInDimension f a b i rtol 0 then some 0 else none) = some 0; rw [hc]; rfl
        · left
          rw [Bool.not_eq_true] at hc
          refine ⟨?_, hc⟩
          show (if checkConstantInDimension f a b i rtol 0 then some 0 else none) = none
          rw [hc]
          rfl)
  exact ⟨s', e, fun i => h2 i (.inr (List.mem_finRange i))⟩

theorem tail_le_one {ρ : WithTop ℝ} (h : 2 ≤ ρ) : tailFactor ρ ≤ 1 ∧ 0 ≤ tailFactor ρ := by
  induction ρ with
  | top => simp [tailFactor]
  | coe x =>
    have hx : (2 : ℝ) ≤ x := two_le_coe.1 h
    show 1 / (x - 1) ≤ 1 ∧ 0 ≤ 1 / (x - 1)
    refine ⟨?_, by apply div_nonneg <;> linarith⟩
    rw [div_le_one (by linarith)]
    linarith

/-- The error bound. -/
theorem error_aff (degs : Fin n → ℕ) (eps : Fin n → ℝ) (rhos : Fin n → WithTop ℝ) (hd : ∀ i, degs i = 1)
    (he : ∀ i, 0 ≤ eps i ∧ eps i ≤ 2 / 2 ^ 52) (hr : ∀ i, 2 ≤ rhos i) : 0 ≤ getApproxError degs eps rhos ∧
      getApproxError degs eps rhos ≤ 3 ^ n * (2 / 2 ^ 52) ∧
      ((∃ i, 0 < eps i ∧ ∃ ρ : ℝ, rhos i = ρ) → 0 < getApproxError degs eps rhos) := by
  have hfac : ∀ (idxs : Fin n → Bool) i, 0 ≤ (if idxs i then tailFactor (rhos i) else ((degs i : ℝ) + 1)) := by
    intro idxs i
    split
    · exact (tail_le_one (hr i)).2
    · positivity
  have heps : ∀ (idxs : Fin n → Bool), 0 ≤ usedEps eps idxs ∧ usedEps eps idxs ≤ 2 / 2 ^ 52 := by
    intro idxs
    refine ⟨(le_usedEps _ _).1, ?_⟩
    unfold usedEps
    have gen : ∀ (l : List (Fin n)) (m : ℝ), m ≤ 2 / 2 ^ 52 → l.foldl (fun m i => if idxs i then max m (eps i) else m) m ≤ 2 / 2 ^ 52 := by
      intro l
      induction l with
      | nil => intro m hm; exact hm
      | cons i l ih =>
        intro m hm
        rw [List.foldl_cons]
        apply ih
        split
        · exact max_le hm (he i).2
        · exact hm
    exact gen _ 0 (by positivity)
  have hterm : ∀ idxs : Fin n → Bool, 0 ≤ errorTerm degs eps rhos idxs := by
    intro idxs
    rw [errorTerm_eq]
    exact mul_nonneg (prod_nonneg fun i _ => hfac idxs i) (heps idxs).1
  rw [getApproxError_eq]
  refine ⟨sum_nonneg fun idxs _ => hterm idxs, ?_, ?_⟩
  · refine (sum_le_sum_of_subset_of_nonneg (filter_subset _ _) fun idxs _ _ => hterm idxs).trans ?_
    have h1 : ∀ idxs : Fin n → Bool, errorTerm degs eps rhos idxs ≤ (∏ i, if idxs i then (1 : ℝ) else 2) * (2 / 2 ^ 52) := by
      intro idxs
      rw [errorTerm_eq]
      refine mul_le_mul (prod_le_prod (fun i _ => hfac idxs i) fun i _ => ?_) (heps idxs).2 (heps idxs).1
        (prod_nonneg fun i _ => by split <;> norm_num)
      split
      · exact (tail_le_one (hr i)).1
      · rw [hd i]; norm_num
    refine (sum_le_sum fun idxs _ => h1 idxs).trans (le_of_eq ?_)
    rw [← sum_mul]
    congr 1
    have := (Finset.prod_univ_sum (fun _ : Fin n => (univ : Finset Bool)) (fun _ b => if b then (1 : ℝ) else 2)).symm
    rw [Fintype.piFinset_univ] at this
    rw [this]
    norm_num
  · rintro ⟨i, h1, ρ, hρ⟩
    have hρ2 : (2 : ℝ) ≤ ρ := by have := hr i; rw [hρ] at this; exact two_le_coe.1 this
    refine sum_pos' (fun idxs _ => hterm idxs) ⟨fun j => decide (j = i), mem_filter.2 ⟨mem_univ _, i, by simp⟩, ?_⟩
    rw [errorTerm_eq]
    refine mul_pos (prod_pos fun j _ => ?_) (lt_of_lt_of_le h1 ((le_usedEps _ _).2 i (by simp)))
    by_cases hj : j = i
    · subst hj
      simp only [decide_true, if_true]
      rw [hρ]
      show 0 < 1 / (ρ - 1)
      apply div_pos <;> linarith
    · simp only [hj, decide_false]
      simp
      positivity

/-- The run of the approximator: exact coefficients in the directions whose slopes are seen, and a tiny error bound. -/
theorem approx_aff (h : LocAff f a b r p) (hab : ∀ i, a i ≤ b i) {rtol : ℝ} (hr : 0 < rtol)
    (hS : 6 ^ (n - 1) * (1 / 2 ^ 49) ≤ |r| + ∑ i, |p i|)
    (H : ∀ i, BigSlope r p rtol i ∨ (|p i| < (|r| + ∑ i, |p i|) * rtol ∧ (p i = 0 ∨ checkConstantInDimension f a b i rtol 0 = true)))
    (fuel : ℕ) : ∃ M e, chebApproximate (fuel + 1) f a b rtol = .ok (M, e) ∧ (∀ i, BigSlope r p rtol i → M.shape i = 2) ∧
      (∀ i, ¬ BigSlope r p rtol i → M.shape i = 1) ∧ (∀ k ∈ M.idx, M.coef k = affCoef r p k) ∧
      0 ≤ e ∧ e ≤ 3 ^ n * (2 / 2 ^ 52) ∧ ((∃ i, BigSlope r p rtol i) → 0 < e) := by
  obtain ⟨s, hs, hdone⟩ := degrees_aff h hr hS H fuel
  unfold chebApproximate
  rw [if_neg (by push Not; exact hab), hs]
  refine ⟨_, _, rfl, fun i hi => ?_, fun i hi => ?_, fun k hk => ?_, ?_⟩
  · show (s.degs i).getD 0 + 1 = 2
    rw [((hdone i).1 hi).1]
    rfl
  · show (s.degs i).getD 0 + 1 = 1
    rw [((hdone i).2 hi).1]
    rfl
  · rw [intervalApproximate_idx, mem_gridIdx] at hk
    exact coef_aff h _ k fun i => (hk i).trans (by unfold bumpDegs; dsimp only; split <;> omega)
  · have hd : ∀ i, (intervalApproximate f (fun i => (s.degs i).getD 0) a b).degs i = 1 := by
      intro i
      show bumpDegs (fun i => (s.degs i).getD 0) i = 1
      unfold bumpDegs
      by_cases hb : BigSlope r p rtol i
      · simp [((hdone i).1 hb).1]
      · simp [((hdone i).2 hb).1]
    have heps : ∀ i, 0 ≤ s.epsilons i ∧ s.epsilons i ≤ 2 / 2 ^ 52 := by
      intro i
      by_cases hb : BigSlope r p rtol i
      · rw [((hdone i).1 hb).2.1]; exact ⟨by positivity, le_rfl⟩
      · exact ⟨((hdone i).2 hb).2.1, ((hdone i).2 hb).2.2.1⟩
    have hrho : ∀ i, 2 ≤ s.rhos i := by
      intro i
      by_cases hb : BigSlope r p rtol i
      · obtain ⟨-, -, ρ, h3, h4⟩ := (hdone i).1 hb
        rw [h3]; exact two_le_coe.2 h4
      · exact ((hdone i).2 hb).2.2.2
    obtain ⟨e1, e2, e3⟩ := error_aff _ _ _ hd heps hrho
    refine ⟨e1, e2, ?_⟩
    rintro ⟨i, hi⟩
    obtain ⟨-, h2, ρ, h3, -⟩ := (hdone i).1 hi
    exact e3 ⟨i, by rw [h2]; positivity, ρ, h3⟩

end YRoots
