import Verif.Proofs.FloatQuadratic
import Verif.Props.Quadratic
import Verif.Props.FloatBounding
import Mathlib.Topology.Order.IntermediateValue
import Mathlib.Topology.Instances.Real.Lemmas

/-!
# Property C106: the quadratic check in two variables in floating-point arithmetic
-/

namespace YRoots

open Finset

section Slack

variable {K : Type*} [Field K] [LinearOrder K]

theorem coeffs2D_float [IsStrictOrderedRing K] {M : Tensor 2 K} (hM : M.Nonempty) (hFl : ∀ k ∈ M.idx, IsFloat 53 (M.coef k)) (i : Fin 6) : IsFloat 53 (coeffs2D M i) := by
  have h0 := hM 0
  have h1 := hM 1
  have key : ∀ a b, a < M.shape 0 → b < M.shape 1 → IsFloat 53 (M.coef ![a, b]) := by
    intro a b ha hb
    apply hFl
    unfold Tensor.idx
    rw [Fintype.mem_piFinset]
    intro j
    fin_cases j
    · exact mem_range.2 ha
    · exact mem_range.2 hb
  fin_cases i
  · exact key 0 0 h0 h1
  · show IsFloat 53 (if M.shape 0 > 1 then M.coef ![1, 0] else 0)
    split_ifs with h
    exacts [key 1 0 h h1, isFloat_zero]
  · show IsFloat 53 (if M.shape 1 > 1 then M.coef ![0, 1] else 0)
    split_ifs with h
    exacts [key 0 1 h0 h, isFloat_zero]
  · show IsFloat 53 (if M.shape 0 > 2 then M.coef ![2, 0] else 0)
    split_ifs with h
    exacts [key 2 0 h h1, isFloat_zero]
  · show IsFloat 53 (if M.shape 0 > 1 ∧ M.shape 1 > 1 then M.coef ![1, 1] else 0)
    split_ifs with h
    exacts [key 1 1 h.1 h.2, isFloat_zero]
  · show IsFloat 53 (if M.shape 1 > 2 then M.coef ![0, 2] else 0)
    split_ifs with h
    exacts [key 0 2 h0 h, isFloat_zero]

variable [IsStrictOrderedRing K] [FloorRing K] {ar : FloatArith K} (hfl : RoundsToNearest 53 ar.fl) (hs : ar.Sums)

include hfl hs

/-- **C106, part.** Floating-point coefficients, at most `2 ^ 20` of them, any rounding to nearest, sums in any order: if the rounded check returns
`True`, the quadratic part stays outside the band of half-width "rest of the coefficients plus tolerance, less `2 ^ -27` of the absolute sum and the
tolerance" on the whole square. -/
theorem C106_crossing_partial (M : Tensor 2 K) (hM : M.Nonempty) (hFl : ∀ k ∈ M.idx, IsFloat 53 (M.coef k)) (hN : ∏ i, M.shape i ≤ 2 ^ 20) (tol : K)
    (ht : 0 ≤ tol) (h : quadraticCheck2DF ar M tol = true) : NoCrossing M (quadRest M + (tol - 1 / 2 ^ 27 * (M.absSum + tol))) := by
  obtain ⟨ho, hSA⟩ := otherSum2DF_close hfl hs M hM hN ht
  have hc := coeffs2D_float hM hFl
  have hr := quad_range (quadA M) (quadA_symm M) (quadB M) ((M.pad3.coef fun _ => 0) - ∑ i, pureQuad M i) (· ∈ points2D (coeffs2D M))
    (fun c h1 h2 h3 _ => points2D_complete M hM c h1 h2 h3)
  simp only [← evalQ_eq_qf] at hr
  have hS0 : 0 ≤ ∑ i, |coeffs2D M i| := sum_nonneg fun _ _ => abs_nonneg _
  have ev : ∀ x, evalFunc2D (coeffs2D M) x = evalQ M x := evalFunc2D_eq M hM
  have slack : (1 / 2 ^ 28 + uu K) * (∑ i, |coeffs2D M i|) + 60 * uu K * (∑ i, |coeffs2D M i|) + 1 / 2 ^ 31 * (M.absSum + tol) ≤
      1 / 2 ^ 27 * (M.absSum + tol) := by
    have e1 : (1 / 2 ^ 28 + uu K + 60 * uu K) * (∑ i, |coeffs2D M i|) ≤ (1 / 2 ^ 28 + 1 / 2 ^ 31) * M.absSum := by
      refine mul_le_mul ?_ hSA hS0 (by norm_num)
      unfold uu
      norm_num
    have e2 : (1 / 2 ^ 28 + 1 / 2 ^ 31 + 1 / 2 ^ 31) * M.absSum ≤ 1 / 2 ^ 27 * M.absSum := mul_le_mul_of_nonneg_right (by norm_num) (hS0.trans hSA)
    have e3 : 1 / 2 ^ 31 * tol ≤ 1 / 2 ^ 27 * tol := mul_le_mul_of_nonneg_right (by norm_num) ht
    linarith
  have ho1 := (abs_le.1 ho).1
  change _ ≤ otherSum2DF ar M tol - (quadRest M + tol) at ho1
  unfold quadraticCheck2DF at h
  rcases checkLoop_true h with h0 | ⟨-, h0⟩ | ⟨-, h0⟩
  · rw [List.map_eq_nil_iff] at h0
    simp [points2DF] at h0
  · left
    intro x hx
    obtain ⟨⟨p, hp, hle⟩, -⟩ := hr x hx
    obtain ⟨a, b, m, ha, hb, hv⟩ := reach_point hfl hc (σ := 1) (by simp) hp
    have h1 := h0 _ (List.mem_map_of_mem m)
    have h2 := (abs_le.1 (evalFunc2DF_close hfl (coeffs2D M) ha hb)).2
    rw [one_mul, one_mul, ev p] at hv
    rw [quadPart_eq]
    linarith
  · right
    intro x hx
    obtain ⟨-, p, hp, hle⟩ := hr x hx
    obtain ⟨a, b, m, ha, hb, hv⟩ := reach_point hfl hc (σ := -1) (by simp) hp
    have h1 := h0 _ (List.mem_map_of_mem m)
    have h2 := (abs_le.1 (evalFunc2DF_close hfl (coeffs2D M) ha hb)).1
    rw [neg_one_mul, neg_one_mul, ev p] at hv
    rw [quadPart_eq]
    linarith

/-- **C106, part**: so functions closer to the polynomial than the tolerance less `2 ^ -27` of the absolute sum of the coefficients and the tolerance
have no zero on the square. -/
theorem C106_slack_partial (M : Tensor 2 K) (hM : M.Nonempty) (hFl : ∀ k ∈ M.idx, IsFloat 53 (M.coef k)) (hN : ∏ i, M.shape i ≤ 2 ^ 20) (tol : K)
    (ht : 0 ≤ tol) (h : quadraticCheck2DF ar M tol = true) (F : (Fin 2 → K) → K)
    (hF : ∀ x, InCube x → |F x - M.eval x| < tol - 1 / 2 ^ 27 * (M.absSum + tol)) (x : Fin 2 → K) (hx : InCube x) : F x ≠ 0 :=
  noCrossing_no_zero M _ (C106_crossing_partial hfl hs M hM hFl hN tol ht h) F hF x hx

/-- **C106**, the other direction: if the quadratic part stays outside a band wider by `2 ^ -30` of the absolute sum and the tolerance, the rounded
check returns `True`.  (The coefficients need not be representable.) -/
theorem C106_fires (M : Tensor 2 K) (hM : M.Nonempty) (hN : ∏ i, M.shape i ≤ 2 ^ 20) (tol : K)
    (ht : 0 ≤ tol) (h : NoCrossing M (quadRest M + (tol + 1 / 2 ^ 30 * (M.absSum + tol)))) : quadraticCheck2DF ar M tol = true := by
  obtain ⟨ho, hSA⟩ := otherSum2DF_close hfl hs M hM hN ht
  have hS0 : 0 ≤ ∑ i, |coeffs2D M i| := sum_nonneg fun _ _ => abs_nonneg _
  have slack : 60 * uu K * (∑ i, |coeffs2D M i|) + 1 / 2 ^ 31 * (M.absSum + tol) ≤ 1 / 2 ^ 30 * (M.absSum + tol) := by
    have e1 : 60 * uu K * (∑ i, |coeffs2D M i|) ≤ 1 / 2 ^ 31 * M.absSum := by
      refine mul_le_mul ?_ hSA hS0 (by norm_num)
      unfold uu
      norm_num
    have e3 : 1 / 2 ^ 31 * tol + 1 / 2 ^ 31 * tol = 1 / 2 ^ 30 * tol := by ring
    have e4 : 0 ≤ 1 / 2 ^ 31 * tol := by positivity
    have e5 : 1 / 2 ^ 31 * M.absSum + 1 / 2 ^ 31 * M.absSum = 1 / 2 ^ 30 * M.absSum := by ring
    linarith
  have ho2 := (abs_le.1 ho).2
  change otherSum2DF ar M tol - (quadRest M + tol) ≤ _ at ho2
  have close : ∀ p ∈ points2DF ar.fl (coeffs2D M), InCube p ∧
      |evalFunc2DF ar.fl (coeffs2D M) p - quadPart M p| ≤ 60 * uu K * ∑ i, |coeffs2D M i| := by
    intro p hp
    obtain ⟨h0, h1⟩ := points2DF_inCube (coeffs2D M) p hp
    have e := evalFunc2DF_close hfl (coeffs2D M) h0 h1
    rw [← vec2_eta p, evalFunc2D_eq M hM, ← quadPart_eq] at e
    refine ⟨?_, e⟩
    intro i
    fin_cases i
    exacts [h0, h1]
  by_contra hc
  rw [Bool.not_eq_true] at hc
  obtain ⟨h1, h2⟩ := checkLoop_false hc
  simp only [Bool.false_eq_true, false_or, List.mem_map] at h1 h2
  obtain ⟨_, ⟨p, hp, rfl⟩, h1⟩ := h1
  obtain ⟨_, ⟨q, hq, rfl⟩, h2⟩ := h2
  obtain ⟨p1, p2⟩ := close p hp
  obtain ⟨q1, q2⟩ := close q hq
  rw [abs_le] at p2 q2
  rcases h with h | h
  · have := h p p1
    linarith [p2.1]
  · have := h q q1
    linarith [q2.2]

end Slack

/-- `8 + T_1(x) + 2 T_1(x) T_1(y) + 3 T_2(y) + T_3(x)`. -/
def exQ8 : Tensor 2 ℚ := ⟨![4, 3], fun k => if k = ![0, 0] then 8 else if k = ![1, 0] then 1 else if k = ![1, 1] then 2 else
  if k = ![0, 2] then 3 else if k = ![3, 0] then 1 else 0⟩

theorem exQ8_float (k : Fin 2 → ℕ) : IsFloat 53 (exQ8.coef k) := by
  unfold exQ8
  simp only
  split_ifs
  · exact ⟨8, 0, by norm_num, by norm_num⟩
  · exact ⟨1, 0, by norm_num, by norm_num⟩
  · exact ⟨2, 0, by norm_num, by norm_num⟩
  · exact ⟨3, 0, by norm_num, by norm_num⟩
  · exact ⟨1, 0, by norm_num, by norm_num⟩
  · exact isFloat_zero

theorem exQ8_nonempty : exQ8.Nonempty := by intro i; fin_cases i <;> simp [exQ8]

/-- The check fires within the hypotheses of the partial statement. -/
example (F : (Fin 2 → ℚ) → ℚ) (hF : ∀ x, InCube x → |F x - exQ8.eval x| < 1 / 4) (x : Fin 2 → ℚ) (hx : InCube x) : F x ≠ 0 := by
  refine C106_slack_partial (ar := exAr) (roundFloat_nearest (by norm_num)) (leftSum_sums _) exQ8 exQ8_nonempty (fun k _ => exQ8_float k)
    (by simp [exQ8, Fin.prod_univ_two]) (1 / 2) (by norm_num) (by decide +kernel) F (fun x hx => (hF x hx).trans_le ?_) x hx
  have : exQ8.absSum = 15 := by decide +kernel
  rw [this]
  norm_num

/-- And so does the converse. -/
example : quadraticCheck2DF exAr exQ8 (1 / 4) = true := by
  refine C106_fires (ar := exAr) (roundFloat_nearest (by norm_num)) (leftSum_sums _) exQ8 exQ8_nonempty
    (by simp [exQ8, Fin.prod_univ_two]) (1 / 4) (by norm_num) ?_
  exact (C45_quad2D_iff exQ8 exQ8_nonempty _).1 (by decide +kernel)

/-- The check does not always answer `True`. -/
example : quadraticCheck2DF exAr exQ8 4 = false := by decide +kernel

/-! ### The check loses roots -/

/-- A polynomial of degree two with binary64 coefficients whose zero set on the square is a thin ellipse. -/
def exQF : Tensor 2 ℚ := ⟨fun _ => 3, fun k =>
  if k 0 = 0 then
    (if k 1 = 0 then 1623161950178673 / 2 ^ 49 else if k 1 = 1 then 3312172181860559 / 2 ^ 50 else if k 1 = 2 then 258224851925621 / 2 ^ 48 else 0)
  else if k 0 = 1 then (if k 1 = 0 then -6134509195070735 / 2 ^ 51 else if k 1 = 1 then -7652175751775867 / 2 ^ 51 else 0)
  else if k 0 = 2 ∧ k 1 = 0 then 442896118620457 / 2 ^ 49 else 0⟩

/-- `T_1(x) - 3/8`. -/
def exQG : Tensor 2 ℚ := ⟨![2, 1], fun k => if k 0 = 0 then -3 / 8 else 1⟩

/-- The same polynomial with real coefficients. -/
def Tensor.toReal {n : ℕ} (M : Tensor n ℚ) : Tensor n ℝ := ⟨M.shape, fun k => (M.coef k : ℝ)⟩

theorem exQF_float (k : Fin 2 → ℕ) : IsFloat 53 (exQF.coef k) := by
  unfold exQF
  simp only
  split_ifs
  · exact ⟨1623161950178673, -49, by norm_num, by norm_num⟩
  · exact ⟨3312172181860559, -50, by norm_num, by norm_num⟩
  · exact ⟨258224851925621, -48, by norm_num, by norm_num⟩
  · exact isFloat_zero
  · exact ⟨-6134509195070735, -51, by norm_num, by norm_num⟩
  · exact ⟨-7652175751775867, -51, by norm_num, by norm_num⟩
  · exact isFloat_zero
  · exact ⟨442896118620457, -49, by norm_num, by norm_num⟩
  · exact isFloat_zero

theorem exQG_float (k : Fin 2 → ℕ) : IsFloat 53 (exQG.coef k) := by
  unfold exQG
  simp only
  split_ifs
  · exact ⟨-3, -3, by norm_num, by norm_num⟩
  · exact ⟨1, 0, by norm_num, by norm_num⟩

theorem exQF_eval (x : Fin 2 → ℝ) (hx : InCube x) : exQF.toReal.eval x = evalFunc2D (coeffs2D exQF.toReal) x := by
  have h := eval_sub_evalQ exQF.toReal x hx
  have h0 : restAbs exQF = 0 := by decide +kernel
  have h1 : restAbs exQF.toReal = ((restAbs exQF : ℚ) : ℝ) := by
    unfold restAbs Tensor.toReal
    push_cast
    rfl
  rw [h1, h0, Rat.cast_zero, abs_nonpos_iff, sub_eq_zero] at h
  rw [h, evalFunc2D_eq]
  intro i
  simp [exQF, Tensor.toReal]

theorem exQF_formula (x y : ℝ) : evalFunc2D (coeffs2D exQF.toReal) ![x, y] =
    1623161950178673 / 2 ^ 49 - 442896118620457 / 2 ^ 49 - 258224851925621 / 2 ^ 48
      + (-6134509195070735 / 2 ^ 51 + 2 * (442896118620457 / 2 ^ 49) * x + -7652175751775867 / 2 ^ 51 * y) * x
      + (3312172181860559 / 2 ^ 50 + 2 * (258224851925621 / 2 ^ 48) * y) * y := by
  have e0 : coeffs2D exQF.toReal 0 = 1623161950178673 / 2 ^ 49 := by
    show exQF.toReal.coef ![0, 0] = _
    norm_num [exQF, Tensor.toReal]
  have e1 : coeffs2D exQF.toReal 1 = -6134509195070735 / 2 ^ 51 := by
    show (if exQF.toReal.shape 0 > 1 then exQF.toReal.coef ![1, 0] else 0) = _
    norm_num [exQF, Tensor.toReal]
  have e2 : coeffs2D exQF.toReal 2 = 3312172181860559 / 2 ^ 50 := by
    show (if exQF.toReal.shape 1 > 1 then exQF.toReal.coef ![0, 1] else 0) = _
    norm_num [exQF, Tensor.toReal]
  have e3 : coeffs2D exQF.toReal 3 = 442896118620457 / 2 ^ 49 := by
    show (if exQF.toReal.shape 0 > 2 then exQF.toReal.coef ![2, 0] else 0) = _
    norm_num [exQF, Tensor.toReal]
  have e4 : coeffs2D exQF.toReal 4 = -7652175751775867 / 2 ^ 51 := by
    show (if exQF.toReal.shape 0 > 1 ∧ exQF.toReal.shape 1 > 1 then exQF.toReal.coef ![1, 1] else 0) = _
    norm_num [exQF, Tensor.toReal]
  have e5 : coeffs2D exQF.toReal 5 = 258224851925621 / 2 ^ 48 := by
    show (if exQF.toReal.shape 1 > 2 then exQF.toReal.coef ![0, 2] else 0) = _
    norm_num [exQF, Tensor.toReal]
  unfold evalFunc2D
  rw [e0, e1, e2, e3, e4, e5]
  rfl

theorem exQG_eval (x : Fin 2 → ℝ) : exQG.toReal.eval x = x 0 - 3 / 8 := by
  have h : exQG.toReal.idx = {![0, 0], ![1, 0]} := by
    show exQG.idx = _
    decide +kernel
  unfold Tensor.eval
  rw [h, sum_pair (by decide)]
  simp [Tensor.toReal, exQG, Fin.prod_univ_two, chebT]
  ring

theorem exQF_check : quadraticCheck2DF exAr exQF macheps = true := by decide +kernel

/-- The claim of C106 for one polynomial: if the rounded check returns `True`, functions within the tolerance of the polynomial have no zero on the
square. -/
def QuadCheckClaim {K : Type*} [Field K] [LinearOrder K] (ar : FloatArith K) (M : Tensor 2 K) (tol : K) : Prop :=
  quadraticCheck2DF ar M tol = true → ∀ F : (Fin 2 → K) → K, (∀ x, InCube x → |F x - M.eval x| ≤ tol) → ∀ x, InCube x → F x ≠ 0

/-- **C106 is false of the code.** In binary64 with ties to even, with the tolerance `2 ^ -52` which `solve` gives to polynomials, the check returns
`True` on a polynomial with representable coefficients, though the polynomial is below `-3 * 10 ^ -11` at one point of the square, above `3` at
another, and smaller than `10 ^ -20` in absolute value at a third. -/
theorem C106_false : ∃ ar : FloatArith ℚ, ar.fl = roundFloat 53 ∧ RoundsToNearest 53 ar.fl ∧ ar.Sums ∧
    (∀ k, IsFloat 53 (exQF.coef k)) ∧ quadraticCheck2DF ar exQF macheps = true ∧
    (∃ p q z : Fin 2 → ℚ, InCube p ∧ InCube q ∧ InCube z ∧ exQF.eval p < -(3 / 10 ^ 11) ∧ 3 < exQF.eval q ∧ |exQF.eval z| < 1 / 10 ^ 20) ∧
    ¬ QuadCheckClaim ar exQF macheps := by
  have hp : InCube (![3 / 8, -4543979 / 10 ^ 7] : Fin 2 → ℚ) := by intro i; fin_cases i <;> norm_num [abs_le]
  have hq : InCube (![3 / 8, 1] : Fin 2 → ℚ) := by intro i; fin_cases i <;> norm_num [abs_le]
  have hz : InCube (![3 / 8, -8185625724736547 / 2 ^ 54] : Fin 2 → ℚ) := by intro i; fin_cases i <;> norm_num [abs_le]
  have ev : ∀ x, InCube x → exQF.eval x = evalFunc2D (coeffs2D exQF) x := by
    intro x hx
    have h := eval_sub_evalQ exQF x hx
    have h0 : restAbs exQF = 0 := by decide +kernel
    rw [h0, abs_nonpos_iff, sub_eq_zero] at h
    rw [h, evalFunc2D_eq]
    intro i
    simp [exQF]
  have h3 : |exQF.eval ![3 / 8, -8185625724736547 / 2 ^ 54]| < 1 / 10 ^ 20 := by rw [ev _ hz]; decide +kernel
  refine ⟨exAr, rfl, roundFloat_nearest (by norm_num), leftSum_sums _, exQF_float, exQF_check,
    ⟨_, _, _, hp, hq, hz, by rw [ev _ hp]; decide +kernel, by rw [ev _ hq]; decide +kernel, h3⟩, fun h => ?_⟩
  refine h exQF_check (fun x => if x = ![3 / 8, -8185625724736547 / 2 ^ 54] then 0 else exQF.eval x) (fun x _ => ?_) _ hz (if_pos rfl)
  split_ifs with hx
  · rw [hx, zero_sub, abs_neg]
    exact h3.le.trans (by norm_num [macheps])
  · rw [sub_self, abs_zero]
    norm_num [macheps]

/-- **C106, consequence**: the solver, started on the system of this polynomial and `T_1(x) - 3/8` with the errors `2 ^ -52`, returns no interval at
all, whatever the linear algebra and the trimming do.  Yet the system has a common zero, and so has every system of a continuous function within
`3 * 10 ^ -11` of the first polynomial and the second polynomial. -/
theorem C106_system_false : ∃ ar : FloatArith ℚ, ar.fl = roundFloat 53 ∧ RoundsToNearest 53 ar.fl ∧ ar.Sums ∧
    (∀ k, IsFloat 53 (exQF.coef k)) ∧ (∀ k, IsFloat 53 (exQG.coef k)) ∧
    (∀ (svd : SvdF 2 ℚ) (trim : (Fin 2 → Tensor 2 ℚ) → (Fin 2 → ℚ) → (Fin 2 → Tensor 2 ℚ) × (Fin 2 → ℚ)),
      startDiscards ar svd (quadraticDiscards2DF ar) trim ![exQF, exQG] (fun _ => macheps) = true) ∧
    ∀ F : (Fin 2 → ℝ) → ℝ, Continuous F → (∀ x, InCube x → |F x - exQF.toReal.eval x| ≤ 3 / 10 ^ 11) →
      ∃ x, InCube x ∧ F x = 0 ∧ exQG.toReal.eval x = 0 := by
  refine ⟨exAr, rfl, roundFloat_nearest (by norm_num), leftSum_sums _, exQF_float, exQG_float, fun svd trim => ?_, fun F hF hd => ?_⟩
  · have : quadraticDiscards2DF exAr ![exQF, exQG] (fun _ => macheps) = true := by
      unfold quadraticDiscards2DF
      exact decide_eq_true ⟨0, exQF_check⟩
    unfold startDiscards
    rw [this, Bool.or_true, Bool.true_or]
  · have hc : Continuous fun t : ℝ => F ![3 / 8, t] := hF.comp (by
      refine continuous_pi fun i => ?_
      fin_cases i
      · exact continuous_const
      · exact continuous_id)
    have hin : ∀ t : ℝ, -1 ≤ t → t ≤ 1 → InCube (![3 / 8, t] : Fin 2 → ℝ) := by
      intro t h1 h2 i
      fin_cases i
      · norm_num [abs_le]
      · exact abs_le.2 ⟨h1, h2⟩
    have hp := hin (-4543979 / 10 ^ 7) (by norm_num) (by norm_num)
    have hq := hin 1 (by norm_num) (by norm_num)
    have h1 := (abs_le.1 (hd _ hp)).2
    have h2 := (abs_le.1 (hd _ hq)).1
    rw [exQF_eval _ hp] at h1
    rw [exQF_eval _ hq] at h2
    have e1 : evalFunc2D (coeffs2D exQF.toReal) ![3 / 8, -4543979 / 10 ^ 7] < -(3 / 10 ^ 11) := by
      rw [exQF_formula]; norm_num
    have e2 : 3 < evalFunc2D (coeffs2D exQF.toReal) ![3 / 8, 1] := by
      rw [exQF_formula]; norm_num
    obtain ⟨t, ht, h0⟩ := intermediate_value_Icc (by norm_num : (-4543979 / 10 ^ 7 : ℝ) ≤ 1) hc.continuousOn
      (Set.mem_Icc.2 ⟨by linarith, by linarith⟩ : (0 : ℝ) ∈ _)
    refine ⟨_, hin t (le_trans (by norm_num) ht.1) ht.2, h0, ?_⟩
    rw [exQG_eval]
    simp

end YRoots
