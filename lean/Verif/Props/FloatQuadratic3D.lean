import Verif.Proofs.FloatQuadratic3D
import Verif.Proofs.FloatSlack3D
import Verif.Props.FloatQuadratic

/-!
# Property C107: the quadratic check in three variables in floating-point arithmetic
-/

namespace YRoots

open Finset

section Slack

variable {K : Type*} [Field K] [LinearOrder K] [IsStrictOrderedRing K]

theorem points3DF_inCube {fl : K → K} (c : Fin 10 → K) : ∀ p ∈ points3DF fl c, InCube p := by
  intro p hp
  unfold points3DF corners3D edges3DF faces3DF interior3DF at hp
  dsimp only at hp
  simp only [List.mem_append] at hp
  rcases hp with ((hp | (hp | hp) | hp) | (hp | hp) | hp) | hp
  · simp only [List.mem_cons, List.not_mem_nil, or_false] at hp
    rcases hp with rfl | rfl | rfl | rfl | rfl | rfl | rfl | rfl <;>
      exact inCube_vec3 (pm_one (by simp)) (pm_one (by simp)) (pm_one (by simp))
  iterate 3
    · split_ifs at hp
      · rw [List.mem_flatMap] at hp
        obtain ⟨x, hx, hp⟩ := hp
        rw [List.mem_flatMap] at hp
        obtain ⟨y, hy, hp⟩ := hp
        split_ifs at hp with h
        · rw [List.mem_singleton] at hp; rw [hp]
          apply inCube_vec3 <;> first | exact inside_le h | exact pm_one hx | exact pm_one hy
        · simp at hp
      · simp at hp
  iterate 3
    · split_ifs at hp
      · rw [List.mem_flatMap] at hp
        obtain ⟨x, hx, hp⟩ := hp
        split_ifs at hp with h
        · rw [List.mem_singleton] at hp; rw [hp]
          apply inCube_vec3 <;> first | exact inside_le h.1 | exact inside_le h.2 | exact pm_one hx
        · simp at hp
      · simp at hp
  · split_ifs at hp with hd h
    · rw [List.mem_singleton] at hp; rw [hp]; exact inCube_vec3 (inside_le h.1) (inside_le h.2.1) (inside_le h.2.2)
    · simp at hp
    · simp at hp

theorem coeffs3D_float {M : Tensor 3 K} (hM : M.Nonempty) (hFl : ∀ k ∈ M.idx, IsFloat 53 (M.coef k)) (i : Fin 10) :
    IsFloat 53 (coeffs3D M i) := by
  have h0 := hM 0
  have h1 := hM 1
  have h2 := hM 2
  have key : ∀ a b d, a < M.shape 0 → b < M.shape 1 → d < M.shape 2 → IsFloat 53 (M.coef ![a, b, d]) := by
    intro a b d ha hb hd
    apply hFl
    unfold Tensor.idx
    rw [Fintype.mem_piFinset]
    intro j
    fin_cases j
    · exact mem_range.2 ha
    · exact mem_range.2 hb
    · exact mem_range.2 hd
  fin_cases i
  · exact key 0 0 0 h0 h1 h2
  · show IsFloat 53 (if M.shape 0 > 1 then M.coef ![1, 0, 0] else 0)
    split_ifs with h
    exacts [key 1 0 0 h h1 h2, isFloat_zero]
  · show IsFloat 53 (if M.shape 1 > 1 then M.coef ![0, 1, 0] else 0)
    split_ifs with h
    exacts [key 0 1 0 h0 h h2, isFloat_zero]
  · show IsFloat 53 (if M.shape 2 > 1 then M.coef ![0, 0, 1] else 0)
    split_ifs with h
    exacts [key 0 0 1 h0 h1 h, isFloat_zero]
  · show IsFloat 53 (if M.shape 0 > 1 ∧ M.shape 1 > 1 then M.coef ![1, 1, 0] else 0)
    split_ifs with h
    exacts [key 1 1 0 h.1 h.2 h2, isFloat_zero]
  · show IsFloat 53 (if M.shape 0 > 1 ∧ M.shape 2 > 1 then M.coef ![1, 0, 1] else 0)
    split_ifs with h
    exacts [key 1 0 1 h.1 h1 h.2, isFloat_zero]
  · show IsFloat 53 (if M.shape 1 > 1 ∧ M.shape 2 > 1 then M.coef ![0, 1, 1] else 0)
    split_ifs with h
    exacts [key 0 1 1 h0 h.1 h.2, isFloat_zero]
  · show IsFloat 53 (if M.shape 0 > 2 then M.coef ![2, 0, 0] else 0)
    split_ifs with h
    exacts [key 2 0 0 h h1 h2, isFloat_zero]
  · show IsFloat 53 (if M.shape 1 > 2 then M.coef ![0, 2, 0] else 0)
    split_ifs with h
    exacts [key 0 2 0 h0 h h2, isFloat_zero]
  · show IsFloat 53 (if M.shape 2 > 2 then M.coef ![0, 0, 2] else 0)
    split_ifs with h
    exacts [key 0 0 2 h0 h1 h, isFloat_zero]

variable [FloorRing K] {ar : FloatArith K} (hfl : RoundsToNearest 53 ar.fl) (hs : ar.Sums)

include hfl hs

/-- **C107**, one direction: if the quadratic part stays outside a band wider by `2 ^ -30` of the absolute sum and the tolerance, the rounded
check returns `True`.  (The coefficients need not be representable.) -/
theorem C107_fires (M : Tensor 3 K) (hM : M.Nonempty) (hN : ∏ i, M.shape i ≤ 2 ^ 20) (tol : K)
    (ht : 0 ≤ tol) (h : NoCrossing M (quadRest M + (tol + 1 / 2 ^ 30 * (M.absSum + tol)))) : quadraticCheck3DF ar M tol = true := by
  obtain ⟨ho, hSA⟩ := otherSum3DF_close hfl hs M hM hN ht
  have hS0 : 0 ≤ ∑ i, |coeffs3D M i| := sum_nonneg fun _ _ => abs_nonneg _
  have slack : 64 * uu K * (∑ i, |coeffs3D M i|) + 1 / 2 ^ 31 * (M.absSum + tol) ≤ 1 / 2 ^ 30 * (M.absSum + tol) := by
    have e1 : 64 * uu K * (∑ i, |coeffs3D M i|) ≤ 1 / 2 ^ 31 * M.absSum := by
      refine mul_le_mul ?_ hSA hS0 (by norm_num)
      unfold uu
      norm_num
    have e3 : 1 / 2 ^ 31 * tol + 1 / 2 ^ 31 * tol = 1 / 2 ^ 30 * tol := by ring
    have e4 : 0 ≤ 1 / 2 ^ 31 * tol := by positivity
    have e5 : 1 / 2 ^ 31 * M.absSum + 1 / 2 ^ 31 * M.absSum = 1 / 2 ^ 30 * M.absSum := by ring
    linarith
  have ho2 := (abs_le.1 ho).2
  change otherSum3DF ar M tol - (quadRest M + tol) ≤ _ at ho2
  have close : ∀ p ∈ points3DF ar.fl (coeffs3D M), InCube p ∧
      |evalFunc3DF ar.fl (coeffs3D M) p - quadPart M p| ≤ 64 * uu K * ∑ i, |coeffs3D M i| := by
    intro p hp
    have hc := points3DF_inCube (coeffs3D M) p hp
    have e := evalFunc3DF_close hfl (coeffs3D M) (hc 0) (hc 1) (hc 2)
    rw [← vec3_eta p, evalFunc3D_eq M hM, ← quadPart_eq] at e
    exact ⟨hc, e⟩
  by_contra hc
  rw [Bool.not_eq_true] at hc
  obtain ⟨h1, h2⟩ := checkLoop_false hc
  simp only [Bool.false_eq_true, false_or, List.mem_map] at h1 h2
  obtain ⟨_, ⟨p, hp, rfl⟩, h1⟩ := h1
  obtain ⟨_, ⟨q, hq, rfl⟩, h2⟩ := h2
  obtain ⟨p1, p2⟩ := close p hp
  obtain ⟨q1, q2⟩ := close q hq
  rw [abs_le] at p2 q2
  rcases h with h | h
  · have := h p p1
    linarith [p2.1]
  · have := h q q1
    linarith [q2.2]

/-- **C107, part**: when the check returns `True`, the quadratic part stays outside the band of the other coefficients and the tolerance, less
`2 ^ -13` of the absolute sum of the coefficients and the tolerance. -/
theorem C107_crossing_partial (M : Tensor 3 K) (hM : M.Nonempty) (hFl : ∀ k ∈ M.idx, IsFloat 53 (M.coef k)) (hN : ∏ i, M.shape i ≤ 2 ^ 20) (tol : K)
    (ht : 0 ≤ tol) (h : quadraticCheck3DF ar M tol = true) : NoCrossing M (quadRest M + (tol - 1 / 2 ^ 13 * (M.absSum + tol))) := by
  obtain ⟨ho, hSA⟩ := otherSum3DF_close hfl hs M hM hN ht
  have hc := coeffs3D_float hM hFl
  have hS0 : 0 ≤ ∑ i, |coeffs3D M i| := sum_nonneg fun _ _ => abs_nonneg _
  have ev : ∀ x, evalFunc3D (coeffs3D M) x = evalQ M x := evalFunc3D_eq M hM
  have slack : 1 / 2 ^ 14 * (∑ i, |coeffs3D M i|) + (1 / 2 ^ 19 * (∑ i, |coeffs3D M i|) + 1 / 2 ^ 27 * (∑ i, |coeffs3D M i|)) +
      64 * uu K * (∑ i, |coeffs3D M i|) + 1 / 2 ^ 31 * (M.absSum + tol) ≤ 1 / 2 ^ 13 * (M.absSum + tol) := by
    have e1 : (1 / 2 ^ 14 + 1 / 2 ^ 19 + 1 / 2 ^ 27 + 64 * uu K) * (∑ i, |coeffs3D M i|) ≤ (1 / 2 ^ 14 + 1 / 2 ^ 18) * M.absSum := by
      refine mul_le_mul ?_ hSA hS0 (by norm_num)
      unfold uu
      norm_num
    have e2 : (1 / 2 ^ 14 + 1 / 2 ^ 18 + 1 / 2 ^ 31) * M.absSum ≤ 1 / 2 ^ 13 * M.absSum := mul_le_mul_of_nonneg_right (by norm_num) (hS0.trans hSA)
    have e3 : 1 / 2 ^ 31 * tol ≤ 1 / 2 ^ 13 * tol := mul_le_mul_of_nonneg_right (by norm_num) ht
    linarith
  have ho1 := (abs_le.1 ho).1
  change _ ≤ otherSum3DF ar M tol - (quadRest M + tol) at ho1
  have close : ∀ p ∈ points3DF ar.fl (coeffs3D M),
      |evalFunc3DF ar.fl (coeffs3D M) p - evalFunc3D (coeffs3D M) p| ≤ 64 * uu K * ∑ i, |coeffs3D M i| := by
    intro p hp
    have hi := points3DF_inCube (coeffs3D M) p hp
    have e := evalFunc3DF_close hfl (coeffs3D M) (hi 0) (hi 1) (hi 2)
    rwa [← vec3_eta p] at e
  unfold quadraticCheck3DF at h
  rcases checkLoop_true h with h0 | ⟨-, h0⟩ | ⟨-, h0⟩
  · rw [List.map_eq_nil_iff] at h0
    simp [points3DF, corners3D] at h0
  · left
    intro x hx
    obtain ⟨p, hp, hv⟩ := reach3_all hfl hc (σ := 1) (by simp) le_rfl hx
    have h1 := h0 _ (List.mem_map_of_mem hp)
    have h2 := (abs_le.1 (close p hp)).2
    rw [one_mul, one_mul, ev x] at hv
    rw [quadPart_eq]
    linarith
  · right
    intro x hx
    obtain ⟨p, hp, hv⟩ := reach3_all hfl hc (σ := -1) (by simp) le_rfl hx
    have h1 := h0 _ (List.mem_map_of_mem hp)
    have h2 := (abs_le.1 (close p hp)).1
    rw [neg_one_mul, neg_one_mul, ev x] at hv
    rw [quadPart_eq]
    linarith

/-- **C107, part**: so functions closer to the polynomial than the tolerance less `2 ^ -13` of the absolute sum of the coefficients and the tolerance
have no zero on the cube. -/
theorem C107_slack_partial (M : Tensor 3 K) (hM : M.Nonempty) (hFl : ∀ k ∈ M.idx, IsFloat 53 (M.coef k)) (hN : ∏ i, M.shape i ≤ 2 ^ 20) (tol : K)
    (ht : 0 ≤ tol) (h : quadraticCheck3DF ar M tol = true) (F : (Fin 3 → K) → K)
    (hF : ∀ x, InCube x → |F x - M.eval x| < tol - 1 / 2 ^ 13 * (M.absSum + tol)) (x : Fin 3 → K) (hx : InCube x) : F x ≠ 0 :=
  noCrossing_no_zero M _ (C107_crossing_partial hfl hs M hM hFl hN tol ht h) F hF x hx

end Slack

/-- `9 + T_1(x) + 2 T_1(x) T_1(y) + 3 T_2(z) + T_1(y) T_2(z)`. -/
def exQ9 : Tensor 3 ℚ := ⟨![2, 2, 3], fun k => if k = ![0, 0, 0] then 9 else if k = ![1, 0, 0] then 1 else if k = ![1, 1, 0] then 2 else
  if k = ![0, 0, 2] then 3 else if k = ![0, 1, 2] then 1 else 0⟩

theorem exQ9_float (k : Fin 3 → ℕ) : IsFloat 53 (exQ9.coef k) := by
  unfold exQ9
  simp only
  split_ifs
  · exact ⟨9, 0, by norm_num, by norm_num⟩
  · exact ⟨1, 0, by norm_num, by norm_num⟩
  · exact ⟨2, 0, by norm_num, by norm_num⟩
  · exact ⟨3, 0, by norm_num, by norm_num⟩
  · exact ⟨1, 0, by norm_num, by norm_num⟩
  · exact isFloat_zero

theorem exQ9_nonempty : exQ9.Nonempty := by intro i; fin_cases i <;> simp [exQ9]

/-- The hypotheses can be met. -/
example : quadraticCheck3DF exAr exQ9 (1 / 4) = true := by
  refine C107_fires (ar := exAr) (roundFloat_nearest (by norm_num)) (leftSum_sums _) exQ9 exQ9_nonempty
    (by simp [exQ9, Fin.prod_univ_three]) (1 / 4) (by norm_num) ?_
  exact (C45_quad3D_iff exQ9 exQ9_nonempty _).1 (by decide +kernel)

/-- So can those of the converse. -/
example (F : (Fin 3 → ℚ) → ℚ) (hF : ∀ x, InCube x → |F x - exQ9.eval x| < 1 / 4) (x : Fin 3 → ℚ) (hx : InCube x) : F x ≠ 0 := by
  refine C107_slack_partial (ar := exAr) (roundFloat_nearest (by norm_num)) (leftSum_sums _) exQ9 exQ9_nonempty (fun k _ => exQ9_float k)
    (by simp [exQ9, Fin.prod_univ_three]) (1 / 2) (by norm_num) (by decide +kernel) F (fun x hx => (hF x hx).trans_le ?_) x hx
  have : exQ9.absSum = 16 := by decide +kernel
  rw [this]
  norm_num

/-- The check does not always answer `True`. -/
example : quadraticCheck3DF exAr exQ9 4 = false := by decide +kernel

/-! ### The check loses roots -/

/-- A polynomial of degree two in three variables with binary64 coefficients. -/
def exQF3 : Tensor 3 ℚ := ⟨fun _ => 3, fun k =>
  if k = ![0, 0, 0] then 1485287364172151 / 2 ^ 49 else if k = ![1, 0, 0] then -2788812651026539 / 2 ^ 51 else
  if k = ![0, 1, 0] then 1370627609055641 / 2 ^ 50 else if k = ![0, 0, 1] then 3165421486209071 / 2 ^ 51 else
  if k = ![1, 1, 0] then -6463027087452793 / 2 ^ 51 else if k = ![1, 0, 1] then -7463077291841521 / 2 ^ 51 else
  if k = ![0, 1, 1] then 7335811292843991 / 2 ^ 51 else if k = ![2, 0, 0] then 3287577321481801 / 2 ^ 52 else
  if k = ![0, 2, 0] then 6352815146632705 / 2 ^ 53 else if k = ![0, 0, 2] then 8470914250788303 / 2 ^ 53 else 0⟩

theorem exQF3_check : quadraticCheck3DF exAr exQF3 macheps = true := by decide +kernel

theorem exQF3_float (k : Fin 3 → ℕ) : IsFloat 53 (exQF3.coef k) := by
  unfold exQF3
  simp only
  split_ifs
  · exact ⟨1485287364172151, -49, by norm_num, by norm_num⟩
  · exact ⟨-2788812651026539, -51, by norm_num, by norm_num⟩
  · exact ⟨1370627609055641, -50, by norm_num, by norm_num⟩
  · exact ⟨3165421486209071, -51, by norm_num, by norm_num⟩
  · exact ⟨-6463027087452793, -51, by norm_num, by norm_num⟩
  · exact ⟨-7463077291841521, -51, by norm_num, by norm_num⟩
  · exact ⟨7335811292843991, -51, by norm_num, by norm_num⟩
  · exact ⟨3287577321481801, -52, by norm_num, by norm_num⟩
  · exact ⟨6352815146632705, -53, by norm_num, by norm_num⟩
  · exact ⟨8470914250788303, -53, by norm_num, by norm_num⟩
  · exact isFloat_zero

/-- `T_1(x) - 1/8`. -/
def exQG3 : Tensor 3 ℚ := ⟨![2, 1, 1], fun k => if k 0 = 0 then -1 / 8 else 1⟩

/-- `T_1(y)`. -/
def exQH3 : Tensor 3 ℚ := ⟨![1, 2, 1], fun k => if k 1 = 0 then 0 else 1⟩

theorem exQG3_float (k : Fin 3 → ℕ) : IsFloat 53 (exQG3.coef k) := by
  unfold exQG3
  simp only
  split_ifs
  · exact ⟨-1, -3, by norm_num, by norm_num⟩
  · exact ⟨1, 0, by norm_num, by norm_num⟩

theorem exQH3_float (k : Fin 3 → ℕ) : IsFloat 53 (exQH3.coef k) := by
  unfold exQH3
  simp only
  split_ifs
  · exact isFloat_zero
  · exact ⟨1, 0, by norm_num, by norm_num⟩

theorem exQF3_eval (x : Fin 3 → ℝ) (hx : InCube x) : exQF3.toReal.eval x = evalFunc3D (coeffs3D exQF3.toReal) x := by
  have h := eval_sub_evalQ exQF3.toReal x hx
  have h0 : restAbs exQF3 = 0 := by decide +kernel
  have h1 : restAbs exQF3.toReal = ((restAbs exQF3 : ℚ) : ℝ) := by
    unfold restAbs Tensor.toReal
    push_cast
    rfl
  rw [h1, h0, Rat.cast_zero, abs_nonpos_iff, sub_eq_zero] at h
  rw [h, evalFunc3D_eq]
  intro i
  simp [exQF3, Tensor.toReal]

theorem exQF3_formula (x y z : ℝ) : evalFunc3D (coeffs3D exQF3.toReal) ![x, y, z] =
    1485287364172151 / 2 ^ 49 - 3287577321481801 / 2 ^ 52 - 6352815146632705 / 2 ^ 53 - 8470914250788303 / 2 ^ 53 + (-2788812651026539 / 2 ^ 51 + 2 * (3287577321481801 / 2 ^ 52) * x + -6463027087452793 / 2 ^ 51 * y + -7463077291841521 / 2 ^ 51 * z) * x
      + (1370627609055641 / 2 ^ 50 + 2 * (6352815146632705 / 2 ^ 53) * y + 7335811292843991 / 2 ^ 51 * z) * y + (3165421486209071 / 2 ^ 51 + 2 * (8470914250788303 / 2 ^ 53) * z) * z := by
  have e0 : coeffs3D exQF3.toReal 0 = 1485287364172151 / 2 ^ 49 := by
    show exQF3.toReal.coef ![0, 0, 0] = _
    norm_num [exQF3, Tensor.toReal]
  have e1 : coeffs3D exQF3.toReal 1 = -2788812651026539 / 2 ^ 51 := by
    show (if exQF3.toReal.shape 0 > 1 then exQF3.toReal.coef ![1, 0, 0] else 0) = _
    norm_num [exQF3, Tensor.toReal]
  have e2 : coeffs3D exQF3.toReal 2 = 1370627609055641 / 2 ^ 50 := by
    show (if exQF3.toReal.shape 1 > 1 then exQF3.toReal.coef ![0, 1, 0] else 0) = _
    norm_num [exQF3, Tensor.toReal]
  have e3 : coeffs3D exQF3.toReal 3 = 3165421486209071 / 2 ^ 51 := by
    show (if exQF3.toReal.shape 2 > 1 then exQF3.toReal.coef ![0, 0, 1] else 0) = _
    norm_num [exQF3, Tensor.toReal]
  have e4 : coeffs3D exQF3.toReal 4 = -6463027087452793 / 2 ^ 51 := by
    show (if exQF3.toReal.shape 0 > 1 ∧ exQF3.toReal.shape 1 > 1 then exQF3.toReal.coef ![1, 1, 0] else 0) = _
    norm_num [exQF3, Tensor.toReal]
  have e5 : coeffs3D exQF3.toReal 5 = -7463077291841521 / 2 ^ 51 := by
    show (if exQF3.toReal.shape 0 > 1 ∧ exQF3.toReal.shape 2 > 1 then exQF3.toReal.coef ![1, 0, 1] else 0) = _
    norm_num [exQF3, Tensor.toReal]
  have e6 : coeffs3D exQF3.toReal 6 = 7335811292843991 / 2 ^ 51 := by
    show (if exQF3.toReal.shape 1 > 1 ∧ exQF3.toReal.shape 2 > 1 then exQF3.toReal.coef ![0, 1, 1] else 0) = _
    norm_num [exQF3, Tensor.toReal]
  have e7 : coeffs3D exQF3.toReal 7 = 3287577321481801 / 2 ^ 52 := by
    show (if exQF3.toReal.shape 0 > 2 then exQF3.toReal.coef ![2, 0, 0] else 0) = _
    norm_num [exQF3, Tensor.toReal]
  have e8 : coeffs3D exQF3.toReal 8 = 6352815146632705 / 2 ^ 53 := by
    show (if exQF3.toReal.shape 1 > 2 then exQF3.toReal.coef ![0, 2, 0] else 0) = _
    norm_num [exQF3, Tensor.toReal]
  have e9 : coeffs3D exQF3.toReal 9 = 8470914250788303 / 2 ^ 53 := by
    show (if exQF3.toReal.shape 2 > 2 then exQF3.toReal.coef ![0, 0, 2] else 0) = _
    norm_num [exQF3, Tensor.toReal]
  rw [evalFunc3D_vec, e0, e1, e2, e3, e4, e5, e6, e7, e8, e9]

theorem exQG3_eval (x : Fin 3 → ℝ) : exQG3.toReal.eval x = x 0 - 1 / 8 := by
  have h : exQG3.toReal.idx = {![0, 0, 0], ![1, 0, 0]} := by
    show exQG3.idx = _
    decide +kernel
  unfold Tensor.eval
  rw [h, sum_pair (by decide)]
  simp [Tensor.toReal, exQG3, Fin.prod_univ_three, chebT]
  ring

theorem exQH3_eval (x : Fin 3 → ℝ) : exQH3.toReal.eval x = x 1 := by
  have h : exQH3.toReal.idx = {![0, 0, 0], ![0, 1, 0]} := by
    show exQH3.idx = _
    decide +kernel
  unfold Tensor.eval
  rw [h, sum_pair (by decide)]
  simp [Tensor.toReal, exQH3, Fin.prod_univ_three, chebT]

/-- The claim of C107 for one polynomial: if the rounded check returns `True`, functions within the tolerance of the polynomial have no zero on the
cube. -/
def QuadCheck3Claim {K : Type*} [Field K] [LinearOrder K] (ar : FloatArith K) (M : Tensor 3 K) (tol : K) : Prop :=
  quadraticCheck3DF ar M tol = true → ∀ F : (Fin 3 → K) → K, (∀ x, InCube x → |F x - M.eval x| ≤ tol) → ∀ x, InCube x → F x ≠ 0

/-- **C107 is false of the code.** In binary64 with ties to even, with the tolerance `2 ^ -52` which `solve` gives to polynomials, the check returns
`True` on a polynomial with representable coefficients, though the polynomial is below `-39 * 10 ^ -8` at one point of the cube, above `3` at
another, and smaller than `10 ^ -19` in absolute value at a third. -/
theorem C107_false : ∃ ar : FloatArith ℚ, ar.fl = roundFloat 53 ∧ RoundsToNearest 53 ar.fl ∧ ar.Sums ∧
    (∀ k, IsFloat 53 (exQF3.coef k)) ∧ quadraticCheck3DF ar exQF3 macheps = true ∧
    (∃ p q z : Fin 3 → ℚ, InCube p ∧ InCube q ∧ InCube z ∧ exQF3.eval p < -(39 / 10 ^ 8) ∧ 3 < exQF3.eval q ∧ |exQF3.eval z| < 1 / 10 ^ 19) ∧
    ¬ QuadCheck3Claim ar exQF3 macheps := by
  have hp : InCube (![1 / 8, 0, -263553 / 10 ^ 6] : Fin 3 → ℚ) := by intro i; fin_cases i <;> norm_num [abs_le]
  have hq : InCube (![1 / 8, 0, 1] : Fin 3 → ℚ) := by intro i; fin_cases i <;> norm_num [abs_le]
  have hz : InCube (![1 / 8, 0, -4739511572016347 / 2 ^ 54] : Fin 3 → ℚ) := by intro i; fin_cases i <;> norm_num [abs_le]
  have ev : ∀ x, InCube x → exQF3.eval x = evalFunc3D (coeffs3D exQF3) x := by
    intro x hx
    have h := eval_sub_evalQ exQF3 x hx
    have h0 : restAbs exQF3 = 0 := by decide +kernel
    rw [h0, abs_nonpos_iff, sub_eq_zero] at h
    rw [h, evalFunc3D_eq]
    intro i
    simp [exQF3]
  have h3 : |exQF3.eval ![1 / 8, 0, -4739511572016347 / 2 ^ 54]| < 1 / 10 ^ 19 := by rw [ev _ hz]; decide +kernel
  refine ⟨exAr, rfl, roundFloat_nearest (by norm_num), leftSum_sums _, exQF3_float, exQF3_check,
    ⟨_, _, _, hp, hq, hz, by rw [ev _ hp]; decide +kernel, by rw [ev _ hq]; decide +kernel, h3⟩, fun h => ?_⟩
  refine h exQF3_check (fun x => if x = ![1 / 8, 0, -4739511572016347 / 2 ^ 54] then 0 else exQF3.eval x) (fun x _ => ?_) _ hz (if_pos rfl)
  split_ifs with hx
  · rw [hx, zero_sub, abs_neg]
    exact h3.le.trans (by norm_num [macheps])
  · rw [sub_self, abs_zero]
    norm_num [macheps]

/-- **C107, consequence**: the solver, started on the system of this polynomial, `T_1(x) - 1/8` and `T_1(y)` with the errors `2 ^ -52`, returns no
interval at all, whatever the linear algebra and the trimming do.  Yet the system has a common zero, and so has every system of a continuous function
within `39 * 10 ^ -8` of the first polynomial and the other two polynomials. -/
theorem C107_system_false : ∃ ar : FloatArith ℚ, ar.fl = roundFloat 53 ∧ RoundsToNearest 53 ar.fl ∧ ar.Sums ∧
    (∀ k, IsFloat 53 (exQF3.coef k)) ∧ (∀ k, IsFloat 53 (exQG3.coef k)) ∧ (∀ k, IsFloat 53 (exQH3.coef k)) ∧
    (∀ (svd : SvdF 3 ℚ) (trim : (Fin 3 → Tensor 3 ℚ) → (Fin 3 → ℚ) → (Fin 3 → Tensor 3 ℚ) × (Fin 3 → ℚ)),
      startDiscards ar svd (quadraticDiscards3DF ar) trim ![exQF3, exQG3, exQH3] (fun _ => macheps) = true) ∧
    ∀ F : (Fin 3 → ℝ) → ℝ, Continuous F → (∀ x, InCube x → |F x - exQF3.toReal.eval x| ≤ 39 / 10 ^ 8) →
      ∃ x, InCube x ∧ F x = 0 ∧ exQG3.toReal.eval x = 0 ∧ exQH3.toReal.eval x = 0 := by
  refine ⟨exAr, rfl, roundFloat_nearest (by norm_num), leftSum_sums _, exQF3_float, exQG3_float, exQH3_float, fun svd trim => ?_, fun F hF hd => ?_⟩
  · have : quadraticDiscards3DF exAr ![exQF3, exQG3, exQH3] (fun _ => macheps) = true := by
      unfold quadraticDiscards3DF
      exact decide_eq_true ⟨0, exQF3_check⟩
    unfold startDiscards
    rw [this, Bool.or_true, Bool.true_or]
  · have hc : Continuous fun t : ℝ => F ![1 / 8, 0, t] := hF.comp (by
      refine continuous_pi fun i => ?_
      fin_cases i
      · exact continuous_const
      · exact continuous_const
      · exact continuous_id)
    have hin : ∀ t : ℝ, -1 ≤ t → t ≤ 1 → InCube (![1 / 8, 0, t] : Fin 3 → ℝ) := by
      intro t h1 h2 i
      fin_cases i
      · norm_num [abs_le]
      · norm_num [abs_le]
      · exact abs_le.2 ⟨h1, h2⟩
    have hp := hin (-263553 / 10 ^ 6) (by norm_num) (by norm_num)
    have hq := hin 1 (by norm_num) (by norm_num)
    have h1 := (abs_le.1 (hd _ hp)).2
    have h2 := (abs_le.1 (hd _ hq)).1
    rw [exQF3_eval _ hp] at h1
    rw [exQF3_eval _ hq] at h2
    have e1 : evalFunc3D (coeffs3D exQF3.toReal) ![1 / 8, 0, -263553 / 10 ^ 6] < -(39 / 10 ^ 8) := by
      rw [exQF3_formula]; norm_num
    have e2 : 3 < evalFunc3D (coeffs3D exQF3.toReal) ![1 / 8, 0, 1] := by
      rw [exQF3_formula]; norm_num
    obtain ⟨t, ht, h0⟩ := intermediate_value_Icc (by norm_num : (-263553 / 10 ^ 6 : ℝ) ≤ 1) hc.continuousOn
      (Set.mem_Icc.2 ⟨by linarith, by linarith⟩ : (0 : ℝ) ∈ _)
    refine ⟨_, hin t (le_trans (by norm_num) ht.1) ht.2, h0, ?_, ?_⟩
    · rw [exQG3_eval]
      simp
    · rw [exQH3_eval]
      simp

end YRoots
