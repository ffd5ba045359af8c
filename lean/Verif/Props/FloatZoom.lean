import Verif.Proofs.FloatZoom
import Verif.Props.FloatTransform
import Verif.Props.FloatBounding
import Verif.Proofs.FloatQuadratic
import Verif.Proofs.NormBound

/-!
# Property C110: re-expansion on a subinterval, from the bounds of the subinterval to the arrays and errors

Specification: `F` is any function within `error` of the array, and the point of the subinterval that belongs to `x` is computed exactly.
-/

set_option linter.unusedSectionVars false

namespace YRoots

open Finset

/-- The claim of C110 for one array, one error and one subinterval: the errors returned bound the distance of the new array from the function. -/
def ZoomErrorClaim {n : ℕ} {K : Type*} [Field K] [LinearOrder K] (ar : FloatArith K) (M : Tensor n K) (error : K) (a b : Fin n → K) : Prop :=
  ∀ F : (Fin n → K) → K, (∀ x, InCube x → |F x - M.eval x| ≤ error) → ∀ i x, InCube x →
    |F (fun j => (b j - a j) / 2 * x j + (b j + a j) / 2) - ((zoomToF ar (fun _ : Fin n => M) (fun _ => error) a b).1 i).eval x| ≤
      (zoomToF ar (fun _ : Fin n => M) (fun _ => error) a b).2 i

section Bound

variable {n : ℕ} {fl : ℝ → ℝ} (hfl : RoundsToNearest 53 fl)

include hfl

/-- One axis, with rounded midpoint and half length. -/
theorem axis_bound (M : Tensor n ℝ) (d : Fin n) (h0 : 0 < M.shape d) (hN : M.shape d ≤ 2 ^ 19) {α β αs βs : ℝ} (hs : |αs| + |βs| ≤ 1)
    (hα : |α - αs| ≤ 1 / 2 ^ 53 * |αs|) (hβ : |β - βs| ≤ 1 / 2 ^ 53 * |βs|) (hid : α = 1 ∧ β = 0 → αs = 1 ∧ βs = 0)
    (x : Fin n → ℝ) (hx : InCube x) :
    |M.eval (Function.update x d (αs * x d + βs)) - (transformNDF fl M d α β).eval x|
      ≤ 21 * √(M.shape d : ℝ) ^ 3 * getTransformationError M d := by
  have hS : 0 ≤ M.absSum := Finset.sum_nonneg fun _ _ => abs_nonneg _
  have hthr := fl_nonneg hfl (by norm_num : (0 : ℝ) ≤ 1 / 10 ^ 16)
  have hf := fl_rel' hfl
  have hu : (0 : ℝ) ≤ 1 / 2 ^ 53 := by norm_num
  refine (transformNDF_bound' M d h0 α β (αs * x d + βs) hx (fun h => by rw [(hid h).1, (hid h).2]; ring)
    (C := 42 * √(M.shape d : ℝ) ^ 5 * (1 / 2 ^ 53)) (by positivity) ?_).trans (le_of_eq ?_)
  · intro h2 coeffs k
    obtain ⟨m, hm⟩ : ∃ m, M.shape d = m + 2 := ⟨M.shape d - 2, by omega⟩
    rw [hm] at hN ⊢
    obtain ⟨r, hr⟩ : ∃ r, r = √((m + 2 : ℕ) : ℝ) := ⟨_, rfl⟩
    obtain ⟨P, hP⟩ : ∃ P, P = √(2 * ((m + 3 : ℕ) : ℝ)) := ⟨_, rfl⟩
    obtain ⟨u, hud⟩ : ∃ u : ℝ, u = 1 / 2 ^ 53 := ⟨_, rfl⟩
    have hm0 : (0 : ℝ) ≤ m := Nat.cast_nonneg m
    have hr2 : r ^ 2 = m + 2 := by rw [hr, Real.sq_sqrt (by positivity)]; push_cast; ring
    have hr0 : 0 ≤ r := by rw [hr]; positivity
    have hmR : (m : ℝ) + 2 ≤ 2 ^ 19 := by exact_mod_cast hN
    have hr725 : r ≤ 725 := by nlinarith
    have hP0 : 0 ≤ P := by rw [hP]; positivity
    have hP2 : P ^ 2 = 2 * (m + 3) := by rw [hP, Real.sq_sqrt (by positivity)]; push_cast; ring
    have hP1 : 1 ≤ P := by nlinarith
    have hPr : P ≤ 17321 / 10000 * r := by
      apply (pow_le_pow_iff_left₀ hP0 (by positivity) two_ne_zero).1
      rw [hP2, mul_pow, hr2]
      nlinarith
    rw [← hud] at hα hβ hf hu
    have h3 := thr_le hfl
    rw [← hud] at h3
    have htt : ((1 + u) ^ 6 - 1) * (6 * P) + fl (1 / 10 ^ 16) ≤ 43 * u * P := by
      have h1 : (1 + u) ^ 6 - 1 ≤ 7 * u := by rw [hud]; norm_num
      have h4 := mul_le_mul_of_nonneg_right h1 (by positivity : (0 : ℝ) ≤ 6 * P)
      have h5 := mul_le_mul_of_nonneg_left hP1 hu
      linarith
    have hut : u ≤ 43 * u * P := by
      have h5 := mul_le_mul_of_nonneg_left hP1 hu
      linarith
    have hE : 43 * u * P * (((m + 1 : ℕ) : ℝ) * ((m + 1 : ℕ) + 1) / 2) ≤ 3725 / 100 * (u * r ^ 5) := by
      push_cast
      have h4 : ((m : ℝ) + 1) * (m + 1 + 1) / 2 ≤ r ^ 4 / 2 := by
        have : r ^ 4 = (m + 2) ^ 2 := by rw [← hr2]; ring
        rw [this]
        nlinarith
      have h5 : 43 * u * P ≤ 43 * u * (17321 / 10000 * r) := mul_le_mul_of_nonneg_left hPr (by positivity)
      have h6 : 43 * u * P * (((m : ℝ) + 1) * (m + 1 + 1) / 2) ≤ 43 * u * (17321 / 10000 * r) * (r ^ 4 / 2) :=
        mul_le_mul h5 h4 (by positivity) (by positivity)
      have h7 : 0 ≤ u * r ^ 5 := by positivity
      refine h6.trans ?_
      have e : 43 * u * (17321 / 10000 * r) * (r ^ 4 / 2) = 43 * (17321 / 10000) / 2 * (u * r ^ 5) := by ring
      rw [e]
      exact mul_le_mul_of_nonneg_right (by norm_num) h7
    have hone : 43 * u * P * (((m + 1 : ℕ) : ℝ) * ((m + 1 : ℕ) + 1) / 2) ≤ 1 := by
      refine hE.trans ?_
      have h4 : r ^ 5 ≤ 2 ^ 38 * 725 := by
        have : r ^ 5 = (m + 2) ^ 2 * r := by rw [← hr2]; ring
        rw [this]
        have h5 : ((m : ℝ) + 2) ^ 2 ≤ (2 ^ 19) ^ 2 := pow_le_pow_left₀ (by linarith) hmR 2
        calc _ ≤ (2 ^ 19) ^ 2 * 725 := mul_le_mul h5 hr725 hr0 (by norm_num)
          _ = _ := by norm_num
      have h5 := mul_le_mul_of_nonneg_left h4 hu
      have h6 : u * (2 ^ 38 * 725) * (3725 / 100) ≤ 1 := by rw [hud]; norm_num
      linarith
    obtain ⟨c1, c2⟩ := run_cols hu hf hthr coeffs hs hα hβ m hP htt hut hone
    refine (fibre_error hu hf hthr coeffs α β m (m + 3) (by omega) (αs * x d + βs) (x d) (hx d) k
      (fun c hc => c1 c (by omega)) (fun c hc => c2 c (by omega) (x d) (hx d))).trans ?_
    refine mul_le_mul_of_nonneg_right ?_ (sum_nonneg fun _ _ => abs_nonneg _)
    have hp := pow_u_le (m + 2) (le_trans hN (by norm_num))
    rw [← hud] at hp
    have h4 : ((1 + u) ^ (m + 2) - 1) * (2 * P) ≤ 2 * (r ^ 2) * u * (2 * (17321 / 10000 * r)) := by
      apply mul_le_mul _ (by linarith) (by positivity) (by positivity)
      rw [hr2]
      push_cast at hp
      linarith
    have h5 : 2 * (r ^ 2) * u * (2 * (17321 / 10000 * r)) ≤ 4 * (u * r ^ 5) := by
      have e : u * r ^ 5 = (u * r ^ 3) * r ^ 2 := by ring
      have h6 : 0 ≤ u * r ^ 3 := by positivity
      have h7 : 2 ≤ r ^ 2 := by rw [hr2]; linarith
      have h8 := mul_le_mul_of_nonneg_left h7 h6
      rw [e]
      linarith
    have h7 : 0 ≤ u * r ^ 5 := by positivity
    rw [← hr, ← hud]
    linarith
  · unfold getTransformationError macheps
    have hsq : √(M.shape d : ℝ) ^ 2 = M.shape d := Real.sq_sqrt (by positivity)
    have : √(M.shape d : ℝ) ^ 5 = √(M.shape d : ℝ) ^ 3 * M.shape d := by
      calc _ = √(M.shape d : ℝ) ^ 3 * √(M.shape d : ℝ) ^ 2 := by ring
        _ = _ := by rw [hsq]
    rw [this]
    ring

/-- **C100, part**, with a better bound than `C100_bound_partial`: for axes of at most `2 ^ 19` entries the error of the rounded computation (with the
dropping of rows) is at most `21 N ^ (3/2)` times the value of `getTransformationError`. -/
theorem C100_sharp_partial (M : Tensor n ℝ) (d : Fin n) (h0 : 0 < M.shape d) (hN : M.shape d ≤ 2 ^ 19) (α β : ℝ)
    (hαβ : ∀ t : ℝ, |t| ≤ 1 → |α * t + β| ≤ 1) (x : Fin n → ℝ) (hx : InCube x) :
    |M.eval (Function.update x d (α * x d + β)) - (transformNDF fl M d α β).eval x|
      ≤ 21 * √(M.shape d : ℝ) ^ 3 * getTransformationError M d :=
  axis_bound hfl M d h0 hN (abs_add_abs_le_one hαβ) (by simp) (by simp) (fun h => h) x hx

/-- The transformed array has at most as many entries, and some along every axis. -/
theorem transformNDF_shape (M : Tensor n ℝ) (d : Fin n) (hM : M.Nonempty) (α β : ℝ) :
    (transformNDF fl M d α β).Nonempty ∧ ∀ i, (transformNDF fl M d α β).shape i ≤ M.shape i := by
  have hthr := fl_nonneg hfl (by norm_num : (0 : ℝ) ≤ 1 / 10 ^ 16)
  have hf := fl_rel' hfl
  have hu : (0 : ℝ) ≤ 1 / 2 ^ 53 := by norm_num
  rcases transformNDF_cases (fl := fl) M d α β with ⟨h0, -⟩ | ⟨hne, σ, z, hz, h0⟩
  · rw [h0]
    exact ⟨hM, fun _ => le_rfl⟩
  · have h1 : (M.transpose σ).shape z = M.shape d := by simp [Tensor.transpose, hz]
    have h2 : ∀ i, (transformNDF fl M d α β).shape i =
        if i = d then (transform1DF fl ((M.transpose σ).rows z) (M.shape d) α β).2 else M.shape i := by
      intro i
      rw [h0]
      show (transformAxisF fl (M.transpose σ) z α β).shape (σ.symm i) = _
      rw [transformAxisF, h1]
      by_cases hi : i = d
      · subst hi
        have : σ.symm i = z := by rw [← hz, Equiv.symm_apply_apply]
        simp [Tensor.ofRows, this]
      · have : σ.symm i ≠ z := fun h => hi (by rw [← hz, ← h, Equiv.apply_symm_apply])
        simp [Tensor.ofRows, this, hi, Tensor.transpose]
    have hd := hM d
    obtain ⟨m, hm⟩ : ∃ m, M.shape d = m + 2 := ⟨M.shape d - 2, by omega⟩
    have h3 := tRunF_maxRow_le hu hf hthr ((M.transpose σ).rows z) α β m
    have h4 := (tRunF_supp hu hf hthr ((M.transpose σ).rows z) α β m).two_le
    have h5 : (transform1DF fl ((M.transpose σ).rows z) (M.shape d) α β).2 = (tRunF fl (fl (1 / 10 ^ 16)) ((M.transpose σ).rows z) α β m).maxRow := by
      rw [hm]; rfl
    constructor
    · intro i
      rw [h2 i]
      split
      · rw [h5]; omega
      · exact hM i
    · intro i
      rw [h2 i]
      split
      · rename_i h; subst h; rw [h5]; omega
      · exact le_rfl

/-- Midpoint and half length. -/
theorem transformPoints_close {a b : ℝ} (fa : IsFloat 53 a) (fb : IsFloat 53 b) (ha : |a| ≤ 1) (hb : |b| ≤ 1) :
    |(b - a) / 2| + |(b + a) / 2| ≤ 1 ∧ |(getTransformPointsF fl a b).1 - (b - a) / 2| ≤ 1 / 2 ^ 53 * |(b - a) / 2| ∧
    |(getTransformPointsF fl a b).2 - (b + a) / 2| ≤ 1 / 2 ^ 53 * |(b + a) / 2| ∧
    ((getTransformPointsF fl a b).1 = 1 ∧ (getTransformPointsF fl a b).2 = 0 → (b - a) / 2 = 1 ∧ (b + a) / 2 = 0) := by
  have half : ∀ x, fl (fl x / 2) = fl x / 2 := fun x => fl_eq hfl (isFloat_half (hfl.isFloat x))
  have rel : ∀ x, |fl x / 2 - x / 2| ≤ 1 / 2 ^ 53 * |x / 2| := by
    intro x
    have := fl_rel' hfl x
    rw [← sub_div, abs_div, abs_div, abs_two]
    linarith
  unfold getTransformPointsF
  simp only [half]
  refine ⟨?_, rel _, rel _, fun ⟨h1, h2⟩ => ?_⟩
  · rw [abs_le] at ha hb
    rcases abs_cases ((b - a) / 2) with ⟨e, _⟩ | ⟨e, _⟩ <;> rcases abs_cases ((b + a) / 2) with ⟨e', _⟩ | ⟨e', _⟩ <;> rw [e, e'] <;>
      linarith [ha.1, ha.2, hb.1, hb.2]
  · have h3 := rel (b + a)
    rw [h2, zero_sub, abs_neg] at h3
    have h4 : |(b + a) / 2| = 0 := le_antisymm (by linarith [abs_nonneg ((b + a) / 2)]) (abs_nonneg _)
    have h5 : (b + a) / 2 = 0 := abs_eq_zero.1 h4
    have h6 : b - a = 2 * b := by linarith
    rw [h6, fl_eq hfl (isFloat_two_mul fb)] at h1
    exact ⟨by linarith, h5⟩

end Bound

section Zoom

variable {n : ℕ} {ar : FloatArith ℝ} (hfl : RoundsToNearest 53 ar.fl) (hs : ar.Sums)

include hfl hs

theorem transformationErrorF_close (M : Tensor n ℝ) (hM : M.Nonempty) (hN : ∏ i, M.shape i ≤ 2 ^ 19) (d : Fin n) :
    (1 - 1 / 2 ^ 31) * getTransformationError M d ≤ getTransformationErrorF ar M d ∧
      getTransformationErrorF ar M d ≤ (1 + 1 / 2 ^ 31) * getTransformationError M d := by
  have hS : 0 ≤ M.absSum := Finset.sum_nonneg fun _ _ => abs_nonneg _
  have h1 := abs_le.1 (sum_close hfl hs M hM (hN.trans (by norm_num)))
  have h2 : ar.fl ((M.shape d : ℝ) * macheps) = (M.shape d : ℝ) * macheps := by
    apply fl_eq hfl
    have hd : M.shape d ≤ ∏ i, M.shape i := Nat.le_of_dvd (prod_pos fun j _ => hM j) (dvd_prod_of_mem _ (mem_univ d))
    refine ⟨M.shape d, -52, ?_, ?_⟩
    · rw [abs_of_nonneg (by positivity)]
      exact_mod_cast (by omega : M.shape d < 2 ^ 53)
    · unfold macheps
      push_cast
      rw [zpow_neg]
      norm_num
  unfold getTransformationErrorF getTransformationError
  rw [h2]
  obtain ⟨c, hc⟩ : ∃ c : ℝ, c = (M.shape d : ℝ) * macheps := ⟨_, rfl⟩
  rw [← hc]
  have hc0 : 0 ≤ c := by rw [hc]; unfold macheps; positivity
  have h3 := fl_rel' hfl (c * ar.sum M.absList)
  have h4 : 0 ≤ ar.sum M.absList := by linarith [h1.1]
  rw [abs_of_nonneg (mul_nonneg hc0 h4)] at h3
  have h5 := abs_le.1 h3
  have h6 := mul_le_mul_of_nonneg_left h1.1 hc0
  have h7 := mul_le_mul_of_nonneg_left h1.2 hc0
  have h8 : 0 ≤ c * M.absSum := mul_nonneg hc0 hS
  constructor <;> linarith [h5.1, h5.2]

/-- The loop over the axes. -/
theorem transformChebF_fold {N : ℕ} {α β αs βs : Fin n → ℝ} (hab : ∀ d, |αs d| + |βs d| ≤ 1) (hα : ∀ d, |α d - αs d| ≤ 1 / 2 ^ 53 * |αs d|)
    (hβ : ∀ d, |β d - βs d| ≤ 1 / 2 ^ 53 * |βs d|) (hid : ∀ d, α d = 1 ∧ β d = 0 → αs d = 1 ∧ βs d = 0) (l : List (Fin n)) (hl : l.Nodup) :
    ∀ (M : Tensor n ℝ) (e : ℝ), M.Nonempty → ∏ i, M.shape i ≤ 2 ^ 19 → (∀ i, M.shape i ≤ N) → 0 ≤ e →
    let p := l.foldl (fun p d => (transformNDF ar.fl p.1 d (α d) (β d), ar.fl (p.2 + getTransformationErrorF ar p.1 d))) (M, e)
    ∃ G : ℝ, 0 ≤ G ∧ (∀ x, InCube x → |M.eval (fun i => if i ∈ l then αs i * x i + βs i else x i) - p.1.eval x| ≤ 21 * √(N : ℝ) ^ 3 * G) ∧
      (1 - 1 / 2 ^ 53) ^ l.length * (e + (1 - 1 / 2 ^ 31) * G) ≤ p.2 ∧ p.2 ≤ (1 + 1 / 2 ^ 53) ^ l.length * (e + (1 + 1 / 2 ^ 31) * G) ∧
      p.1.Nonempty ∧ (∀ i, p.1.shape i ≤ M.shape i) ∧
      ∀ B C : ℝ, 0 ≤ C → 2 ^ n * ((∏ i, M.shape i : ℕ) : ℝ) ≤ C ^ 2 → (∀ x, InCube x → |M.eval x| ≤ B) →
        21 * √(N : ℝ) ^ 3 * G ≤ ((1 + 21 * √(N : ℝ) ^ 3 * (N * macheps * C)) ^ l.length - 1) * B := by
  induction l with
  | nil =>
    intro M e hM hN hsh he
    exact ⟨0, le_rfl, fun x hx => by simp, by simp, by simp, hM, fun _ => le_rfl, fun B C _ _ _ => by simp⟩
  | cons d l ih =>
    intro M e hM hN hsh he
    obtain ⟨hd, hl⟩ := List.nodup_cons.1 hl
    obtain ⟨s1, s2⟩ := transformNDF_shape hfl M d hM (α d) (β d)
    obtain ⟨g1, g2⟩ := transformationErrorF_close hfl hs M hM hN d
    have hg0 : 0 ≤ getTransformationError M d := by
      have hS : 0 ≤ M.absSum := Finset.sum_nonneg fun _ _ => abs_nonneg _
      unfold getTransformationError macheps
      positivity
    have hF0 : 0 ≤ getTransformationErrorF ar M d := le_trans (mul_nonneg (by norm_num) hg0) g1
    have he1 : 0 ≤ ar.fl (e + getTransformationErrorF ar M d) := fl_nonneg hfl (add_nonneg he hF0)
    have hdN : M.shape d ≤ 2 ^ 19 :=
      (Nat.le_of_dvd (prod_pos fun j _ => hM j) (dvd_prod_of_mem _ (mem_univ d))).trans hN
    obtain ⟨G, hG0, hG, hlo, hhi, hne, hle, hB⟩ := ih hl (transformNDF ar.fl M d (α d) (β d)) (ar.fl (e + getTransformationErrorF ar M d)) s1
      ((prod_le_prod' fun i _ => s2 i).trans hN) (fun i => (s2 i).trans (hsh i)) he1
    have b3 : 21 * √(M.shape d : ℝ) ^ 3 * getTransformationError M d ≤ 21 * √(N : ℝ) ^ 3 * getTransformationError M d := by
      apply mul_le_mul_of_nonneg_right _ hg0
      have : √(M.shape d : ℝ) ≤ √(N : ℝ) := Real.sqrt_le_sqrt (by exact_mod_cast hsh d)
      have := pow_le_pow_left₀ (Real.sqrt_nonneg _) this 3
      linarith
    refine ⟨getTransformationError M d + G, add_nonneg hg0 hG0, fun x hx => ?_, ?_, ?_, hne, fun i => (hle i).trans (s2 i), fun B C hC0 hC hMB => ?_⟩
    · obtain ⟨z, hz⟩ : ∃ z : Fin n → ℝ, z = fun i => if i ∈ l then αs i * x i + βs i else x i := ⟨_, rfl⟩
      have hzc : InCube z := by
        intro i
        rw [hz]
        simp only
        split
        · exact abs_affine_le (hab i) (hx i)
        · exact hx i
      have hzd : z d = x d := by rw [hz]; simp [hd]
      have e1 : (fun i => if i ∈ d :: l then αs i * x i + βs i else x i) = Function.update z d (αs d * z d + βs d) := by
        funext i
        by_cases hi : i = d
        · subst hi
          rw [Function.update_self, hzd]
          simp
        · rw [Function.update_of_ne hi, hz]
          simp [hi]
      have b1 := axis_bound hfl M d (hM d) hdN (hab d) (hα d) (hβ d) (hid d) z hzc
      have b2 := hG x hx
      rw [← hz] at b2
      rw [e1]
      simp only [List.foldl_cons]
      refine (abs_sub_le _ ((transformNDF ar.fl M d (α d) (β d)).eval z) _).trans ?_
      rw [mul_add]
      exact add_le_add (b1.trans b3) b2
    · simp only [List.foldl_cons, List.length_cons]
      refine le_trans ?_ hlo
      have q1 := (abs_le.1 (fl_rel' hfl (e + getTransformationErrorF ar M d))).1
      rw [abs_of_nonneg (add_nonneg he hF0)] at q1
      rw [pow_succ _ l.length, mul_assoc]
      apply mul_le_mul_of_nonneg_left _ (pow_nonneg (by norm_num) _)
      have q2 : 0 ≤ (1 - 1 / 2 ^ 31) * G := mul_nonneg (by norm_num) hG0
      linarith
    · simp only [List.foldl_cons, List.length_cons]
      refine le_trans hhi ?_
      have q1 := (abs_le.1 (fl_rel' hfl (e + getTransformationErrorF ar M d))).2
      rw [abs_of_nonneg (add_nonneg he hF0)] at q1
      rw [pow_succ _ l.length, mul_assoc]
      apply mul_le_mul_of_nonneg_left _ (pow_nonneg (by norm_num) _)
      have q2 : 0 ≤ (1 + 1 / 2 ^ 31) * G := mul_nonneg (by norm_num) hG0
      linarith
    · obtain ⟨Q, hQ⟩ : ∃ Q, Q = 21 * √(N : ℝ) ^ 3 := ⟨_, rfl⟩
      obtain ⟨c, hc⟩ : ∃ c : ℝ, c = N * macheps * C := ⟨_, rfl⟩
      have hm0 : (0 : ℝ) < macheps := by unfold macheps; positivity
      have hQ0 : 0 ≤ Q := by rw [hQ]; positivity
      have hc0 : 0 ≤ c := by rw [hc]; positivity
      have hB0 : 0 ≤ B := (abs_nonneg _).trans (hMB (fun _ => 0) (fun _ => by simp))
      have w1 : getTransformationError M d ≤ c * B := by
        have w2 := absSum_le_of_bound M hM hMB hC0 hC
        have w3 : (M.shape d : ℝ) ≤ N := by exact_mod_cast hsh d
        rw [hc]
        unfold getTransformationError
        calc _ ≤ (N : ℝ) * macheps * (C * B) :=
              mul_le_mul (mul_le_mul_of_nonneg_right w3 hm0.le) w2 (Finset.sum_nonneg fun _ _ => abs_nonneg _) (by positivity)
          _ = _ := by ring
      have w4 : 2 ^ n * ((∏ i, (transformNDF ar.fl M d (α d) (β d)).shape i : ℕ) : ℝ) ≤ C ^ 2 := by
        refine le_trans (mul_le_mul_of_nonneg_left ?_ (by positivity)) hC
        exact_mod_cast prod_le_prod' fun i _ => s2 i
      have w5 : ∀ x, InCube x → |(transformNDF ar.fl M d (α d) (β d)).eval x| ≤ B + Q * (c * B) := by
        intro x hx
        have v1 := axis_bound hfl M d (hM d) hdN (hab d) (hα d) (hβ d) (hid d) x hx
        have v2 := hMB (Function.update x d (αs d * x d + βs d)) fun j => by
          by_cases hj : j = d
          · subst hj; rw [Function.update_self]; exact abs_affine_le (hab j) (hx j)
          · rw [Function.update_of_ne hj]; exact hx j
        have v3 := abs_sub_abs_le_abs_sub ((transformNDF ar.fl M d (α d) (β d)).eval x) (M.eval (Function.update x d (αs d * x d + βs d)))
        rw [abs_sub_comm] at v3
        have v4 := mul_le_mul_of_nonneg_left w1 hQ0
        rw [← hQ] at b3
        linarith
      have w6 := hB (B + Q * (c * B)) C hC0 w4 w5
      rw [← hQ, ← hc] at w6 ⊢
      rw [List.length_cons, pow_succ, mul_add]
      have w7 := mul_le_mul_of_nonneg_left w1 hQ0
      linarith

/-- One array on a subinterval. -/
theorem zoom_array (hn : n ≤ 2 ^ 20) (M : Tensor n ℝ) (hM : M.Nonempty) (hsize : ∏ i, M.shape i ≤ 2 ^ 19) {N : ℕ} (hN : ∀ i, M.shape i ≤ N)
    (error : ℝ) (he : 0 ≤ error) (a b : Fin n → ℝ) (fa : ∀ j, IsFloat 53 (a j)) (fb : ∀ j, IsFloat 53 (b j)) (ha : InCube a) (hb : InCube b) :
    let p := transformChebF ar M (fun d => (getTransformPointsF ar.fl (a d) (b d)).1) (fun d => (getTransformPointsF ar.fl (a d) (b d)).2) error
    ∃ G : ℝ, 0 ≤ G ∧ |p.2 - (error + G)| ≤ 1 / 2 ^ 29 * (error + G) ∧
      (∀ x, InCube x → |M.eval (fun j => (b j - a j) / 2 * x j + (b j + a j) / 2) - p.1.eval x| ≤ 21 * √(N : ℝ) ^ 3 * G) ∧
      p.1.Nonempty ∧ (∀ i, p.1.shape i ≤ M.shape i) ∧
      ∀ B C : ℝ, 0 ≤ C → 2 ^ n * ((∏ i, M.shape i : ℕ) : ℝ) ≤ C ^ 2 → (∀ x, InCube x → |M.eval x| ≤ B) →
        21 * √(N : ℝ) ^ 3 * G ≤ ((1 + 21 * √(N : ℝ) ^ 3 * (N * macheps * C)) ^ n - 1) * B := by
  have hp := fun j => transformPoints_close hfl (fa j) (fb j) (ha j) (hb j)
  obtain ⟨G, hG0, hG, hlo, hhi, hne, hle, hB⟩ := transformChebF_fold hfl hs (N := N) (fun d => (hp d).1) (fun d => (hp d).2.1) (fun d => (hp d).2.2.1)
    (fun d => (hp d).2.2.2) (List.finRange n) (List.nodup_finRange n) M error hM hsize hN he
  simp only [List.mem_finRange, if_true] at hG
  rw [List.length_finRange] at hB
  refine ⟨G, hG0, ?_, hG, hne, hle, hB⟩
  rw [List.length_finRange] at hlo hhi
  have hnR : (n : ℝ) ≤ 2 ^ 20 := by exact_mod_cast hn
  have hn0 : (0 : ℝ) ≤ n := Nat.cast_nonneg n
  have l1 : 1 - 1 / 2 ^ 33 ≤ (1 - 1 / 2 ^ 53 : ℝ) ^ n := by
    have hb := one_add_mul_le_pow (a := -(1 / 2 ^ 53 : ℝ)) (by norm_num) n
    rw [← sub_eq_add_neg] at hb
    have := mul_le_mul_of_nonneg_right hnR (by norm_num : (0 : ℝ) ≤ 1 / 2 ^ 53)
    linarith
  have l2 : (1 + 1 / 2 ^ 53 : ℝ) ^ n ≤ 1 + 1 / 2 ^ 32 := by
    have := pow_u_le n (hn.trans (by norm_num))
    linarith
  have k1 : (1 - 1 / 2 ^ 33) * ((1 - 1 / 2 ^ 31) * (error + G)) ≤ (1 - 1 / 2 ^ 53 : ℝ) ^ n * (error + (1 - 1 / 2 ^ 31) * G) := by
    apply mul_le_mul l1 _ (mul_nonneg (by norm_num) (add_nonneg he hG0)) (pow_nonneg (by norm_num) _)
    linarith
  have k2 : (1 + 1 / 2 ^ 53 : ℝ) ^ n * (error + (1 + 1 / 2 ^ 31) * G) ≤ (1 + 1 / 2 ^ 32) * ((1 + 1 / 2 ^ 31) * (error + G)) := by
    apply mul_le_mul l2 _ (add_nonneg he (mul_nonneg (by norm_num) hG0)) (by norm_num)
    linarith
  rw [abs_le]
  have m1 := k1.trans hlo
  have m2 := hhi.trans k2
  have h0 : 0 ≤ error + G := add_nonneg he hG0
  unfold transformChebF
  constructor <;> linarith

/-- **C110, part.** The bounds `a` and `b` of the subinterval are representable numbers of `[-1, 1]`, at most `2 ^ 19` entries, at most `N` along every
axis.  The returned error is, up to a relative error of `2 ^ -29`, the given one plus an allowance `G`; the distance of the new array from the function on
the subinterval is at most the given error plus `21 N ^ (3/2)` times `G`. -/
theorem C110_bound_partial (hn : n ≤ 2 ^ 20) (M : Tensor n ℝ) (hM : M.Nonempty) (hsize : ∏ i, M.shape i ≤ 2 ^ 19) {N : ℕ} (hN : ∀ i, M.shape i ≤ N)
    (error : ℝ) (he : 0 ≤ error) (a b : Fin n → ℝ) (fa : ∀ j, IsFloat 53 (a j)) (fb : ∀ j, IsFloat 53 (b j)) (ha : InCube a) (hb : InCube b) (i : Fin n) :
    ∃ G : ℝ, 0 ≤ G ∧ |(zoomToF ar (fun _ : Fin n => M) (fun _ => error) a b).2 i - (error + G)| ≤ 1 / 2 ^ 29 * (error + G) ∧
      ∀ F : (Fin n → ℝ) → ℝ, (∀ x, InCube x → |F x - M.eval x| ≤ error) → ∀ x, InCube x →
        |F (fun j => (b j - a j) / 2 * x j + (b j + a j) / 2) - ((zoomToF ar (fun _ : Fin n => M) (fun _ => error) a b).1 i).eval x| ≤
          error + 21 * √(N : ℝ) ^ 3 * G := by
  have hp := fun j => transformPoints_close hfl (fa j) (fb j) (ha j) (hb j)
  obtain ⟨G, hG0, h1, hG, -⟩ := zoom_array hfl hs hn M hM hsize hN error he a b fa fb ha hb
  refine ⟨G, hG0, h1, fun F hF x hx => ?_⟩
  have h2 := hF _ (fun j => abs_affine_le (hp j).1 (hx j) : InCube fun j => (b j - a j) / 2 * x j + (b j + a j) / 2)
  exact (abs_sub_le _ _ _).trans (add_le_add h2 (hG x hx))

/-- **C110, part.** So the returned error, times `22 N ^ (3/2)`, is a bound. -/
theorem C110_factor_partial (hn : n ≤ 2 ^ 20) (M : Tensor n ℝ) (hM : M.Nonempty) (hsize : ∏ i, M.shape i ≤ 2 ^ 19) {N : ℕ} (hN : ∀ i, M.shape i ≤ N)
    (error : ℝ) (he : 0 ≤ error) (a b : Fin n → ℝ) (fa : ∀ j, IsFloat 53 (a j)) (fb : ∀ j, IsFloat 53 (b j)) (ha : InCube a) (hb : InCube b) (i : Fin n)
    (F : (Fin n → ℝ) → ℝ) (hF : ∀ x, InCube x → |F x - M.eval x| ≤ error) (x : Fin n → ℝ) (hx : InCube x) :
    |F (fun j => (b j - a j) / 2 * x j + (b j + a j) / 2) - ((zoomToF ar (fun _ : Fin n => M) (fun _ => error) a b).1 i).eval x| ≤
      22 * √(N : ℝ) ^ 3 * (zoomToF ar (fun _ : Fin n => M) (fun _ => error) a b).2 i := by
  obtain ⟨G, hG0, h1, h2⟩ := C110_bound_partial hfl hs hn M hM hsize hN error he a b fa fb ha hb i
  refine (h2 F hF x hx).trans ?_
  have hN1 : 1 ≤ √(N : ℝ) := Real.one_le_sqrt.2 (by exact_mod_cast (hM i).trans_le (hN i))
  have h3 : 1 ≤ √(N : ℝ) ^ 3 := one_le_pow₀ hN1
  have h4 := (abs_le.1 h1).1
  obtain ⟨Q, hQ⟩ : ∃ Q, Q = √(N : ℝ) ^ 3 := ⟨_, rfl⟩
  rw [← hQ] at h3 ⊢
  generalize (zoomToF ar (fun _ : Fin n => M) (fun _ => error) a b).2 i = e' at h4
  have h5 : 21 * (error + G) ≤ 22 * e' := by linarith
  have h6 := mul_le_mul_of_nonneg_left h5 (by linarith : 0 ≤ Q)
  have h7 := mul_le_mul_of_nonneg_right h3 he
  nlinarith

end Zoom

/-- **C110 is false of the code**: `T_5` on `[1 - 2 α, 1]` with `α = 25020575 / 2 ^ 27`, in binary64 with ties to even, summation from the left, error
zero before.  The bounds, midpoint and half length are representable. -/
theorem C110_false : RoundsToNearest 53 exAr.fl ∧ exAr.Sums ∧ (∀ j : Fin 1, IsFloat 53 ((fun _ => 1 - 2 * exAlpha : Fin 1 → ℚ) j)) ∧
    ¬ ZoomErrorClaim exAr exT5 0 (fun _ => 1 - 2 * exAlpha) (fun _ => 1) := by
  refine ⟨roundFloat_nearest (by norm_num), leftSum_sums _, fun _ => ⟨84176578, -27, by norm_num, by norm_num [exAlpha]⟩, fun h => ?_⟩
  obtain ⟨-, e2, e3⟩ := exT5_error
  have h1 := h exT5.eval (fun x _ => by simp) 0 (fun _ => 1) (fun _ => by simp)
  have p1 : (getTransformPointsF exAr.fl (1 - 2 * exAlpha) 1).1 = exAlpha := by decide +kernel
  have p2 : (getTransformPointsF exAr.fl (1 - 2 * exAlpha) 1).2 = 1 - exAlpha := by decide +kernel
  have p3 : exAr.fl (0 + getTransformationErrorF exAr exT5 0) = 6 / 2 ^ 52 := by decide +kernel
  have z1 : (zoomToF exAr (fun _ : Fin 1 => exT5) (fun _ => 0) (fun _ => 1 - 2 * exAlpha) (fun _ => 1)).1 0 =
      transformNDF (roundFloat 53) exT5 0 exAlpha (1 - exAlpha) := by
    simp only [zoomToF, transformChebF, List.finRange_succ, List.finRange_zero, List.map_nil, List.foldl_cons, List.foldl_nil, p1, p2]
    rfl
  have z2 : (zoomToF exAr (fun _ : Fin 1 => exT5) (fun _ => 0) (fun _ => 1 - 2 * exAlpha) (fun _ => 1)).2 0 = 6 / 2 ^ 52 := by
    simp only [zoomToF, transformChebF, List.finRange_succ, List.finRange_zero, List.map_nil, List.foldl_cons, List.foldl_nil]
    exact p3
  have z3 : (fun _ => (1 - (1 - 2 * exAlpha)) / 2 * 1 + (1 + (1 - 2 * exAlpha)) / 2 : Fin 1 → ℚ) =
      Function.update (fun _ => 1) 0 (exAlpha * 1 + (1 - exAlpha)) := by
    funext i
    fin_cases i
    simp only [Fin.zero_eta, Function.update_self]
    ring
  rw [z1, z2, z3, e2] at h1
  exact absurd h1 (not_le.2 e3)

/-- `3/2 + 3/2 T_2(x) - y`. -/
noncomputable def exZoomF : Tensor 2 ℝ := ⟨![3, 2], fun k => if k 1 = 0 then (if k 0 = 1 then 0 else 3 / 2) else if k 0 = 0 then -1 else 0⟩

/-- The hypotheses of the bounds are met: a function `2 ^ -41` away from `3/2 + 3/2 T_2(x) - y`, with an error of `2 ^ -40`, on
`[1/10 rounded, 1] x [-1/2, 1/4]`. -/
example (ar : FloatArith ℝ) (hfl : RoundsToNearest 53 ar.fl) (hs : ar.Sums) (x : Fin 2 → ℝ) (hx : InCube x) :
    |(exZoomF.eval (fun j => (![1, 1 / 4] j - ![ar.fl (1 / 10), -(1 / 2)] j) / 2 * x j + (![1, 1 / 4] j + ![ar.fl (1 / 10), -(1 / 2)] j) / 2) + 1 / 2 ^ 41) -
      ((zoomToF ar (fun _ : Fin 2 => exZoomF) (fun _ => 1 / 2 ^ 40) ![ar.fl (1 / 10), -(1 / 2)] ![1, 1 / 4]).1 1).eval x| ≤
      22 * √((3 : ℕ) : ℝ) ^ 3 * (zoomToF ar (fun _ : Fin 2 => exZoomF) (fun _ => 1 / 2 ^ 40) ![ar.fl (1 / 10), -(1 / 2)] ![1, 1 / 4]).2 1 := by
  have h1 := fl_rel' hfl (1 / 10)
  rw [abs_of_nonneg (by norm_num : (0 : ℝ) ≤ 1 / 10), abs_le] at h1
  refine C110_factor_partial hfl hs (by norm_num) exZoomF (fun i => by fin_cases i <;> simp [exZoomF]) (by simp [Fin.prod_univ_two, exZoomF])
    (fun i => by fin_cases i <;> simp [exZoomF])
    _ (by norm_num) ![ar.fl (1 / 10), -(1 / 2)] ![1, 1 / 4] ?_ ?_ ?_ ?_ 1 (fun y => exZoomF.eval y + 1 / 2 ^ 41) ?_ x hx
  · intro j
    fin_cases j
    · exact hfl.isFloat _
    · exact ⟨-1, -1, by norm_num, by norm_num⟩
  · intro j
    fin_cases j
    · exact ⟨1, 0, by norm_num, by norm_num⟩
    · exact ⟨1, -2, by norm_num, by norm_num⟩
  · intro j
    fin_cases j
    · show |ar.fl (1 / 10)| ≤ 1
      exact abs_le.2 ⟨by linarith [h1.1], by linarith [h1.2]⟩
    · norm_num [abs_le]
  · intro j
    fin_cases j <;> norm_num [abs_le]
  · intro y _
    rw [add_sub_cancel_left]
    norm_num [abs_le]

end YRoots
