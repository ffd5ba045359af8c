import Verif.Model.EvalNoise
import Verif.Props.BlockCopy

/-!
# C98: `get_abs_approx_tol` measures the coefficients above a degree
-/

namespace YRoots.Legacy

open Finset

variable {n : ℕ}

/-- The part of the box around `x` on which the function is interpolated. -/
noncomputable def noiseBox (func : (Fin n → ℝ) → ℝ) (x : Fin n → ℝ) : MakerFn n :=
  ⟨func, fun i => x i - 1 / 10 ^ 14, fun i => x i + 1 / 10 ^ 14, false⟩

/-- Indices up to `2 deg` that are at least `deg` in some direction. -/
def highIdx (n deg : ℕ) : Finset (Fin n → ℕ) := (Fintype.piFinset fun _ : Fin n => range (2 * deg + 1)).filter fun k => ∃ i, deg ≤ k i

theorem card_highIdx (deg : ℕ) : (highIdx n deg).card = (2 * deg + 1) ^ n - deg ^ n := by
  have h1 : (Fintype.piFinset fun _ : Fin n => range (2 * deg + 1)).card = (2 * deg + 1) ^ n := by simp
  have h2 : ((Fintype.piFinset fun _ : Fin n => range (2 * deg + 1)).filter fun k => ¬ ∃ i, deg ≤ k i) = Fintype.piFinset fun _ : Fin n => range deg := by
    ext k
    simp only [mem_filter, Fintype.mem_piFinset, mem_range, not_exists, not_le]
    exact ⟨fun h => h.2, fun h => ⟨fun i => by have := h i; omega, h⟩⟩
  have h3 := card_filter_add_card_filter_not (s := Fintype.piFinset fun _ : Fin n => range (2 * deg + 1)) (p := fun k => ∃ i, deg ≤ k i)
  rw [h2, h1] at h3
  have h4 : (Fintype.piFinset fun _ : Fin n => range deg).card = deg ^ n := by simp
  rw [h4] at h3
  unfold highIdx
  omega

theorem tol_eq (hn : 1 ≤ n) {deg : ℕ} (hd : 1 ≤ deg) (g : (Fin n → ℕ) → ℝ) (st : ValuesArr n) (hS : st.size < 2 * deg + 1 ∨ 4 * deg ≤ st.size)
    (r : Fin n → ℝ) (func : (Fin n → ℝ) → ℝ) (a b : Fin n → ℝ) :
    getAbsApproxTol g st r func deg a b = (∑ k ∈ highIdx n deg, |(interp (noiseBox func (transformPt r a b)) fun _ => 2 * deg).coef k|) * 10 /
      ((deg * 2 : ℝ) ^ n - (deg : ℝ) ^ n) := by
  have hd2 : 1 ≤ 2 * deg := by omega
  have he := sharedApprox_eq hd2 g (noiseBox func (transformPt r a b)) st (C73_copy_partial hn hd2 _ _ _ (by omega))
  unfold getAbsApproxTol
  dsimp only
  congr 2
  change ∑ k ∈ (zeroLow deg (sharedApprox g (noiseBox func (transformPt r a b)) (2 * deg) st).1.1).idx, _ = _
  rw [show (sharedApprox g ⟨func, fun i => transformPt r a b i - 1 / 10 ^ 14, fun i => transformPt r a b i + 1 / 10 ^ 14, false⟩ (2 * deg) st).1.1 =
    interp (noiseBox func (transformPt r a b)) fun _ => 2 * deg from he, he]
  unfold highIdx
  rw [sum_filter]
  refine sum_congr rfl fun k _ => ?_
  unfold zeroLow
  dsimp only
  by_cases h : ∃ i, deg ≤ k i
  · rw [if_pos h, if_neg (by push Not; exact h)]
  · rw [if_neg h, if_pos (by push Not at h; exact h), abs_zero]

/-- Coefficients of the interpolant of a polynomial of degree less than `deg`. -/
theorem interp_high {deg : ℕ} (hd : 1 ≤ deg) (F : MakerFn n) (p : MvPolynomial (Fin n) ℝ) (hp : ∀ i, p.degreeOf i < deg)
    (hf : F.f = fun x => MvPolynomial.eval x p) (k : Fin n → ℕ) (hk : k ∈ highIdx n deg) : (interp F fun _ => 2 * deg).coef k = 0 := by
  set M := interp F fun _ => deg - 1 with hM
  have hN : ∀ i : Fin n, 1 ≤ (fun _ : Fin n => 2 * deg) i := fun _ => by dsimp only; omega
  have hcoef : (interp F fun _ => 2 * deg).coef k = fullCoef (fun _ => 2 * deg) (fun j => F.f (gridPt (fun _ => 2 * deg) F.a F.b j)) k := by
    unfold interp intervalApproximate fullCoef
    simp only [bumpDegs_eq hN]
  have hsub : M.idx ⊆ gridIdx (n := n) fun _ => 2 * deg := fun k hk => by
    rw [mem_gridIdx]
    intro i
    have : k i < deg - 1 + 1 := mem_range.1 ((Fintype.mem_piFinset.1 hk) i)
    omega
  have hidx : ∀ k, k ∈ M.idx ↔ ∀ i, k i < M.shape i := fun k => by
    unfold Tensor.idx
    rw [Fintype.mem_piFinset]
    simp
  obtain ⟨hk1, i, hi⟩ := mem_filter.1 hk
  rw [hcoef, fullCoef_recover (fun _ => 2 * deg) hN (fun m => if ∀ i, m i < M.shape i then M.coef m else 0) _ (fun j _ => ?_) k hk1]
  · refine if_neg fun h => ?_
    have : k i < deg - 1 + 1 := h i
    omega
  · have e1 : F.f (gridPt (fun _ => 2 * deg) F.a F.b j) = M.eval fun i => chebPt (2 * deg) (j i) := by
      rw [hM, interp, hf, C36_exact p (fun _ => deg - 1) fun i => Nat.le_sub_one_of_lt (hp i)]
      rfl
    rw [e1, Tensor.eval]
    refine Finset.sum_subset_zero_on_sdiff hsub (fun m hm => ?_) fun m hm => ?_
    · rw [if_neg fun h => (Finset.mem_sdiff.1 hm).2 ((hidx m).2 h), zero_mul]
    · rw [if_pos ((hidx m).1 hm)]

theorem spots_pos (hn : 1 ≤ n) {deg : ℕ} (hd : 1 ≤ deg) : 0 < (deg * 2 : ℝ) ^ n - (deg : ℝ) ^ n := by
  have h0 : (0 : ℝ) < deg := by exact_mod_cast hd
  have := pow_lt_pow_left₀ (show (deg : ℝ) < deg * 2 by linarith) h0.le (show n ≠ 0 by omega)
  linarith

/-- **C98 (partial).** The estimate is not negative; it is 0 for polynomials of degree less than `deg` in each variable; and in terms of the
interpolant of degree `2 deg` near the point, it vanishes exactly if that has degree less than `deg` in each variable, and bounds all its other
coefficients. -/
theorem C98_noise_partial (hn : 1 ≤ n) {deg : ℕ} (hd : 1 ≤ deg) (g : (Fin n → ℕ) → ℝ) (st : ValuesArr n)
    (hS : st.size < 2 * deg + 1 ∨ 4 * deg ≤ st.size) (r : Fin n → ℝ) (func : (Fin n → ℝ) → ℝ) (a b : Fin n → ℝ) :
    0 ≤ getAbsApproxTol g st r func deg a b ∧
      (∀ p : MvPolynomial (Fin n) ℝ, (∀ i, p.degreeOf i < deg) → (func = fun x => MvPolynomial.eval x p) → getAbsApproxTol g st r func deg a b = 0) ∧
      ∃ M : Tensor n ℝ, Interpolates (noiseBox func (transformPt r a b)) (fun _ => 2 * deg) M ∧
        (getAbsApproxTol g st r func deg a b = 0 ↔ ∀ k ∈ M.idx, (∃ i, deg ≤ k i) → M.coef k = 0) ∧
        ∀ k ∈ M.idx, (∃ i, deg ≤ k i) → |M.coef k| * 10 ≤ getAbsApproxTol g st r func deg a b * ((deg * 2 : ℝ) ^ n - (deg : ℝ) ^ n) := by
  have hpos := spots_pos hn hd
  rw [tol_eq hn hd g st hS]
  refine ⟨?_, fun p hp hf => ?_, interp (noiseBox func (transformPt r a b)) fun _ => 2 * deg, interp_interpolates _ _ fun _ => by omega, ?_, ?_⟩
  · exact div_nonneg (mul_nonneg (sum_nonneg fun _ _ => abs_nonneg _) (by norm_num)) hpos.le
  · rw [sum_eq_zero fun k hk => by rw [interp_high hd (noiseBox func (transformPt r a b)) p hp hf k hk, abs_zero]]
    simp
  · rw [div_eq_zero_iff, or_iff_left hpos.ne', mul_eq_zero, or_iff_left (by norm_num : (10 : ℝ) ≠ 0),
      sum_eq_zero_iff_of_nonneg fun _ _ => abs_nonneg _]
    simp only [abs_eq_zero]
    exact ⟨fun h k hk hi => h k (mem_filter.2 ⟨hk, hi⟩), fun h k hk => h k (mem_filter.1 hk).1 (mem_filter.1 hk).2⟩
  · intro k hk hi
    rw [div_mul_cancel₀ _ hpos.ne']
    exact mul_le_mul_of_nonneg_right (single_le_sum (f := fun k => |(interp (noiseBox func (transformPt r a b)) fun _ => 2 * deg).coef k|)
      (fun _ _ => abs_nonneg _) (mem_filter.2 ⟨hk, hi⟩)) (by norm_num)

/-- **C98 is false as to the mean** (comment in line 614, 'Divide by the number of spots that were summed up'): unless it is 0, the estimate is
larger than ten times the mean of the coefficients that were summed up, whose number is `(2 deg + 1)^n - deg^n`. -/
theorem C98_mean_false (hn : 1 ≤ n) {deg : ℕ} (hd : 1 ≤ deg) (g : (Fin n → ℕ) → ℝ) (st : ValuesArr n)
    (hS : st.size < 2 * deg + 1 ∨ 4 * deg ≤ st.size) (r : Fin n → ℝ) (func : (Fin n → ℝ) → ℝ) (a b : Fin n → ℝ)
    (h0 : getAbsApproxTol g st r func deg a b ≠ 0) :
    ∃ M : Tensor n ℝ, Interpolates (noiseBox func (transformPt r a b)) (fun _ => 2 * deg) M ∧
      10 * ((∑ k ∈ highIdx n deg, |M.coef k|) / (highIdx n deg).card) < getAbsApproxTol g st r func deg a b := by
  refine ⟨interp (noiseBox func (transformPt r a b)) fun _ => 2 * deg, interp_interpolates _ _ fun _ => by omega, ?_⟩
  have hpos := spots_pos hn hd
  rw [tol_eq hn hd g st hS] at h0 ⊢
  set S := ∑ k ∈ highIdx n deg, |(interp (noiseBox func (transformPt r a b)) fun _ => 2 * deg).coef k| with hSd
  have hS0 : 0 < S := lt_of_le_of_ne (sum_nonneg fun _ _ => abs_nonneg _) fun h => h0 (by rw [← h]; simp)
  have hcard : (deg * 2 : ℝ) ^ n - (deg : ℝ) ^ n < (highIdx n deg).card := by
    rw [card_highIdx, Nat.cast_sub (Nat.pow_le_pow_left (by omega) n)]
    push_cast
    have := pow_lt_pow_left₀ (show (deg * 2 : ℝ) < 2 * deg + 1 by linarith) (by positivity) (show n ≠ 0 by omega)
    linarith
  have : 10 * (S / (highIdx n deg).card) = S * 10 / (highIdx n deg).card := by ring
  rw [this]
  exact div_lt_div_of_pos_left (by linarith) hpos hcard

/-- **C98 is false as to the total degree** (docstring of `deg_slices`): with `deg = 3` the estimate for `x²y²`, of total degree 4, is 0. -/
theorem C98_total_false (g : (Fin 2 → ℕ) → ℝ) (st : ValuesArr 2) (hS : st.size < 7 ∨ 12 ≤ st.size) (r a b : Fin 2 → ℝ) :
    getAbsApproxTol g st r (fun x => x 0 ^ 2 * x 1 ^ 2) 3 a b = 0 := by
  refine (C98_noise_partial (by norm_num) (by norm_num) g st hS r _ a b).2.1 (MvPolynomial.X 0 ^ 2 * MvPolynomial.X 1 ^ 2) (fun i => ?_) ?_
  · refine lt_of_le_of_lt (MvPolynomial.degreeOf_mul_le _ _ _) ?_
    refine lt_of_le_of_lt (Nat.add_le_add (MvPolynomial.degreeOf_pow_le _ _ _) (MvPolynomial.degreeOf_pow_le _ _ _)) ?_
    rw [MvPolynomial.degreeOf_X, MvPolynomial.degreeOf_X]
    fin_cases i <;> simp
  · funext x
    simp

/-- With the array of a fresh solver. -/
example (r a b : Fin 2 → ℝ) : getAbsApproxTol (fun _ => 0) (freshArr (fun _ => 7) 9) r (fun x => x 0 ^ 2 * x 1 ^ 2) 3 a b = 0 :=
  C98_total_false _ _ (Or.inr (by change 12 ≤ 2 * (9 + 3); norm_num)) _ _ _

/-- For `x` in one variable and `deg = 1` the estimate is not 0. -/
example : getAbsApproxTol (n := 1) (fun _ => 0) (freshArr (fun _ => 7) 9) 0 (fun x => x 0) 1 (fun _ => -1) (fun _ => 1) ≠ 0 := by
  intro h
  obtain ⟨-, -, M, hM, h1, -⟩ := C98_noise_partial (n := 1) le_rfl (le_refl 1) (fun _ => 0) (freshArr (fun _ => 7) 9)
    (Or.inr (by change 4 * 1 ≤ 2 * (9 + 3); norm_num)) 0 (fun x => x 0) (fun _ => -1) (fun _ => 1)
  have hz := h1.1 h
  have hev : ∀ x y : Fin 1 → ℝ, M.eval x = M.eval y := by
    have : ∀ x : Fin 1 → ℝ, M.eval x = ∑ k ∈ M.idx, if ∃ i, 1 ≤ k i then 0 else M.coef k := fun x => by
      rw [Tensor.eval]
      refine sum_congr rfl fun k hk => ?_
      by_cases hi : ∃ i, 1 ≤ k i
      · rw [hz k hk hi, if_pos hi, zero_mul]
      · rw [if_neg hi, Fin.prod_univ_one]
        have : k 0 = 0 := by
          by_contra hne
          exact hi ⟨0, by omega⟩
        rw [this, chebT_zero, mul_one]
    intro x y
    rw [this, this]
  have e0 := hM.interpolates (fun _ => 0) fun _ => by norm_num
  have e2 := hM.interpolates (fun _ => 2) fun _ => by norm_num
  rw [hev _ (extremum (fun _ => 2 * 1) fun _ => 2), e2] at e0
  simp only [noiseBox, onBox, extremum, transformPt] at e0
  norm_num at e0

end YRoots.Legacy
