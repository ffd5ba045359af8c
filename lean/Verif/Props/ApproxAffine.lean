import Verif.Proofs.ApproxAffine
import Verif.Props.SolveAffine

/-!
# C95: the approximator on affine functions, and `solve` on affine callables
-/

namespace YRoots

open Finset

variable {n : ℕ}

/-- Value at the midpoint and slopes in the coordinates of the cube. -/
theorem locAff_of (c : ℝ) (q a b : Fin n → ℝ) :
    LocAff (fun x => c + ∑ j, q j * x j) a b (c + ∑ j, q j * ((a j + b j) / 2)) (fun j => q j * ((b j - a j) / 2)) := by
  intro x
  simp only [transformPt]
  rw [add_assoc, ← sum_add_distrib]
  congr 1
  refine sum_congr rfl fun j _ => ?_
  ring

theorem eval_affCoef {M : Tensor n ℝ} {r : ℝ} {p : Fin n → ℝ} (h0 : ∀ j, 0 < M.shape j) (hc : ∀ k ∈ M.idx, M.coef k = affCoef r p k) (x : Fin n → ℝ) :
    M.eval x = r + ∑ i, if 2 ≤ M.shape i then p i * x i else 0 := by
  unfold Tensor.eval
  have hz : (0 : Fin n → ℕ) ∈ M.idx := (mem_idx_iff M 0).2 h0
  have hs : ∀ i : Fin n, (Pi.single i 1 : Fin n → ℕ) ∈ M.idx ↔ 2 ≤ M.shape i := by
    intro i
    rw [mem_idx_iff]
    constructor
    · intro h
      have := h i
      rw [Pi.single_eq_same] at this
      omega
    · intro h l
      by_cases hl : l = i
      · subst hl; rw [Pi.single_eq_same]; omega
      · rw [Pi.single_eq_of_ne hl]; exact h0 l
  have e : ∀ k ∈ M.idx, M.coef k * ∏ i, chebT (k i) (x i) = affCoef r p k * ∏ i, chebT (k i) (x i) := fun k hk => by rw [hc k hk]
  rw [sum_congr rfl e]
  simp only [affCoef, add_mul, sum_add_distrib, ite_mul, zero_mul, sum_mul]
  rw [sum_ite_eq' M.idx (0 : Fin n → ℕ), if_pos hz, sum_comm]
  congr 1
  · simp
  · refine sum_congr rfl fun i _ => ?_
    rw [sum_ite_eq' M.idx (Pi.single i 1 : Fin n → ℕ)]
    refine if_congr (hs i) ?_ rfl
    congr 1
    rw [Finset.prod_eq_single i]
    · rw [Pi.single_eq_same]; exact chebT_one _
    · intro l _ hl
      rw [Pi.single_eq_of_ne hl]; exact chebT_zero _
    · simp

/-- **C95**, approximation.  `S` is the largest absolute value on the box.  If no slope is small against it, one pass of the search per
direction finds the function itself, with an error bound of at most `3ⁿ 2⁻⁵¹`, positive unless the function is constant. -/
theorem C95_affine_partial (c : ℝ) (q a b : Fin n → ℝ) (hab : ∀ j, a j ≤ b j) (rtol : ℝ) (hr : 0 < rtol) (S : ℝ)
    (hS : S = |c + ∑ j, q j * ((a j + b j) / 2)| + ∑ j, |q j| * ((b j - a j) / 2)) (hscale : 6 ^ (n - 1) / 2 ^ 49 ≤ S)
    (hq : ∀ j, q j = 0 ∨ 6 ^ (n - 1) * max (S * rtol) (1 / 2 ^ 49) ≤ |q j| * ((b j - a j) / 2)) (fuel : ℕ) (hfuel : 1 ≤ fuel) :
    ∃ M e, chebApproximate fuel (fun x => c + ∑ j, q j * x j) a b rtol = .ok (M, e) ∧
      (∀ x, M.eval x = c + ∑ j, q j * transformPt x a b j) ∧ (∀ j, M.shape j = if q j = 0 then 1 else 2) ∧
      0 ≤ e ∧ e ≤ 3 ^ n / 2 ^ 51 ∧ ((∃ j, q j ≠ 0) → 0 < e) := by
  obtain ⟨fuel, rfl⟩ : ∃ f, fuel = f + 1 := ⟨fuel - 1, by omega⟩
  have hloc := locAff_of c q a b
  set r := c + ∑ j, q j * ((a j + b j) / 2) with hrd
  set p : Fin n → ℝ := fun j => q j * ((b j - a j) / 2) with hp
  have habs : ∀ j, |p j| = |q j| * ((b j - a j) / 2) := fun j => by
    simp only [hp]
    rw [abs_mul, abs_of_nonneg (by linarith [hab j] : 0 ≤ (b j - a j) / 2)]
  have hS' : |r| + ∑ j, |p j| = S := by
    rw [hS]
    congr 1
    exact sum_congr rfl fun j _ => habs j
  have hS0 : 0 < S := lt_of_lt_of_le (by positivity) hscale
  have hbig : ∀ j, q j ≠ 0 → BigSlope r p rtol j := fun j hj => by
    unfold BigSlope
    rw [hS', habs]
    exact (hq j).resolve_left hj
  have hnot : ∀ j, q j = 0 → p j = 0 := fun j hj => by simp [hp, hj]
  obtain ⟨M, e, h1, h2, h3, h4, h5, h6, h7⟩ := approx_aff hloc hab hr (by rw [hS']; linarith) (fun j => by
    by_cases hj : q j = 0
    · right
      rw [hnot j hj, abs_zero, hS']
      exact ⟨mul_pos hS0 hr, .inl rfl⟩
    · exact .inl (hbig j hj)) fuel
  have hsh : ∀ j, M.shape j = if q j = 0 then 1 else 2 := by
    intro j
    split_ifs with hj
    · exact h3 j fun hb => hb.ne (hnot j hj)
    · exact h2 j (hbig j hj)
  refine ⟨M, e, h1, fun x => ?_, hsh, h5, h6.trans (le_of_eq (by norm_num; ring)), ?_⟩
  · rw [eval_affCoef (fun j => by rw [hsh]; split_ifs <;> omega) h4]
    rw [show c + ∑ j, q j * transformPt x a b j = r + ∑ j, p j * x j from hloc x]
    congr 1
    refine sum_congr rfl fun j _ => ?_
    rw [hsh]
    split_ifs with hj h2' h2'
    · omega
    · rw [hnot j hj, zero_mul]
    · rfl
    · omega
  · rintro ⟨j, hj⟩
    exact h7 ⟨j, hbig j hj⟩

/-- **C95**, `solve` on affine callables, approximation included. -/
theorem C95_solve_partial (env : Env n ℝ) (la : LinAlg n ℝ) (hok : env.OK la false) (fuel' : ℕ) (hfuel' : 1 ≤ fuel') (rtol : ℝ) (hr : 0 < rtol)
    (exact : Bool) (minSize : ℝ) (fuel : ℕ) (hfuel : 6 ≤ fuel) (a b : Fin n → ℝ) (hab : ∀ j, a j < b j)
    (A G : Matrix (Fin n) (Fin n) ℝ) (hG : G * A = 1) (c y : Fin n → ℝ) (hy : ∀ i, c i + ∑ j, A i j * y j = 0)
    (S : Fin n → ℝ) (hS : ∀ i, S i = |c i + ∑ j, A i j * ((a j + b j) / 2)| + ∑ j, |A i j| * ((b j - a j) / 2))
    (hscale : ∀ i, 6 ^ (n - 1) / 2 ^ 49 ≤ S i)
    (hA : ∀ i j, A i j = 0 ∨ 6 ^ (n - 1) * max (S i * rtol) (1 / 2 ^ 49) ≤ |A i j| * ((b j - a j) / 2))
    (W : Fin n → ℝ) (hW : ∀ j, W j = (3 ^ n * ∑ k, |G j k| + (b j - a j)) / 2 ^ 51) (hin : ∀ j, a j ≤ y j - W j ∧ y j + W j ≤ b j)
    (hvol : ∏ j, 2 * W j < 99 / 100 * ∏ j, (b j - a j)) (hmin : ∃ j, 2 * W j ≤ minSize * max (max |a j| |b j|) 1)
    (hwc : ∀ w : Fin n → ℝ, (∀ j, 0 < w j) → env.svd.wellConditioned (equil (Matrix.of fun i j => A i j * w j)) = true) :
    ∃ w : Fin n → ℝ, (∀ j, 0 < w j ∧ w j ≤ W j) ∧
      solve env (chebApproximator fuel' rtol) (fun i => .call fun x => c i + ∑ j, A i j * x j) exact minSize fuel a b =
        .ok ([y], [⟨fun j => y j - w j, fun j => y j + w j⟩]) := by
  have happ := fun i => C95_affine_partial (c i) (A i) a b (fun j => (hab j).le) rtol hr (S i) (hS i) (hscale i) (hA i) fuel' hfuel'
  choose Ms e h1 h2 h3 h4 h5 h6 using happ
  set w : Fin n → ℝ := fun j => ∑ k, |G j k| * e k + (b j - a j) / 2 ^ 52 with hw
  have hd : ∀ j, 0 < b j - a j := fun j => sub_pos.2 (hab j)
  have hw0 : ∀ j, 0 < w j := fun j =>
    add_pos_of_nonneg_of_pos (sum_nonneg fun k _ => mul_nonneg (abs_nonneg _) (h4 k)) (div_pos (hd j) (by positivity))
  have hwW : ∀ j, w j ≤ W j := by
    intro j
    rw [hW]
    have : ∑ k, |G j k| * e k ≤ ∑ k, |G j k| * (3 ^ n / 2 ^ 51) := sum_le_sum fun k _ => mul_le_mul_of_nonneg_left (h5 k) (abs_nonneg _)
    rw [← sum_mul] at this
    have hdj := hd j
    have e2 : (b j - a j) / 2 ^ 52 ≤ (b j - a j) / 2 ^ 51 := by
      apply div_le_div_of_nonneg_left hdj.le <;> norm_num
    have e3 : (3 ^ n * ∑ k, |G j k| + (b j - a j)) / 2 ^ 51 = (∑ k, |G j k|) * (3 ^ n / 2 ^ 51) + (b j - a j) / 2 ^ 51 := by ring
    rw [e3]
    exact add_le_add this e2
  refine ⟨w, fun j => ⟨hw0 j, hwW j⟩, ?_⟩
  refine C94_callable env la hok fuel' rtol exact minSize fuel hfuel a b hab A G hG c y hy Ms e h1 (fun i j => ?_) h4 w (fun j => rfl) (fun j => ?_) ?_ ?_
    (hwc (fun j => (b j - a j) / 2) fun j => half_pos (hd j)) (hwc w hw0)
  · rw [h3]
    split_ifs with h <;> simp [h]
  · have := hin j
    have := hwW j
    constructor <;> linarith
  · refine lt_of_le_of_lt (prod_le_prod (fun j _ => ?_) fun j _ => ?_) hvol
    · linarith [hw0 j]
    · linarith [hwW j]
  · obtain ⟨j, hj⟩ := hmin
    exact ⟨j, le_trans (by linarith [hwW j]) hj⟩

/-! ### Diagonal systems in two variables -/

theorem mantissa {u : ℝ} (hu : 0 < u) : 1 ≤ u / 2 ^ Int.log 2 u ∧ u / (2 : ℝ) ^ Int.log 2 u < 2 := by
  have h2 : (0 : ℝ) < 2 ^ Int.log 2 u := zpow_pos two_pos _
  constructor
  · rw [le_div_iff₀ h2, one_mul]
    exact_mod_cast Int.zpow_log_le_self one_lt_two hu
  · rw [div_lt_iff₀ h2]
    have := Int.lt_zpow_succ_log_self (b := 2) one_lt_two u
    rw [zpow_add_one₀ (by norm_num)] at this
    push_cast at this
    linarith

theorem log_mantissa {m : ℝ} (h1 : 1 ≤ m) (h2 : m < 2) : Int.log 2 m = 0 := by
  rw [Int.log_of_one_le_right _ h1]
  have : ⌊m⌋₊ = 1 := by
    rw [Nat.floor_eq_iff (by linarith)]
    constructor <;> push_cast <;> linarith
  rw [this]
  simp

/-- The scaled matrix of a positive diagonal system is diagonal, with entries in `[1, 2)`. -/
theorem equil_diag {A : Matrix (Fin 2) (Fin 2) ℝ} (h0 : 0 < A 0 0) (h1 : 0 < A 1 1) (h01 : A 0 1 = 0) (h10 : A 1 0 = 0) :
    1 ≤ equil A 0 0 ∧ equil A 0 0 < 2 ∧ 1 ≤ equil A 1 1 ∧ equil A 1 1 < 2 ∧ equil A 0 1 = 0 ∧ equil A 1 0 = 0 := by
  have hm0 : maxAbs (A 0) = A 0 0 := by
    simp [maxAbs, List.finRange_succ, h01, abs_of_pos h0, h0.le]
  have hm1 : maxAbs (A 1) = A 1 1 := by
    simp [maxAbs, List.finRange_succ, h10, abs_of_pos h1, h1.le]
  have hr0 : rowScale (A 0) = 2 ^ Int.log 2 (A 0 0) := by
    unfold rowScale
    rw [if_pos (by rw [hm0]; exact h0), hm0, pow2Floor]
  have hr1 : rowScale (A 1) = 2 ^ Int.log 2 (A 1 1) := by
    unfold rowScale
    rw [if_pos (by rw [hm1]; exact h1), hm1, pow2Floor]
  obtain ⟨a1, a2⟩ := mantissa h0
  obtain ⟨b1, b2⟩ := mantissa h1
  have hc0 : colS A 0 = 1 := by
    have hm : maxAbs (fun i => A i 0 / rowScale (A i)) = A 0 0 / 2 ^ Int.log 2 (A 0 0) := by
      simp only [maxAbs, List.finRange_succ, List.finRange_zero, List.map_cons, List.map_nil, List.foldl_cons, List.foldl_nil]
      simp only [Fin.succ_zero_eq_one, h10, zero_div, abs_zero, hr0]
      rw [abs_of_pos (by linarith), max_eq_right (by linarith : (0 : ℝ) ≤ _), max_eq_left (by linarith)]
    unfold colS colScale
    rw [hm, if_pos (by linarith), log_mantissa a1 a2]
    simp
  have hc1 : colS A 1 = 1 := by
    have hm : maxAbs (fun i => A i 1 / rowScale (A i)) = A 1 1 / 2 ^ Int.log 2 (A 1 1) := by
      simp only [maxAbs, List.finRange_succ, List.finRange_zero, List.map_cons, List.map_nil, List.foldl_cons, List.foldl_nil]
      simp only [Fin.succ_zero_eq_one, h01, zero_div, abs_zero, hr1, max_self]
      rw [abs_of_pos (by linarith), max_eq_right (by linarith : (0 : ℝ) ≤ _)]
    unfold colS colScale
    rw [hm, if_pos (by linarith), log_mantissa b1 b2]
    simp
  unfold equil
  simp only [Matrix.of_apply, hr0, hr1, hc0, hc1, mul_one, h01, h10, zero_div]
  exact ⟨a1, a2, b1, b2, trivial, trivial⟩

/-- Numpy's answer on diagonal matrices with entries in `[1, 2)`: they are well conditioned. -/
def WellOnDiag (svd : SVD 2 ℝ) : Prop :=
  ∀ D : Matrix (Fin 2) (Fin 2) ℝ, 1 ≤ D 0 0 → D 0 0 < 2 → 1 ≤ D 1 1 → D 1 1 < 2 → D 0 1 = 0 → D 1 0 = 0 → svd.wellConditioned D = true

theorem WellOnDiag.equil {svd : SVD 2 ℝ} (h : WellOnDiag svd) {A : Matrix (Fin 2) (Fin 2) ℝ} (h0 : 0 < A 0 0) (h1 : 0 < A 1 1) (h01 : A 0 1 = 0)
    (h10 : A 1 0 = 0) : svd.wellConditioned (equil A) = true := by
  obtain ⟨h1, h2, h3, h4, h5, h6⟩ := equil_diag h0 h1 h01 h10
  exact h _ h1 h2 h3 h4 h5 h6

/-- Swap of the two coordinates. -/
def swap2 : Matrix (Fin 2) (Fin 2) ℝ := !![0, 1; 1, 0]

/-- Singular value decomposition of diagonal matrices with positive entries (singular values 0 for all others). -/
noncomputable def diagSvd : SVD 2 ℝ where
  U A := if A 1 1 ≤ A 0 0 then 1 else swap2
  S A := if 0 < A 0 0 ∧ 0 < A 1 1 ∧ A 0 1 = 0 ∧ A 1 0 = 0 then ![max (A 0 0) (A 1 1), min (A 0 0) (A 1 1)] else 0
  Vh A := if A 1 1 ≤ A 0 0 then 1 else swap2

noncomputable def diagEnv : Env 2 ℝ :=
  ⟨diagSvd, fun l => List.range l.length, fun s => (List.finRange 2).filter (· ∈ s), quadraticCheck 2 ⟨fun _ _ => true, fun _ _ b => b⟩⟩

theorem swap2_orth : swap2.transpose * swap2 = 1 := by
  ext i j
  fin_cases i <;> fin_cases j <;> simp [swap2, Matrix.mul_apply, Fin.sum_univ_two]

theorem diagEnv_ok : diagEnv.OK ⟨fun _ _ => true, fun _ _ b => b⟩ false where
  svd := by
    refine ⟨fun A i => ?_, fun A i j hij => ?_, fun A _ => ?_, fun A _ => ?_, fun A hA => ?_⟩
    · show 0 ≤ (if _ then _ else _ : Fin 2 → ℝ) i
      split_ifs with h
      · fin_cases i
        · exact le_max_of_le_left h.1.le
        · exact le_min h.1.le h.2.1.le
      · exact le_rfl
    · show (if _ then _ else _ : Fin 2 → ℝ) j ≤ (if _ then _ else _ : Fin 2 → ℝ) i
      split_ifs with h
      · fin_cases i <;> fin_cases j <;> simp at hij ⊢
      · exact le_rfl
    · show (if _ then _ else _ : Matrix (Fin 2) (Fin 2) ℝ).transpose * (if _ then _ else _) = 1
      split_ifs
      · simp
      · exact swap2_orth
    · show (if _ then _ else _ : Matrix (Fin 2) (Fin 2) ℝ).transpose * (if _ then _ else _) = 1
      split_ifs
      · simp
      · exact swap2_orth
    · have h : 0 < A 0 0 ∧ 0 < A 1 1 ∧ A 0 1 = 0 ∧ A 1 0 = 0 := by
        by_contra hn
        have e : diagEnv.svd.S A = 0 := if_neg hn
        simp [SVD.wellConditioned, e] at hA
      have e : diagEnv.svd.S A = ![max (A 0 0) (A 1 1), min (A 0 0) (A 1 1)] := if_pos h
      rw [e]
      show A = (if A 1 1 ≤ A 0 0 then 1 else swap2) * _ * (if A 1 1 ≤ A 0 0 then 1 else swap2)
      obtain ⟨-, -, h01, h10⟩ := h
      split_ifs with hle
      · rw [Matrix.one_mul, Matrix.mul_one, max_eq_left hle, min_eq_right hle]
        ext i j
        fin_cases i <;> fin_cases j <;> simp [h01, h10]
      · have hle' := (not_le.1 hle).le
        rw [max_eq_right hle', min_eq_left hle']
        ext i j
        fin_cases i <;> fin_cases j <;> simp [h01, h10, swap2, Matrix.mul_apply, Fin.sum_univ_two, Matrix.diagonal, Matrix.vecHead, Matrix.vecTail]
  argsort l := List.Perm.refl _
  setIter s := by
    constructor
    · exact List.Pairwise.filter _ (by decide)
    · intro d; simp [diagEnv]
  quad := rfl
  linAlg S _ h := by simp at h

theorem diagEnv_well : WellOnDiag diagEnv.svd := by
  intro D h1 h2 h3 h4 h5 h6
  have e : diagEnv.svd.S D = ![max (D 0 0) (D 1 1), min (D 0 0) (D 1 1)] := if_pos ⟨by linarith, by linarith, h5, h6⟩
  unfold SVD.wellConditioned SVD.condNum
  rw [dif_pos (by norm_num), dif_pos (by norm_num), decide_eq_true_eq, e]
  show max (D 0 0) (D 1 1) > 0 ∧ min (D 0 0) (D 1 1) / max (D 0 0) (D 1 1) > 1 / 10 ^ 10
  have hM : 0 < max (D 0 0) (D 1 1) := lt_max_of_lt_left (by linarith)
  have hM2 : max (D 0 0) (D 1 1) < 2 := max_lt h2 h4
  have hm : 1 ≤ min (D 0 0) (D 1 1) := le_min h1 h3
  refine ⟨hM, ?_⟩
  rw [gt_iff_lt, lt_div_iff₀ hM]
  generalize max (D 0 0) (D 1 1) = M at *
  generalize min (D 0 0) (D 1 1) = m at *
  norm_num
  linarith

/-- Two variables, approximation included: for `u, v ≥ 1`, `solve` returns the zero `(0, 1/2)` of `u x` and `v (y - 1/2)`. -/
example (u v : ℝ) (hu : 1 ≤ u) (hv : 1 ≤ v) (fuel : ℕ) (hf : 6 ≤ fuel) (exact : Bool) :
    ∃ w : Fin 2 → ℝ, (∀ j, 0 < w j ∧ w j ≤ 1 / 2 ^ 47) ∧ solve diagEnv (chebApproximator 1 (1 / 10 ^ 10))
      (fun i => .call fun x => (![0, -v / 2] : Fin 2 → ℝ) i + ∑ j, !![u, 0; 0, v] i j * x j) exact (1 / 10 ^ 5) fuel (fun _ => -1) (fun _ => 1) =
        .ok ([![0, 1 / 2]], [⟨fun j => (![0, 1 / 2] : Fin 2 → ℝ) j - w j, fun j => (![0, 1 / 2] : Fin 2 → ℝ) j + w j⟩]) := by
  have hu0 : 0 < u := by linarith
  have hv0 : 0 < v := by linarith
  have hu1 : u⁻¹ ≤ 1 := inv_le_one_of_one_le₀ hu
  have hv1 : v⁻¹ ≤ 1 := inv_le_one_of_one_le₀ hv
  have hui : 0 < u⁻¹ := inv_pos.2 hu0
  have hvi : 0 < v⁻¹ := inv_pos.2 hv0
  have hmax : max (u * (1 / 10 ^ 10)) ((1 : ℝ) / 2 ^ 49) ≤ u / 6 := max_le (by linarith) (by norm_num; linarith)
  have hmax' : max (v * (3 / 2) * (1 / 10 ^ 10)) ((1 : ℝ) / 2 ^ 49) ≤ v / 6 := max_le (by linarith) (by norm_num; linarith)
  obtain ⟨w, hw, hs⟩ := C95_solve_partial diagEnv _ diagEnv_ok 1 le_rfl (1 / 10 ^ 10) (by norm_num) exact (1 / 10 ^ 5) fuel hf (fun _ => -1) (fun _ => 1)
    (fun _ => by norm_num) !![u, 0; 0, v] !![u⁻¹, 0; 0, v⁻¹] (by
      ext i j
      fin_cases i <;> fin_cases j <;> simp [Matrix.mul_apply, Fin.sum_univ_two, hu0.ne', hv0.ne'])
    ![0, -v / 2] ![0, 1 / 2] (fun i => by
      fin_cases i <;> simp [Fin.sum_univ_two]
      ring)
    ![u, v * (3 / 2)] (fun i => by
      fin_cases i
      · simp [Fin.sum_univ_two, abs_of_pos hu0]
      · simp [Fin.sum_univ_two, abs_div, abs_of_pos hv0]
        ring)
    (fun i => by
      fin_cases i <;> simp <;> linarith)
    (fun i j => by
      fin_cases i <;> fin_cases j
      · right; simp only [Nat.reduceSub, pow_one]; simpa [abs_of_pos hu0] using by linarith
      · left; rfl
      · left; rfl
      · right; simp only [Nat.reduceSub, pow_one]; simpa [abs_of_pos hv0] using by linarith)
    ![(9 * u⁻¹ + 2) / 2 ^ 51, (9 * v⁻¹ + 2) / 2 ^ 51] (fun j => by
      fin_cases j
      · simp [Fin.sum_univ_two, abs_of_pos hu0]; norm_num
      · simp [Fin.sum_univ_two, abs_of_pos hv0]; norm_num)
    (fun j => by
      fin_cases j
      · simp; linarith
      · simp; constructor <;> linarith)
    (by
      rw [Fin.prod_univ_two, Fin.prod_univ_two]
      simp
      nlinarith)
    ⟨0, by simp; linarith⟩
    (fun w hw => diagEnv_well.equil (by simpa using mul_pos hu0 (hw 0)) (by simpa using mul_pos hv0 (hw 1)) (by simp) (by simp))
  refine ⟨w, fun j => ⟨(hw j).1, (hw j).2.trans ?_⟩, hs⟩
  fin_cases j
  · simp; linarith
  · simp; linarith

/-! ### A small slope is lost -/

/-- `x + 10⁻¹³ y` and `y - 1/2`. -/
noncomputable def tiltSys (i : Fin 2) (x : Fin 2 → ℝ) : ℝ := if i = 0 then x 0 + 1 / 10 ^ 13 * x 1 else x 1 - 1 / 2

theorem tilt_loc : LocAff (tiltSys 0) (fun _ => -1) (fun _ => 1) 0 ![1, 1 / 10 ^ 13] := by
  intro x
  rw [Fin.sum_univ_two]
  simp [tiltSys, transformPt]
  ring

theorem tilt_along (x : Fin 2 → ℝ) (vals : List ℝ) (h0 : 1 / 100 ≤ x 0) (h1 : |x 1| ≤ 1) (hv : ∀ v ∈ vals, |v| ≤ 1) :
    constantAlong (tiltSys 0) (fun _ => -1) (fun _ => 1) 1 (1 / 10 ^ 10) 0 x vals = true := by
  rw [abs_le] at h1
  unfold constantAlong
  rw [Bool.and_eq_true, Bool.not_eq_true', Bool.eq_false_iff, Ne, test_iff, test_iff]
  unfold isCloseTol tiltSys
  refine ⟨?_, fun v hvm => ?_⟩
  · simp only [if_true, sub_zero, abs_zero, mul_zero, add_zero]
    rw [not_le]
    refine lt_of_lt_of_le ?_ (le_abs_self _)
    linarith [h1.1]
  · have hv1 := abs_le.1 (hv v hvm)
    simp only [if_true, Function.update_self, Function.update_of_ne (show (0 : Fin 2) ≠ 1 by decide)]
    have e : transform1 v (-1) 1 = v := by unfold transform1; ring
    rw [e]
    have hb := le_abs_self (x 0 + 1 / 10 ^ 13 * v)
    rw [abs_le]
    constructor <;> linarith [hv1.1, hv1.2, h1.1, h1.2]

/-- The second variable is taken for absent from the first function. -/
theorem tilt_constant : checkConstantInDimension (tiltSys 0) (fun _ => -1) (fun _ => 1) 1 (1 / 10 ^ 10) 0 = true := by
  unfold checkConstantInDimension
  simp only
  rw [Bool.and_eq_true]
  constructor
  · refine tilt_along _ _ ?_ ?_ ?_
    · norm_num [transformPt]
    · norm_num [transformPt, abs_le]
    · simp only [testVals1, List.mem_cons, List.not_mem_nil, or_false, forall_eq_or_imp, forall_eq]
      norm_num [abs_le]
  · refine tilt_along _ _ ?_ ?_ ?_
    · norm_num [transformPt]
    · norm_num [transformPt, abs_le]
    · simp only [testVals2, List.mem_cons, List.not_mem_nil, or_false, forall_eq_or_imp, forall_eq]
      norm_num [abs_le]

/-- The only zero of the system. -/
theorem tilt_zero (x : Fin 2 → ℝ) : (∀ i, tiltSys i x = 0) ↔ x = ![-(1 / (2 * 10 ^ 13)), 1 / 2] := by
  constructor
  · intro h
    have h0 := h 0
    have h1 := h 1
    simp only [tiltSys, if_true, one_ne_zero, if_false] at h0 h1
    have e1 : x 1 = 1 / 2 := by linarith
    rw [e1] at h0
    funext i
    fin_cases i
    · simp only [Fin.zero_eta, Matrix.cons_val_zero]; linarith
    · simpa using e1
  · rintro rfl i
    fin_cases i
    · norm_num [tiltSys]
    · simp [tiltSys]

/-- What the approximator gives for the two functions. -/
theorem tilt_approx (fuel : ℕ) (hf : 1 ≤ fuel) (i : Fin 2) : ∃ M e, chebApproximate fuel (tiltSys i) (fun _ => -1) (fun _ => 1) (1 / 10 ^ 10) = .ok (M, e) ∧
    (∀ j, 0 < M.shape j) ∧ (∀ x, M.eval x = (![0, -1 / 2] : Fin 2 → ℝ) i + x i) ∧ 0 ≤ e ∧ e ≤ 9 / 2 ^ 51 := by
  obtain ⟨fuel, rfl⟩ : ∃ f, fuel = f + 1 := ⟨fuel - 1, by omega⟩
  fin_cases i
  · have hS : |(0 : ℝ)| + ∑ i, |(![1, 1 / 10 ^ 13] : Fin 2 → ℝ) i| = 1 + 1 / 10 ^ 13 := by
      rw [Fin.sum_univ_two]
      simp
    have hbig : BigSlope 0 ![1, 1 / 10 ^ 13] (1 / 10 ^ 10) 0 := by
      unfold BigSlope
      rw [hS]
      have : max ((1 + 1 / 10 ^ 13) * (1 / 10 ^ 10)) ((1 : ℝ) / 2 ^ 49) ≤ 1 / 6 := max_le (by norm_num) (by norm_num)
      simpa using by linarith
    have hsmall : ¬ BigSlope 0 ![1, 1 / 10 ^ 13] (1 / 10 ^ 10) 1 := by
      intro h
      have := h.le
      rw [hS] at this
      norm_num at this
    obtain ⟨M, e, h1, h2, h3, h4, h5, h6, -⟩ := approx_aff tilt_loc (fun _ => by norm_num) (rtol := 1 / 10 ^ 10) (by norm_num) (by rw [hS]; norm_num)
      (fun i => by
        fin_cases i
        · exact .inl hbig
        · refine .inr ⟨?_, .inr tilt_constant⟩
          rw [hS]
          norm_num) fuel
    have hs0 := h2 0 hbig
    have hs1 := h3 1 hsmall
    have hpos : ∀ j, 0 < M.shape j := fun j => by
      fin_cases j
      · simp [hs0]
      · simp [hs1]
    refine ⟨M, e, h1, hpos, fun x => ?_, h5, h6.trans (by norm_num)⟩
    rw [eval_affCoef hpos h4, Fin.sum_univ_two, hs0, hs1]
    simp
  · have hfun : tiltSys 1 = fun x => -1 / 2 + ∑ j, (![0, 1] : Fin 2 → ℝ) j * x j := by
      funext x
      rw [Fin.sum_univ_two]
      simp [tiltSys]
      ring
    obtain ⟨M, e, h1, h2, h3, h4, h5, -⟩ := C95_affine_partial (-1 / 2) ![0, 1] (fun _ => -1) (fun _ => 1) (fun _ => by norm_num) (1 / 10 ^ 10) (by norm_num)
      (3 / 2) (by rw [Fin.sum_univ_two, Fin.sum_univ_two]; norm_num [abs_div]) (by norm_num) (fun j => by
        fin_cases j
        · left; rfl
        · right
          norm_num) (fuel + 1) (by omega)
    refine ⟨M, e, ?_, fun j => ?_, fun x => ?_, h4, h5.trans (by norm_num)⟩
    · rw [← h1]
      exact congrArg (fun f => chebApproximate (fuel + 1) f (fun _ => -1) (fun _ => 1) (1 / 10 ^ 10)) hfun
    · rw [h3]; split_ifs <;> omega
    · rw [h2, Fin.sum_univ_two]
      simp [transformPt]
      ring

/-- **C95**, false in general: `solve` on the callables `x + 10⁻¹³ y` and `y - 1/2` returns the point `(0, 1/2)` with a box that does not contain the
zero `(-5·10⁻¹⁴, 1/2)` of the system: no box that is returned contains a zero.  The variable `y` is taken for absent from the first function, and the
error bound of its approximation does not allow for that. -/
theorem C95_small_slope_false (env : Env 2 ℝ) (la : LinAlg 2 ℝ) (hok : env.OK la false) (hwc : WellOnDiag env.svd) (fuel' : ℕ) (hfuel' : 1 ≤ fuel')
    (exact : Bool) (fuel : ℕ) (hfuel : 6 ≤ fuel) :
    ∃ box : Box 2 ℝ, solve env (chebApproximator fuel' (1 / 10 ^ 10)) (fun i => .call (tiltSys i)) exact (1 / 10 ^ 5) fuel (fun _ => -1) (fun _ => 1) =
        .ok ([![0, 1 / 2]], [box]) ∧
      (∃! x, ∀ i, tiltSys i x = 0) ∧ ∀ x, (∀ i, tiltSys i x = 0) → InCube x ∧ ¬ box.Mem x := by
  choose Ms e h1 h2 h3 h4 h5 using tilt_approx fuel' hfuel'
  set w : Fin 2 → ℝ := fun j => ∑ k, |(1 : Matrix (Fin 2) (Fin 2) ℝ) j k| * e k + (1 - -1) / 2 ^ 52 with hw
  have hwe : ∀ j, w j = e j + 2 / 2 ^ 52 := by
    intro j
    simp only [hw]
    rw [Fin.sum_univ_two]
    fin_cases j <;> norm_num [Matrix.one_apply]
  have hw0 : ∀ j, 0 < w j := fun j => by rw [hwe]; have := h4 j; positivity
  have hw1 : ∀ j, w j ≤ 10 / 2 ^ 51 := fun j => by rw [hwe]; have := h5 j; norm_num at this ⊢; linarith
  have hev : ∀ i x, (Ms i).eval x = (![0, -1 / 2] : Fin 2 → ℝ) i + ∑ j, (1 : Matrix (Fin 2) (Fin 2) ℝ) i j * transformPt x (fun _ => -1) (fun _ => 1) j := by
    intro i x
    rw [h3, Fin.sum_univ_two]
    congr 1
    fin_cases i <;> simp [transformPt, Matrix.one_apply] <;> ring
  refine ⟨⟨fun j => (![0, 1 / 2] : Fin 2 → ℝ) j - w j, fun j => (![0, 1 / 2] : Fin 2 → ℝ) j + w j⟩, ?_, ⟨_, (tilt_zero _).2 rfl, fun x hx => (tilt_zero x).1 hx⟩,
    fun x hx => ?_⟩
  · refine solve_core env la hok (chebApproximator fuel' (1 / 10 ^ 10)) (fun i => .call (tiltSys i)) exact (1 / 10 ^ 5) fuel hfuel _ _ (fun _ => by norm_num)
      1 1 (by simp) ![0, -1 / 2] ![0, 1 / 2] (fun i => ?_) Ms e h1 (fun i => affine_of_eval (h2 i) (r := (![0, -1 / 2] : Fin 2 → ℝ) i) (p := (1 : Matrix (Fin 2) (Fin 2) ℝ) i) fun x _ => ?_)
      (fun i x _ => hev i x) h4 w (fun j => rfl) (fun j => ?_) ?_ ⟨0, ?_⟩ ?_ ?_
    · rw [Fin.sum_univ_two]
      fin_cases i <;> norm_num [Matrix.one_apply]
    · rw [h3, Fin.sum_univ_two]
      fin_cases i <;> simp [Matrix.one_apply]
    · have := hw1 j
      have := hw0 j
      fin_cases j
      · constructor <;> norm_num at * <;> linarith
      · constructor <;> norm_num at * <;> linarith
    · rw [Fin.prod_univ_two, Fin.prod_univ_two]
      have a0 := hw1 0
      have a1 := hw1 1
      have b0 := hw0 0
      have b1 := hw0 1
      norm_num at a0 a1 ⊢
      nlinarith
    · have := hw1 0
      norm_num at this ⊢
      linarith
    · exact hwc.equil (by simp) (by simp) (by simp) (by simp)
    · exact hwc.equil (by simpa using hw0 0) (by simpa using hw0 1) (by simp) (by simp)
  · rw [tilt_zero] at hx
    subst hx
    refine ⟨fun i => ?_, fun hm => ?_⟩
    · fin_cases i <;> norm_num [abs_le]
    · have := (hm 0).1
      have hw' := hw1 0
      simp only [Matrix.cons_val_zero] at this
      norm_num at this hw'
      linarith

/-- The hypotheses hold for an exact decomposition. -/
example (exact : Bool) : ∃ box : Box 2 ℝ,
    solve diagEnv (chebApproximator 1 (1 / 10 ^ 10)) (fun i => .call (tiltSys i)) exact (1 / 10 ^ 5) 6 (fun _ => -1) (fun _ => 1) = .ok ([![0, 1 / 2]], [box]) ∧
      (∃! x, ∀ i, tiltSys i x = 0) ∧ ∀ x, (∀ i, tiltSys i x = 0) → InCube x ∧ ¬ box.Mem x :=
  C95_small_slope_false diagEnv _ diagEnv_ok diagEnv_well 1 le_rfl exact 6 le_rfl

end YRoots
