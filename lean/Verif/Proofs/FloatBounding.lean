import Verif.Spec.FloatSum
import Verif.Proofs.Bounding
import Verif.Proofs.Float
import Mathlib.Algebra.Order.BigOperators.Group.List
import Mathlib.Algebra.BigOperators.Group.Finset.Basic

/-!
# Helper lemmas: the bounding step in floating-point arithmetic
-/

set_option linter.unusedSectionVars false
set_option linter.unusedVariables false

namespace YRoots

open Finset

variable {n : ℕ} {K : Type*} [Field K] [LinearOrder K] [IsStrictOrderedRing K]

/-! ### The entries of an array, one after the other -/

theorem digits_inj (sh : Fin n → ℕ) {p q : ℕ} (hp : p < tailProd sh 0) (hq : q < tailProd sh 0)
    (h : ∀ i : Fin n, p / tailProd sh (i.1 + 1) % sh i = q / tailProd sh (i.1 + 1) % sh i) : p = q := by
  have key : ∀ k, k ≤ n → p / tailProd sh k = q / tailProd sh k := by
    intro k
    induction k with
    | zero => intro _; rw [Nat.div_eq_of_lt hp, Nat.div_eq_of_lt hq]
    | succ k ih =>
      intro hk
      have h1 := ih (by omega)
      rw [tailProd_step sh k hk, ← Nat.div_div_eq_div_mul, ← Nat.div_div_eq_div_mul] at h1
      have h2 := h ⟨k, hk⟩
      rw [← Nat.div_add_mod (p / tailProd sh (k + 1)) (sh ⟨k, hk⟩), h1, h2, Nat.div_add_mod]
  have h1 : tailProd sh n = 1 := by
    unfold tailProd
    rw [Finset.filter_false_of_mem, prod_empty]
    intro j _
    have := j.2
    omega
  have := key n le_rfl
  rwa [h1, Nat.div_one, Nat.div_one] at this

theorem tailProd_zero (sh : Fin n → ℕ) : tailProd sh 0 = ∏ i, sh i := by
  unfold tailProd
  rw [Finset.filter_true_of_mem]
  intro j _
  omega

theorem sum_ravel (M : Tensor n K) (hM : M.Nonempty) (f : K → K) :
    ∑ p ∈ range (∏ i, M.shape i), f (M.ravel p) = ∑ k ∈ M.idx, f (M.coef k) := by
  have hpos : ∀ i, 0 < M.shape i := hM
  let d : ℕ → Fin n → ℕ := fun p i => p / weight M.shape i % M.shape i
  have hinj : Set.InjOn d (range (∏ i, M.shape i)) := by
    intro p hp q hq h
    rw [coe_range, Set.mem_Iio, ← tailProd_zero] at hp hq
    refine digits_inj M.shape hp hq fun i => ?_
    have := congrFun h i
    simp only [d] at this
    rwa [weight_eq_tailProd] at this
  have hmaps : ∀ p ∈ range (∏ i, M.shape i), d p ∈ M.idx := by
    intro p _
    unfold Tensor.idx
    rw [Fintype.mem_piFinset]
    intro i
    exact mem_range.2 (Nat.mod_lt _ (hpos i))
  have himg : (range (∏ i, M.shape i)).image d = M.idx := by
    apply eq_of_subset_of_card_le
    · intro k hk
      obtain ⟨p, hp, rfl⟩ := mem_image.1 hk
      exact hmaps p hp
    · rw [card_image_of_injOn hinj, card_range]
      unfold Tensor.idx
      rw [Fintype.card_piFinset]
      simp
  rw [← himg, sum_image hinj]
  rfl

theorem absList_sum (M : Tensor n K) (hM : M.Nonempty) : M.absList.sum = M.absSum := by
  unfold Tensor.absList Tensor.absSum
  rw [← sum_ravel M hM fun v => |v|, Finset.sum_range]
  rw [← List.sum_ofFn]
  congr 1
  rw [List.ofFn_eq_map, ← List.map_coe_finRange_eq_range, List.map_map]
  rfl

/-! ### Rounding -/

theorem IsFloat.mul_zp {p : ℕ} {x : K} (h : IsFloat p x) (k : ℤ) : IsFloat p (x * 2 ^ k) := by
  obtain ⟨m, e, hm, rfl⟩ := h
  exact ⟨m, e + k, hm, by rw [zpow_add₀ two_ne_zero, mul_assoc]⟩

theorem SumTree.length_pos (t : SumTree K) : 1 ≤ t.leaves.length := by
  induction t with
  | leaf x => simp [leaves]
  | node a b ha hb =>
    simp only [leaves, List.length_append]
    omega

section RN

variable [FloorRing K] {p : ℕ} {fl : K → K} (hfl : RoundsToNearest p fl)

include hfl

theorem fl_mono {x y : K} (h : x ≤ y) : fl x ≤ fl y := by
  by_contra hc
  push Not at hc
  rcases eq_or_lt_of_le h with rfl | hlt
  · exact lt_irrefl _ hc
  have h1 := hfl.nearest x (fl y) (hfl.isFloat y)
  have h2 := hfl.nearest y (fl x) (hfl.isFloat x)
  rcases abs_cases (x - fl x) with ⟨e1, e1'⟩ | ⟨e1, e1'⟩ <;> rcases abs_cases (x - fl y) with ⟨e2, e2'⟩ | ⟨e2, e2'⟩ <;>
    rcases abs_cases (y - fl y) with ⟨e3, e3'⟩ | ⟨e3, e3'⟩ <;> rcases abs_cases (y - fl x) with ⟨e4, e4'⟩ | ⟨e4, e4'⟩ <;> linarith

theorem fl_zero : fl 0 = 0 := fl_eq hfl isFloat_zero

theorem fl_nonneg {x : K} (h : 0 ≤ x) : 0 ≤ fl x := by
  have := fl_mono hfl h
  rwa [fl_zero hfl] at this

/-- Relative error of one rounding. -/
theorem fl_rel (hp : 1 ≤ p) (x : K) : |fl x - x| ≤ |x| / 2 ^ p := by
  by_cases h0 : x = 0
  · rw [h0, fl_zero hfl]
    simp
  obtain ⟨k, h1, h2⟩ := exists_binade p x h0
  have h3 := err_le hfl hp h2.le
  rw [abs_sub_comm] at h3
  refine h3.trans ?_
  rw [le_div_iff₀ (by positivity)]
  refine le_trans (le_of_eq ?_) h1
  rw [show k + (p : ℤ) - 1 = (k - 1) + p by ring, zp_nat, show k = (k - 1) + 1 by ring, zp_succ, add_sub_cancel_right]
  ring

theorem fl_ge (hp : 1 ≤ p) {x : K} (h : 0 ≤ x) : (1 - 1 / 2 ^ p) * x ≤ fl x := by
  have := abs_le.1 (fl_rel hfl hp x)
  rw [abs_of_nonneg h] at this
  have e : (1 - 1 / 2 ^ p) * x = x - x / 2 ^ p := by ring
  rw [e]
  linarith

/-- A sum of nonnegative numbers loses at most a relative error of half a unit in the last place per term. -/
theorem SumTree.val_ge (hp : 1 ≤ p) (t : SumTree K) (h : ∀ x ∈ t.leaves, 0 ≤ x) :
    (1 - 1 / 2 ^ p) ^ t.leaves.length * t.leaves.sum ≤ t.val fl ∧ 0 ≤ t.leaves.sum := by
  have hu0 : (0 : K) ≤ 1 - 1 / 2 ^ p := by
    rw [sub_nonneg, div_le_one (by positivity)]
    exact one_le_pow₀ one_le_two
  have hu1 : (1 : K) - 1 / 2 ^ p ≤ 1 := by
    have : (0 : K) ≤ 1 / 2 ^ p := by positivity
    linarith
  induction t with
  | leaf x =>
    have hx := h x (by simp [leaves])
    simp only [leaves, List.length_singleton, pow_one, List.sum_singleton, val]
    exact ⟨mul_le_of_le_one_left hx hu1, hx⟩
  | node a b iha ihb =>
    obtain ⟨a1, a2⟩ := iha fun x hx => h x (by simp [leaves, hx])
    obtain ⟨b1, b2⟩ := ihb fun x hx => h x (by simp [leaves, hx])
    have la := a.length_pos
    have lb := b.length_pos
    simp only [leaves, List.length_append, List.sum_append, val]
    refine ⟨?_, add_nonneg a2 b2⟩
    have ha : (1 - 1 / 2 ^ p) ^ (a.leaves.length + b.leaves.length) * a.leaves.sum ≤ (1 - 1 / 2 ^ p) * a.val fl := by
      calc _ ≤ (1 - 1 / 2 ^ p) ^ (a.leaves.length + 1) * a.leaves.sum :=
            mul_le_mul_of_nonneg_right (pow_le_pow_of_le_one hu0 hu1 (by omega)) a2
        _ = (1 - 1 / 2 ^ p) * ((1 - 1 / 2 ^ p) ^ a.leaves.length * a.leaves.sum) := by ring
        _ ≤ _ := mul_le_mul_of_nonneg_left a1 hu0
    have hb : (1 - 1 / 2 ^ p) ^ (a.leaves.length + b.leaves.length) * b.leaves.sum ≤ (1 - 1 / 2 ^ p) * b.val fl := by
      calc _ ≤ (1 - 1 / 2 ^ p) ^ (b.leaves.length + 1) * b.leaves.sum :=
            mul_le_mul_of_nonneg_right (pow_le_pow_of_le_one hu0 hu1 (by omega)) b2
        _ = (1 - 1 / 2 ^ p) * ((1 - 1 / 2 ^ p) ^ b.leaves.length * b.leaves.sum) := by ring
        _ ≤ _ := mul_le_mul_of_nonneg_left b1 hu0
    have hva : 0 ≤ a.val fl := le_trans (by positivity) a1
    have hvb : 0 ≤ b.val fl := le_trans (by positivity) b1
    have := fl_ge hfl hp (add_nonneg hva hvb)
    rw [mul_add]
    linarith

end RN

/-! ### The scaled system -/

section Sys

variable [FloorRing K]

theorem rowScale_zp (v : Fin n → K) : ∃ k : ℤ, rowScale v = 2 ^ k := by
  unfold rowScale pow2Floor
  split
  · exact ⟨_, rfl⟩
  · exact ⟨0, by simp⟩

theorem colScale_zp (v : Fin n → K) : ∃ k : ℤ, colScale v = 2 ^ k := by
  unfold colScale
  split
  · exact ⟨_, rfl⟩
  · exact ⟨0, by simp⟩

theorem IsFloat.div_rowScale {p : ℕ} {x : K} (h : IsFloat p x) (v : Fin n → K) : IsFloat p (x / rowScale v) := by
  obtain ⟨k, hk⟩ := rowScale_zp v
  rw [hk, div_eq_mul_inv, ← zpow_neg]
  exact h.mul_zp _

theorem IsFloat.mul_colScale {p : ℕ} {x : K} (h : IsFloat p x) (v : Fin n → K) : IsFloat p (x * colScale v) := by
  obtain ⟨k, hk⟩ := colScale_zp v
  rw [hk]
  exact h.mul_zp _

theorem isFloat_linCoef {p : ℕ} {M : Tensor n K} (hM : M.Nonempty) (h : ∀ k ∈ M.idx, IsFloat p (M.coef k)) (j : Fin n) :
    IsFloat p (linCoef M j) := by
  unfold linCoef
  split
  · exact isFloat_zero
  · rename_i h1
    apply h
    unfold Tensor.idx
    rw [Fintype.mem_piFinset]
    intro i
    rw [mem_range]
    have h2 := hM i
    have h3 := hM j
    by_cases hij : i = j
    · subst hij
      rw [Pi.single_eq_same]
      omega
    · rw [Pi.single_eq_of_ne hij]
      exact h2

theorem isFloat_const {p : ℕ} {M : Tensor n K} (hM : M.Nonempty) (h : ∀ k ∈ M.idx, IsFloat p (M.coef k)) : IsFloat p M.const := by
  apply h
  unfold Tensor.idx
  rw [Fintype.mem_piFinset]
  intro i
  exact mem_range.2 (hM i)

variable {p : ℕ} {ar : FloatArith K} (hfl : RoundsToNearest p ar.fl) (Ms : Fin n → Tensor n K) (hM : ∀ i, (Ms i).Nonempty)
  (hF : ∀ i, ∀ k ∈ (Ms i).idx, IsFloat p ((Ms i).coef k)) (errors : Fin n → K)

include hfl hM hF

theorem linSysF_scaled (i j : Fin n) :
    ar.fl ((getLinearTerms (Ms i)).getD j 0 / rowScale fun j : Fin n => (getLinearTerms (Ms i)).getD j 0) =
      (getLinearTerms (Ms i)).getD j 0 / rowScale fun j : Fin n => (getLinearTerms (Ms i)).getD j 0 := by
  apply fl_eq hfl
  apply IsFloat.div_rowScale
  rw [getLinearTerms_getD (Ms i) (hM i) j]
  exact isFloat_linCoef (hM i) (hF i) j

theorem linSysF_colScaler : (linSysF ar Ms errors false).colScaler = (linSys Ms errors false).colScaler := by
  funext j
  show colScale (fun i => ar.fl _) = colScale fun i => _
  congr 1
  funext i
  exact linSysF_scaled hfl Ms hM hF i j

theorem linSysF_A : (linSysF ar Ms errors false).A = (linSys Ms errors false).A := by
  ext i j
  have hc := congrFun (linSysF_colScaler hfl Ms hM hF errors) j
  show ar.fl (ar.fl _ * (linSysF ar Ms errors false).colScaler j) = _ * (linSys Ms errors false).colScaler j
  rw [hc]
  have h1 := linSysF_scaled hfl Ms hM hF i j
  refine Eq.trans (congrArg (fun z => ar.fl (z * _)) h1) ?_
  apply fl_eq hfl
  apply IsFloat.mul_colScale
  apply IsFloat.div_rowScale
  rw [getLinearTerms_getD (Ms i) (hM i) j]
  exact isFloat_linCoef (hM i) (hF i) j

theorem linSysF_consts : (linSysF ar Ms errors false).consts = (linSys Ms errors false).consts := by
  funext i
  show ar.fl ((Ms i).ravel 0 / _) = (Ms i).ravel 0 / _
  apply fl_eq hfl
  apply IsFloat.div_rowScale
  rw [ravel_zero]
  exact isFloat_const (hM i) (hF i)

theorem isFloat_consts (i : Fin n) : IsFloat p ((linSysF ar Ms errors false).consts i) := hfl.isFloat _

/-- The computed total is at least the exact one times a factor close to one. -/
theorem linSysF_total (hp : 1 ≤ p) (hs : ar.Sums) (he : ∀ i, 0 ≤ errors i) (i : Fin n) :
    (1 - 1 / 2 ^ p) ^ (∏ j, (Ms i).shape j + n + 2) * (linSys Ms errors false).totalErrs i ≤ (linSysF ar Ms errors false).totalErrs i := by
  have hu0 : (0 : K) ≤ 1 - 1 / 2 ^ p := by
    rw [sub_nonneg, div_le_one (by positivity)]
    exact one_le_pow₀ one_le_two
  have hu1 : (1 : K) - 1 / 2 ^ p ≤ 1 := by
    have : (0 : K) ≤ 1 / 2 ^ p := by positivity
    linarith
  set u : K := 1 - 1 / 2 ^ p with hu
  set m := ∏ j, (Ms i).shape j with hm
  set s := rowScale fun j : Fin n => (getLinearTerms (Ms i)).getD j 0 with hsdef
  have hs0 : 0 < s := rowScale_pos _
  -- the sum
  have hlen : (Ms i).absList.length = m := by simp [Tensor.absList, hm]
  have hnn : ∀ x ∈ (Ms i).absList, 0 ≤ x := by
    intro x hx
    obtain ⟨q, _, rfl⟩ := List.mem_map.1 hx
    exact abs_nonneg _
  have hm0 : 0 < m := prod_pos fun j _ => hM i j
  obtain ⟨t, ht1, ht2⟩ := hs.tree (Ms i).absList (by intro h; rw [h] at hlen; simp at hlen; omega)
  have h1 := (t.val_ge hfl hp fun x hx => hnn x (ht1.mem_iff.1 hx))
  rw [ht1.length_eq, ht1.sum_eq, hlen, absList_sum _ (hM i), ht2, ← hu] at h1
  obtain ⟨h1, hS⟩ := h1
  set S := (Ms i).absSum with hSdef
  have h2 : u ^ (m + 1) * (S + errors i) ≤ ar.fl (ar.sum (Ms i).absList + errors i) := by
    have hsum0 : 0 ≤ ar.sum (Ms i).absList := le_trans (by positivity) h1
    have h3 := fl_ge hfl hp (add_nonneg hsum0 (he i))
    rw [← hu] at h3
    have h4 : u ^ m * errors i ≤ errors i := mul_le_of_le_one_left (he i) (pow_le_one₀ hu0 hu1)
    calc u ^ (m + 1) * (S + errors i) = u * (u ^ m * S + u ^ m * errors i) := by ring
      _ ≤ u * (ar.sum (Ms i).absList + errors i) := mul_le_mul_of_nonneg_left (by linarith) hu0
      _ ≤ _ := h3
  have h3 : u ^ (m + 2) * ((S + errors i) / s) ≤ ar.fl (ar.fl (ar.sum (Ms i).absList + errors i) / s) := by
    have h0 : 0 ≤ ar.fl (ar.sum (Ms i).absList + errors i) := le_trans (by have := he i; positivity) h2
    have h4 := fl_ge hfl hp (div_nonneg h0 hs0.le)
    rw [← hu] at h4
    refine le_trans ?_ h4
    calc u ^ (m + 2) * ((S + errors i) / s) = u * ((u ^ (m + 1) * (S + errors i)) / s) := by ring
      _ ≤ _ := mul_le_mul_of_nonneg_left (div_le_div_of_nonneg_right h2 hs0.le) hu0
  -- the columns
  have hc : ∀ j, 1 ≤ (linSys Ms errors false).colScaler j := linSys_colScaler_ge Ms errors false
  have key : ∀ (l : List (Fin n)) (k : ℕ) (T t : K), 2 ≤ k → 0 ≤ T → u ^ k * T ≤ t →
      u ^ (k + l.length) * (T + (l.map fun j : Fin n => |(getLinearTerms (Ms i)).getD j 0 / s| * ((linSys Ms errors false).colScaler j - 1)).sum) ≤
        l.foldl (fun t (j : Fin n) => ar.fl (t + ar.fl (|ar.fl ((getLinearTerms (Ms i)).getD j 0 / s)| *
          ar.fl ((linSysF ar Ms errors false).colScaler j - 1)))) t := by
    intro l
    induction l with
    | nil => intro k T t _ _ h; simpa using h
    | cons j l ih =>
      intro k T t hk hT h
      rw [List.map_cons, List.sum_cons, ← add_assoc, List.length_cons, List.foldl_cons, show k + (l.length + 1) = (k + 1) + l.length by ring]
      set y := |(getLinearTerms (Ms i)).getD j 0 / s| * ((linSys Ms errors false).colScaler j - 1) with hy
      have hc1 : 0 ≤ (linSys Ms errors false).colScaler j - 1 := by linarith [hc j]
      have hy0 : 0 ≤ y := mul_nonneg (abs_nonneg _) hc1
      apply ih (k + 1) (T + y) _ (by omega) (add_nonneg hT hy0)
      have e1 : ar.fl ((getLinearTerms (Ms i)).getD j 0 / s) = (getLinearTerms (Ms i)).getD j 0 / s := linSysF_scaled hfl Ms hM hF i j
      rw [e1, linSysF_colScaler hfl Ms hM hF errors]
      have g1 := fl_ge hfl hp hc1
      have g1' := fl_nonneg hfl hc1
      have g2 := fl_ge hfl hp (mul_nonneg (abs_nonneg ((getLinearTerms (Ms i)).getD j 0 / s)) g1')
      rw [← hu] at g1 g2
      set z := ar.fl (|(getLinearTerms (Ms i)).getD j 0 / s| * ar.fl ((linSys Ms errors false).colScaler j - 1)) with hz
      have g3 : u ^ 2 * y ≤ z := by
        refine le_trans ?_ g2
        calc u ^ 2 * y = u * (|(getLinearTerms (Ms i)).getD j 0 / s| * (u * ((linSys Ms errors false).colScaler j - 1))) := by rw [hy]; ring
          _ ≤ _ := mul_le_mul_of_nonneg_left (mul_le_mul_of_nonneg_left g1 (abs_nonneg _)) hu0
      have hz0 : 0 ≤ z := le_trans (by positivity) g3
      have ht0 : 0 ≤ t := le_trans (by positivity) h
      have g4 := fl_ge hfl hp (add_nonneg ht0 hz0)
      rw [← hu] at g4
      refine le_trans ?_ g4
      have g5 : u ^ k * y ≤ u ^ 2 * y := mul_le_mul_of_nonneg_right (pow_le_pow_of_le_one hu0 hu1 hk) hy0
      calc u ^ (k + 1) * (T + y) = u * (u ^ k * T + u ^ k * y) := by ring
        _ ≤ u * (t + z) := mul_le_mul_of_nonneg_left (by linarith) hu0
  have hfin := key (List.finRange n) (m + 2) ((S + errors i) / s) _ (by omega) (by have := he i; positivity) h3
  rw [List.length_finRange, ← List.ofFn_eq_map, List.sum_ofFn] at hfin
  rw [show m + n + 2 = m + 2 + n by ring]
  exact hfin

end Sys

/-! ### One pair of bounds -/

section Pair

variable [FloorRing K] {fl : K → K} (hfl : RoundsToNearest 53 fl)

include hfl

theorem linBoundsF_close {τ T A c t : K} {N : ℕ} (hA : A ≠ 0) (hc : IsFloat 53 c) (hN : N ≤ 2 ^ 52) (hτ : (1 - 1 / 2 ^ 53) ^ N * T ≤ τ)
    (h : |c + A * t| ≤ T - |c| - |A|) :
    (linBoundsF fl τ A c).1 ≤ t + (N + 8) / 2 ^ 52 * (τ / |A|) ∧ t - (N + 8) / 2 ^ 52 * (τ / |A|) ≤ (linBoundsF fl τ A c).2 := by
  have hA0 : 0 < |A| := abs_pos.2 hA
  obtain ⟨q, hq⟩ : ∃ q, q = τ / |A| := ⟨_, rfl⟩
  obtain ⟨r, hr⟩ : ∃ r, r = c / A := ⟨_, rfl⟩
  obtain ⟨u, hu⟩ : ∃ u : K, u = 1 / 2 ^ 53 := ⟨_, rfl⟩
  rw [← hu] at hτ
  rw [← hq]
  have hu0 : 0 < u := by positivity
  have hN' : (N : K) ≤ 2 ^ 52 := by exact_mod_cast hN
  have hNu : (N : K) * u ≤ 1 / 2 := by
    calc (N : K) * u ≤ 2 ^ 52 * u := mul_le_mul_of_nonneg_right hN' hu0.le
      _ = 1 / 2 := by rw [hu]; norm_num
  have hT0 : 0 ≤ T := by
    have := abs_nonneg (c + A * t)
    have := abs_nonneg c
    linarith
  have hbern : 1 - N * u ≤ (1 - u) ^ N := by
    have := one_add_mul_le_pow (show (-2 : K) ≤ -u by rw [hu]; norm_num) N
    have e : (1 : K) + N * -u = 1 - N * u := by ring
    rw [e] at this
    rwa [show (1 : K) + -u = 1 - u by ring] at this
  have hTτ : T ≤ (1 + 2 * (N * u)) * τ := by
    have h1 : (1 - N * u) * T ≤ τ := (mul_le_mul_of_nonneg_right hbern hT0).trans hτ
    have h2 : T ≤ (1 + 2 * (N * u)) * ((1 - N * u) * T) := by
      have e : (1 + 2 * (N * u)) * ((1 - N * u) * T) = T + (N * u) * (1 - 2 * (N * u)) * T := by ring
      rw [e]
      have : 0 ≤ (N * u) * (1 - 2 * (N * u)) * T := by
        apply mul_nonneg _ hT0
        apply mul_nonneg (by positivity)
        linarith
      linarith
    refine h2.trans (mul_le_mul_of_nonneg_left h1 (by positivity))
  obtain ⟨D, hD⟩ : ∃ D : K, D = 1 + 2 * (N * u) := ⟨_, rfl⟩
  rw [← hD] at hTτ
  have hD2 : D ≤ 2 := by rw [hD]; linarith
  have hrt : |r + t| ≤ D * q - |r| - 1 := by
    have e : r + t = (c + A * t) / A := by rw [hr]; field_simp
    rw [e, abs_div, hr, abs_div]
    have e2 : D * q - |c| / |A| - 1 = (D * τ - |c| - |A|) / |A| := by rw [hq]; field_simp
    rw [e2, div_le_div_iff_of_pos_right hA0]
    linarith
  have hr0 := abs_nonneg r
  have hDq : 1 + |r| ≤ D * q := by
    have := abs_nonneg (r + t)
    linarith
  have hq0 : 0 < q := by
    by_contra hcon
    push Not at hcon
    have hD0 : 0 ≤ D := by rw [hD]; positivity
    have := mul_nonpos_of_nonneg_of_nonpos hD0 hcon
    linarith
  have hDq2 : D * q ≤ 2 * q := mul_le_mul_of_nonneg_right hD2 hq0.le
  have hrel : ∀ x : K, |fl x - x| ≤ u * |x| := by
    intro x
    have := fl_rel hfl (by norm_num) x
    rw [hu]
    calc _ ≤ _ := this
      _ = _ := by ring
  have huS : u ≤ 1 / 100 := by rw [hu]; norm_num
  have huq : 0 < u * q := mul_pos hu0 hq0
  -- the first quotient
  have e1 : |fl q - q| ≤ u * q := by
    have := hrel q
    rwa [abs_of_pos hq0] at this
  have hQ0 : 0 ≤ fl q := fl_nonneg hfl hq0.le
  have hQ2 : fl q ≤ 2 * q := by
    have := (abs_le.1 e1).2
    have : u * q ≤ 1 * q := mul_le_mul_of_nonneg_right (by linarith) hq0.le
    linarith
  have e2 : |fl (fl q - 1) - (fl q - 1)| ≤ u * (2 * q) := by
    refine (hrel _).trans (mul_le_mul_of_nonneg_left ?_ hu0.le)
    rw [abs_le]
    constructor <;> linarith
  have hv1 : |fl (fl q - 1) - (q - 1)| ≤ 3 * (u * q) := by
    have := abs_le.1 e1
    have := abs_le.1 e2
    rw [abs_le]
    constructor <;> linarith
  -- the second quotient
  have h2c : fl (2 * c) = 2 * c := by
    apply fl_eq hfl
    have := hc.mul_zp 1
    rwa [zpow_one, mul_comm] at this
  have e3 : 2 * c / A = 2 * r := by rw [hr]; ring
  have hv2 : |fl (2 * r) - 2 * r| ≤ 4 * (u * q) := by
    refine (hrel _).trans ?_
    have : |2 * r| ≤ 4 * q := by
      rw [abs_mul, abs_of_pos (two_pos : (0 : K) < 2)]
      linarith
    calc u * |2 * r| ≤ u * (4 * q) := mul_le_mul_of_nonneg_left this hu0.le
      _ = _ := by ring
  obtain ⟨v1, hv1d⟩ : ∃ v1, v1 = fl (fl q - 1) := ⟨_, rfl⟩
  obtain ⟨v2, hv2d⟩ : ∃ v2, v2 = fl (2 * r) := ⟨_, rfl⟩
  rw [← hv1d] at hv1
  rw [← hv2d] at hv2
  have hη : ((N : K) + 8) / 2 ^ 52 * q = 2 * (N * u) * q + 16 * (u * q) := by rw [hu]; ring
  have hb1 := abs_le.1 hv1
  have hb2 := abs_le.1 hv2
  have huq' : u * q ≤ q / 100 := by
    calc u * q ≤ (1 / 100) * q := mul_le_mul_of_nonneg_right huS hq0.le
      _ = _ := by ring
  have hDexp : D * q = q + 2 * (N * u) * q := by rw [hD]; ring
  have hpair : linBoundsF fl τ A c = if v2 ≥ 0 then (-v1, fl (v1 - v2)) else (fl (-v2 - v1), v1) := by
    unfold linBoundsF
    simp only [h2c, e3, ← hq, ← hv1d, ← hv2d]
  rw [hpair, hη]
  obtain ⟨t1, t2⟩ := abs_le.1 hrt
  by_cases hsgn : 0 ≤ r
  · have hv20 : v2 ≥ 0 := by
      rw [hv2d]
      exact fl_nonneg hfl (by linarith)
    rw [if_pos hv20]
    rw [abs_of_nonneg hsgn] at t1 t2 hDq
    have e4 : |fl (v1 - v2) - (v1 - v2)| ≤ 7 * (u * q) := by
      refine (hrel _).trans ?_
      have : |v1 - v2| ≤ 7 * q := by
        rw [abs_le]
        constructor <;> linarith
      calc u * |v1 - v2| ≤ u * (7 * q) := mul_le_mul_of_nonneg_left this hu0.le
        _ = _ := by ring
    have hb4 := abs_le.1 e4
    constructor
    · show -v1 ≤ _
      linarith
    · show _ ≤ fl (v1 - v2)
      linarith
  · push Not at hsgn
    have hv20 : ¬ v2 ≥ 0 := by
      intro hcon
      have h1 := hrel (2 * r)
      have h2 : fl (2 * r) ≤ 0 := by
        have := fl_mono hfl (show 2 * r ≤ 0 by linarith)
        rwa [fl_zero hfl] at this
      have h3 : v2 = 0 := le_antisymm (hv2d ▸ h2) hcon
      rw [← hv2d, h3, zero_sub, abs_neg] at h1
      have h4 : 0 < |2 * r| := abs_pos.2 (by intro h; linarith)
      have : u * |2 * r| < 1 * |2 * r| := mul_lt_mul_of_pos_right (by linarith) h4
      linarith
    rw [if_neg hv20]
    rw [abs_of_neg hsgn] at t1 t2 hDq
    have e4 : |fl (-v2 - v1) - (-v2 - v1)| ≤ 7 * (u * q) := by
      refine (hrel _).trans ?_
      have : |-v2 - v1| ≤ 7 * q := by
        rw [abs_le]
        constructor <;> linarith
      calc u * |-v2 - v1| ≤ u * (7 * q) := mul_le_mul_of_nonneg_left this hu0.le
        _ = _ := by ring
    have hb4 := abs_le.1 e4
    constructor
    · show fl (-v2 - v1) ≤ _
      linarith
    · show _ ≤ v1
      linarith

end Pair

/-! ### Throwing out -/

section Throw

variable [FloorRing K] {ar : FloatArith K} (hfl : RoundsToNearest 53 ar.fl)

include hfl

/-- If the bounds of `linearCheck1` cross by more than the width, the interval is thrown out, whatever the linear algebra gives. -/
theorem throwOutF_of_gap (svd : SvdF n K) (L : LinSys n K) (i : Fin n) {α β : K} (hcond : svd.condNum L.A ≤ 2)
    (ha : ((α : K) : WithBot K) ≤ (linearCheck1F ar.fl L.totalErrs L.A L.consts).1 i)
    (hb : (linearCheck1F ar.fl L.totalErrs L.A L.consts).2 i ≤ ((β : K) : WithTop K)) (hc : L.colScaler i = 1)
    (hgap : ar.fl (ar.fl β + ar.fl (2 * macheps)) < ar.fl (ar.fl α - ar.fl (2 * macheps))) : throwOutF ar svd L = true := by
  unfold throwOutF throwOutOf rawBoundsF
  simp only [Bool.or_eq_true, decide_eq_true_eq]
  left; left
  refine ⟨i, ?_⟩
  simp only [max_eq_right hcond, hc, mul_one]
  have ha' : ((α : K) : WithBot K) ≤ (if svd.wellConditioned L.A = true then
      max ((ar.fl (svd.center L.A L.consts i - svd.width L.A L.err i) : K) : WithBot K) ((linearCheck1F ar.fl L.totalErrs L.A L.consts).1 i)
      else (linearCheck1F ar.fl L.totalErrs L.A L.consts).1 i) := by
    split
    · exact ha.trans (le_max_right _ _)
    · exact ha
  have hb' : (if svd.wellConditioned L.A = true then
      min ((ar.fl (svd.center L.A L.consts i + svd.width L.A L.err i) : K) : WithTop K) ((linearCheck1F ar.fl L.totalErrs L.A L.consts).2 i)
      else (linearCheck1F ar.fl L.totalErrs L.A L.consts).2 i) ≤ ((β : K) : WithTop K) := by
    split
    · exact (min_le_right _ _).trans hb
    · exact hb
  generalize (if svd.wellConditioned L.A = true then
      max ((ar.fl (svd.center L.A L.consts i - svd.width L.A L.err i) : K) : WithBot K) ((linearCheck1F ar.fl L.totalErrs L.A L.consts).1 i)
      else (linearCheck1F ar.fl L.totalErrs L.A L.consts).1 i) = za at ha' ⊢
  generalize (if svd.wellConditioned L.A = true then
      min ((ar.fl (svd.center L.A L.consts i + svd.width L.A L.err i) : K) : WithTop K) ((linearCheck1F ar.fl L.totalErrs L.A L.consts).2 i)
      else (linearCheck1F ar.fl L.totalErrs L.A L.consts).2 i) = zb at hb' ⊢
  induction za using WithBot.recBotCoe with
  | bot => exact absurd ha' (by simp)
  | coe a =>
    induction zb using WithTop.recTopCoe with
    | top => exact absurd hb' (by simp)
    | coe b =>
      have h1 : ar.fl α ≤ ar.fl a := fl_mono hfl (WithBot.coe_le_coe.1 ha')
      have h2 : ar.fl b ≤ ar.fl β := fl_mono hfl (WithTop.coe_le_coe.1 hb')
      show decide (ar.fl (ar.fl a - _) > ar.fl (ar.fl b + _)) = true
      rw [decide_eq_true_eq]
      refine lt_of_le_of_lt (fl_mono hfl ?_) (hgap.trans_le (fl_mono hfl ?_))
      · linarith
      · linarith

end Throw

/-- All finite values are floats. -/
def BotFloat (z : WithBot K) : Prop := ∀ v : K, z = (v : WithBot K) → IsFloat 53 v

/-- All finite values are floats. -/
def TopFloat (z : WithTop K) : Prop := ∀ v : K, z = (v : WithTop K) → IsFloat 53 v

theorem BotFloat.coe {v : K} (h : IsFloat 53 v) : BotFloat (v : WithBot K) := fun w hw => WithBot.coe_injective hw ▸ h

theorem TopFloat.coe {v : K} (h : IsFloat 53 v) : TopFloat (v : WithTop K) := fun w hw => WithTop.coe_injective hw ▸ h

theorem BotFloat.max {y z : WithBot K} (hy : BotFloat y) (hz : BotFloat z) : BotFloat (max y z) := by
  rcases le_total y z with h | h
  · rwa [max_eq_right h]
  · rwa [max_eq_left h]

theorem TopFloat.min {y z : WithTop K} (hy : TopFloat y) (hz : TopFloat z) : TopFloat (min y z) := by
  rcases le_total y z with h | h
  · rwa [min_eq_left h]
  · rwa [min_eq_right h]

theorem botFloat_foldl {α : Type*} (l : List α) (p : α → Prop) [DecidablePred p] (f : α → K) (hf : ∀ r, IsFloat 53 (f r)) (a : WithBot K)
    (ha : BotFloat a) : BotFloat (l.foldl (fun (a : WithBot K) r => if p r then Max.max a ((f r : K) : WithBot K) else a) a) := by
  induction l generalizing a with
  | nil => exact ha
  | cons r l ih =>
    refine ih _ ?_
    by_cases h : p r
    · simp only [h, if_true]
      exact ha.max (.coe (hf r))
    · simpa only [h, if_false] using ha

theorem topFloat_foldl {α : Type*} (l : List α) (p : α → Prop) [DecidablePred p] (f : α → K) (hf : ∀ r, IsFloat 53 (f r)) (a : WithTop K)
    (ha : TopFloat a) : TopFloat (l.foldl (fun (a : WithTop K) r => if p r then Min.min a ((f r : K) : WithTop K) else a) a) := by
  induction l generalizing a with
  | nil => exact ha
  | cons r l ih =>
    refine ih _ ?_
    by_cases h : p r
    · simp only [h, if_true]
      exact ha.min (.coe (hf r))
    · simpa only [h, if_false] using ha

section Keep

variable [FloorRing K] {fl : K → K} (hfl : RoundsToNearest 53 fl)

include hfl

theorem isFloat_linBoundsF (τ A c : K) : IsFloat 53 (linBoundsF fl τ A c).1 ∧ IsFloat 53 (linBoundsF fl τ A c).2 := by
  unfold linBoundsF
  simp only
  split
  · exact ⟨(hfl.isFloat _).neg, hfl.isFloat _⟩
  · exact ⟨hfl.isFloat _, hfl.isFloat _⟩

/-- Undoing the column scaling and adding the width keeps a lower bound. -/
theorem lower_kept {z : WithBot K} (hz : BotFloat z) {x c w : K} (hc : ∃ k : ℤ, c = 2 ^ k) (hw : 0 ≤ w)
    (h : z ≤ ((x / c : K) : WithBot K)) : z.map (fun v => fl (fl (v * c) - w)) ≤ (x : WithBot K) := by
  induction z using WithBot.recBotCoe with
  | bot => exact bot_le
  | coe v =>
    obtain ⟨k, rfl⟩ := hc
    have h1 : v * 2 ^ k ≤ x := (le_div_iff₀ (zp k)).1 (WithBot.coe_le_coe.1 h)
    have h2 : fl (v * 2 ^ k) = v * 2 ^ k := fl_eq hfl ((hz v rfl).mul_zp k)
    refine WithBot.coe_le_coe.2 ?_
    show fl (fl (v * 2 ^ k) - w) ≤ x
    have h3 : fl (fl (v * 2 ^ k) - w) ≤ fl (v * 2 ^ k) := fl_mono hfl (by rw [h2]; linarith)
    exact (h3.trans_eq h2).trans h1

/-- Undoing the column scaling and adding the width keeps an upper bound. -/
theorem upper_kept {z : WithTop K} (hz : TopFloat z) {x c w : K} (hc : ∃ k : ℤ, c = 2 ^ k) (hw : 0 ≤ w)
    (h : ((x / c : K) : WithTop K) ≤ z) : (x : WithTop K) ≤ z.map (fun v => fl (fl (v * c) + w)) := by
  induction z using WithTop.recTopCoe with
  | top => exact le_top
  | coe v =>
    obtain ⟨k, rfl⟩ := hc
    have h1 : x ≤ v * 2 ^ k := (div_le_iff₀ (zp k)).1 (WithTop.coe_le_coe.1 h)
    have h2 : fl (v * 2 ^ k) = v * 2 ^ k := fl_eq hfl ((hz v rfl).mul_zp k)
    refine WithTop.coe_le_coe.2 ?_
    show x ≤ fl (fl (v * 2 ^ k) + w)
    have h3 : fl (v * 2 ^ k) ≤ fl (fl (v * 2 ^ k) + w) := fl_mono hfl (by rw [h2]; linarith)
    exact h1.trans (h2.symm.trans_le h3)

end Keep

theorem leftSum_tree (fl : K → K) (l : List K) (t : SumTree K) :
    ∃ t' : SumTree K, t'.leaves.Perm (t.leaves ++ l) ∧ t'.val fl = l.foldl (fun s y => fl (s + y)) (t.val fl) := by
  induction l generalizing t with
  | nil => exact ⟨t, by simp, rfl⟩
  | cons y l ih =>
    obtain ⟨t', h1, h2⟩ := ih (.node t (.leaf y))
    refine ⟨t', ?_, h2⟩
    simpa [SumTree.leaves] using h1

theorem leftSum_sums (fl : K → K) : FloatArith.Sums ⟨fl, leftSum fl⟩ where
  nil := rfl
  tree := by
    intro l hl
    match l, hl with
    | x :: l, _ => exact leftSum_tree fl l (.leaf x)

end YRoots
