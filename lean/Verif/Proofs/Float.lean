import Verif.Spec.Float
import Verif.Model.Float
import Mathlib.Tactic.Linarith
import Mathlib.Tactic.Ring
import Mathlib.Tactic.FieldSimp
import Mathlib.Tactic.Positivity
import Mathlib.Tactic.GCongr
import Mathlib.Tactic.NormNum

/-!
# Helper lemmas: floating-point numbers
-/

set_option linter.unusedSectionVars false
set_option linter.unusedVariables false

namespace YRoots

variable {K : Type*} [Field K] [LinearOrder K] [IsStrictOrderedRing K]

/-- Integer multiples of `2^k`. -/
def OnGrid (k : ℤ) (x : K) : Prop := ∃ m : ℤ, x = m * 2 ^ k

theorem zp (k : ℤ) : (0 : K) < 2 ^ k := zpow_pos two_pos k

theorem zp_le {j k : ℤ} (h : j ≤ k) : (2 : K) ^ j ≤ 2 ^ k := zpow_le_zpow_right₀ one_le_two h

theorem zp_lt {j k : ℤ} (h : j < k) : (2 : K) ^ j < 2 ^ k := zpow_lt_zpow_right₀ one_lt_two h

theorem zp_lt_iff {j k : ℤ} : (2 : K) ^ j < 2 ^ k ↔ j < k := zpow_lt_zpow_iff_right₀ one_lt_two

theorem zp_succ (k : ℤ) : (2 : K) ^ (k + 1) = 2 * 2 ^ k := by rw [zpow_add_one₀ two_ne_zero]; ring

theorem zp_nat (k : ℤ) (p : ℕ) : (2 : K) ^ (k + p) = 2 ^ p * 2 ^ k := by
  rw [zpow_add₀ two_ne_zero, zpow_natCast]; ring

theorem OnGrid.neg {k : ℤ} {x : K} (h : OnGrid k x) : OnGrid k (-x) := by
  obtain ⟨m, rfl⟩ := h; exact ⟨-m, by push_cast; ring⟩

theorem OnGrid.add {k : ℤ} {x y : K} (h : OnGrid k x) (h' : OnGrid k y) : OnGrid k (x + y) := by
  obtain ⟨m, rfl⟩ := h; obtain ⟨l, rfl⟩ := h'; exact ⟨m + l, by push_cast; ring⟩

theorem OnGrid.sub {k : ℤ} {x y : K} (h : OnGrid k x) (h' : OnGrid k y) : OnGrid k (x - y) := by
  obtain ⟨m, rfl⟩ := h; obtain ⟨l, rfl⟩ := h'; exact ⟨m - l, by push_cast; ring⟩

theorem OnGrid.mul {k l : ℤ} {x y : K} (h : OnGrid k x) (h' : OnGrid l y) : OnGrid (k + l) (x * y) := by
  obtain ⟨m, rfl⟩ := h; obtain ⟨n, rfl⟩ := h'
  exact ⟨m * n, by rw [zpow_add₀ two_ne_zero]; push_cast; ring⟩

theorem OnGrid.mono {j k : ℤ} {x : K} (h : OnGrid k x) (hjk : j ≤ k) : OnGrid j x := by
  obtain ⟨m, rfl⟩ := h
  obtain ⟨d, rfl⟩ : ∃ d : ℕ, k = j + d := ⟨(k - j).toNat, by omega⟩
  exact ⟨m * 2 ^ d, by rw [zp_nat]; push_cast; ring⟩

theorem OnGrid.intMul {k : ℤ} {x : K} (h : OnGrid k x) (c : ℤ) : OnGrid k (c * x) := by
  obtain ⟨m, rfl⟩ := h; exact ⟨c * m, by push_cast; ring⟩

/-- Strict bounds can be improved on a grid. -/
theorem OnGrid.le_of_lt {k : ℤ} {x : K} (h : OnGrid k x) {b : ℤ} (hb : |x| < (b + 1) * 2 ^ k) : |x| ≤ b * 2 ^ k := by
  obtain ⟨m, rfl⟩ := h
  rw [abs_mul, abs_of_pos (zp (K := K) k)] at hb ⊢
  have h1 : |(m : K)| < ((b + 1 : ℤ) : K) := by push_cast; exact lt_of_mul_lt_mul_right hb (zp k).le
  rw [← Int.cast_abs, Int.cast_lt] at h1
  apply mul_le_mul_of_nonneg_right _ (zp k).le
  rw [← Int.cast_abs, Int.cast_le]
  omega

theorem OnGrid.isFloat {p : ℕ} (hp : 1 ≤ p) {k : ℤ} {x : K} (h : OnGrid k x) (hx : |x| ≤ 2 ^ (k + p)) : IsFloat p x := by
  obtain ⟨m, rfl⟩ := h
  rw [abs_mul, abs_of_pos (zp (K := K) k), zp_nat] at hx
  have h1 : |(m : K)| ≤ 2 ^ p := le_of_mul_le_mul_right hx (zp k)
  have h2 : |m| ≤ 2 ^ p := by
    have : ((|m| : ℤ) : K) ≤ ((2 ^ p : ℤ) : K) := by push_cast; exact h1
    exact_mod_cast this
  rcases lt_or_eq_of_le h2 with h | h
  · exact ⟨m, k, h, rfl⟩
  · have hp' : (1 : ℤ) < 2 ^ p := one_lt_pow₀ (by norm_num) (by omega)
    rcases abs_eq (by positivity : (0 : ℤ) ≤ 2 ^ p) |>.1 h with h | h
    · exact ⟨1, k + p, by simpa using hp', by rw [h, zp_nat]; push_cast; ring⟩
    · exact ⟨-1, k + p, by simpa using hp', by rw [h, zp_nat]; push_cast; ring⟩

theorem IsFloat.neg {p : ℕ} {x : K} (h : IsFloat p x) : IsFloat p (-x) := by
  obtain ⟨m, e, hm, rfl⟩ := h
  exact ⟨-m, e, by rwa [abs_neg], by push_cast; ring⟩

theorem isFloat_zero {p : ℕ} : IsFloat p (0 : K) := ⟨0, 0, by simp, by simp⟩

theorem isFloat_zp {p : ℕ} (hp : 1 ≤ p) (k : ℤ) : IsFloat p ((2 : K) ^ k) :=
  ⟨1, k, by simpa using one_lt_pow₀ (by norm_num : (1 : ℤ) < 2) (by omega), by simp⟩

theorem IsFloat.abs {p : ℕ} {x : K} (h : IsFloat p x) : IsFloat p |x| := by
  rcases abs_choice x with e | e <;> rw [e]
  · exact h
  · exact h.neg

/-- Large floats are on a coarse grid. -/
theorem IsFloat.onGrid {p : ℕ} {k : ℤ} {x : K} (h : IsFloat p x) (hx : 2 ^ (k + p - 1) ≤ |x|) : OnGrid k x := by
  obtain ⟨m, e, hm, rfl⟩ := h
  have h1 : |(m : K) * 2 ^ e| < 2 ^ (e + p) := by
    rw [abs_mul, abs_of_pos (zp (K := K) e), zp_nat]
    apply mul_lt_mul_of_pos_right _ (zp e)
    have : ((|m| : ℤ) : K) < ((2 ^ p : ℤ) : K) := by exact_mod_cast hm
    push_cast at this
    exact this
  have h2 := zp_lt_iff.1 (hx.trans_lt h1)
  exact OnGrid.mono ⟨m, rfl⟩ (by omega)

variable [FloorRing K]

theorem exists_binade (p : ℕ) (x : K) (hx : x ≠ 0) : ∃ k : ℤ, 2 ^ (k + p - 1) ≤ |x| ∧ |x| < 2 ^ (k + p) := by
  have := FloorRing.archimedean K
  obtain ⟨n, h1, h2⟩ := exists_mem_Ico_zpow (abs_pos.2 hx) (one_lt_two (α := K))
  exact ⟨n + 1 - p, by rwa [show n + 1 - p + p - 1 = n by ring], by rwa [show n + 1 - p + p = n + 1 by ring]⟩

section RN

variable {p : ℕ} {fl : K → K} (hfl : RoundsToNearest p fl)

include hfl

theorem fl_eq {x : K} (hx : IsFloat p x) : fl x = x := by
  have := hfl.nearest x x hx
  rw [sub_self, abs_zero] at this
  have := abs_eq_zero.1 (le_antisymm this (abs_nonneg _))
  linarith

theorem le_abs_fl {x g : K} (hg : IsFloat p g) (h0 : 0 ≤ g) (h : g ≤ |x|) : g ≤ |fl x| := by
  by_contra hc
  push Not at hc
  rcases le_total 0 x with hx | hx
  · rw [abs_of_nonneg hx] at h
    have h1 := hfl.nearest x g hg
    have h2 : fl x < g := (le_abs_self _).trans_lt hc
    rw [abs_of_nonneg (by linarith), abs_of_nonneg (by linarith)] at h1
    linarith
  · rw [abs_of_nonpos hx] at h
    have h1 := hfl.nearest x (-g) hg.neg
    have h2 : -fl x < g := (neg_le_abs _).trans_lt hc
    rw [abs_of_nonpos (by linarith), abs_of_nonpos (by linarith)] at h1
    linarith

theorem err_le (hp : 1 ≤ p) {k : ℤ} {x : K} (hx : |x| ≤ 2 ^ (k + p)) : |x - fl x| ≤ 2 ^ k / 2 := by
  have hk := zp (K := K) k
  have h1 : |x / 2 ^ k - round (x / 2 ^ k)| ≤ 1 / 2 := abs_sub_round _
  have h2 : |x - round (x / 2 ^ k) * 2 ^ k| ≤ 2 ^ k / 2 := by
    have : x - round (x / 2 ^ k) * 2 ^ k = (x / 2 ^ k - round (x / 2 ^ k)) * 2 ^ k := by field_simp
    rw [this, abs_mul, abs_of_pos hk]
    nlinarith
  refine (hfl.nearest x _ ?_).trans h2
  apply OnGrid.isFloat hp (k := k) ⟨_, rfl⟩
  rw [zp_nat]
  have : OnGrid k ((round (x / 2 ^ k) : ℤ) * (2 : K) ^ k) := ⟨_, rfl⟩
  have h3 : |((round (x / 2 ^ k) : ℤ) : K) * 2 ^ k| < (((2 ^ p : ℤ) : K) + 1) * 2 ^ k := by
    have : |((round (x / 2 ^ k) : ℤ) : K) * 2 ^ k| ≤ |x| + |x - round (x / 2 ^ k) * 2 ^ k| := by
      have := abs_sub_abs_le_abs_sub (((round (x / 2 ^ k) : ℤ) : K) * 2 ^ k) x
      rw [abs_sub_comm] at this
      linarith
    rw [zp_nat] at hx
    push_cast
    linarith
  have h4 := OnGrid.le_of_lt this h3
  push_cast at h4
  exact h4

theorem fl_onGrid (hp : 1 ≤ p) {k : ℤ} {x : K} (h : OnGrid k x) : OnGrid k (fl x) := by
  rcases le_total |x| (2 ^ (k + p)) with hx | hx
  · rw [fl_eq hfl (h.isFloat hp hx)]; exact h
  · apply (hfl.isFloat x).onGrid
    have := le_abs_fl hfl (isFloat_zp hp (k + p)) (zp _).le hx
    exact (zp_le (by omega)).trans this

/-- The error of a sum is a float. -/
theorem sum_err_isFloat (hp : 1 ≤ p) {a b : K} (ha : IsFloat p a) (hb : IsFloat p b) : IsFloat p (a + b - fl (a + b)) := by
  have key : ∀ a b : K, ∀ (m e m' e' : ℤ), |m| < 2 ^ p → a = m * 2 ^ e → |m'| < 2 ^ p → b = m' * 2 ^ e' → e ≤ e' →
      IsFloat p (a + b - fl (a + b)) := by
    intro a b m e m' e' hm ha hm' hb hee
    have ga : OnGrid e a := ⟨m, ha⟩
    have gb : OnGrid e b := OnGrid.mono ⟨m', hb⟩ hee
    apply ((ga.add gb).sub (fl_onGrid hfl hp (ga.add gb))).isFloat hp
    refine (hfl.nearest (a + b) b ⟨m', e', hm', hb⟩).trans ?_
    rw [add_sub_cancel_right, ha, abs_mul, abs_of_pos (zp (K := K) e), zp_nat]
    apply mul_le_mul_of_nonneg_right _ (zp e).le
    have : ((|m| : ℤ) : K) ≤ ((2 ^ p : ℤ) : K) := by exact_mod_cast hm.le
    push_cast at this
    exact this
  obtain ⟨m, e, hm, ha⟩ := ha
  obtain ⟨m', e', hm', hb⟩ := hb
  rcases le_total e e' with h | h
  · exact key a b m e m' e' hm ha hm' hb h
  · rw [add_comm]; exact key b a m' e' m e hm' hb hm ha h

/-- First step of `Fast2Sum`. -/
theorem fast_first (hp : 1 ≤ p) {a b : K} (ha : IsFloat p a) (hb : IsFloat p b) (hab : |b| ≤ |a|) :
    IsFloat p (a - fl (a + b)) := by
  by_cases hb0 : b = 0
  · subst hb0
    rw [add_zero, fl_eq hfl ha, sub_self]
    exact isFloat_zero
  have ha0 : a ≠ 0 := by
    rintro rfl
    rw [abs_zero] at hab
    exact hb0 (abs_eq_zero.1 (le_antisymm hab (abs_nonneg _)))
  obtain ⟨ka, ha1, ha2⟩ := exists_binade p a ha0
  obtain ⟨kb, hb1, hb2⟩ := exists_binade p b hb0
  have hkk : kb ≤ ka := by
    have := zp_lt_iff.1 ((hb1.trans hab).trans_lt ha2)
    omega
  have ga := ha.onGrid ha1
  have gb := hb.onGrid hb1
  rcases le_or_gt |a + b| (2 ^ (kb + p)) with hs | hs
  · rw [fl_eq hfl (((ga.mono hkk).add gb).isFloat hp hs), sub_add_cancel_left]
    exact hb.neg
  · have hs0 : a + b ≠ 0 := by
      rintro h
      rw [h, abs_zero] at hs
      exact absurd hs (not_lt.2 (zp _).le)
    obtain ⟨j, hj1, hj2⟩ := exists_binade p (a + b) hs0
    have hjb : kb + 1 ≤ j := by
      have := zp_lt_iff.1 (hs.trans hj2)
      omega
    have hja : j ≤ ka + 1 := by
      have h3 : |a + b| < 2 ^ (ka + p + 1) := by
        rw [zp_succ]
        have := abs_add_le a b
        linarith
      have := zp_lt_iff.1 (hj1.trans_lt h3)
      omega
    have gz : OnGrid j (fl (a + b)) := by
      apply (hfl.isFloat _).onGrid
      exact le_abs_fl hfl (isFloat_zp hp _) (zp _).le hj1
    have herr := err_le hfl hp hj2.le
    have hdist : |a - fl (a + b)| ≤ |b| + 2 ^ j / 2 := by
      have : a - fl (a + b) = (a + b - fl (a + b)) - b := by ring
      rw [this]
      have := abs_sub (a + b - fl (a + b)) b
      linarith
    rcases le_or_gt j ka with hjk | hjk
    · apply ((ga.mono hjk).sub gz).isFloat hp
      have h4 : (2 : K) ^ (kb + p) ≤ 2 ^ (j + p - 1) := zp_le (by omega)
      have h5 : (2 : K) ^ (j + p) = 2 * 2 ^ (j + p - 1) := by
        rw [← zp_succ]; congr 1; ring
      have h6 : (2 : K) ^ j ≤ 2 ^ (j + p - 1) := zp_le (by omega)
      have := zp (K := K) j
      linarith
    · have hj : j = ka + 1 := by omega
      subst hj
      apply (ga.sub (gz.mono (by omega))).isFloat hp
      rw [zp_succ] at hdist
      have h7 : |b| ≤ ((2 ^ p - 1 : ℤ) : K) * 2 ^ ka := by
        refine hab.trans (ga.le_of_lt ?_)
        rw [zp_nat] at ha2
        push_cast
        linarith
      rw [zp_nat]
      push_cast at h7
      linarith

theorem twoSum_correct (hp : 2 ≤ p) {a b : K} (ha : IsFloat p a) (hb : IsFloat p b) :
    (twoSumF fl a b).1 = fl (a + b) ∧ (twoSumF fl a b).1 + (twoSumF fl a b).2 = a + b := by
  have hp1 : 1 ≤ p := by omega
  refine ⟨rfl, ?_⟩
  obtain ⟨x, hx⟩ : ∃ x, x = fl (a + b) := ⟨_, rfl⟩
  obtain ⟨z, hz⟩ : ∃ z, z = fl (x - a) := ⟨_, rfl⟩
  have hxF : IsFloat p x := hx ▸ hfl.isFloat _
  have herrF : IsFloat p (a + b - x) := hx ▸ sum_err_isFloat hfl hp1 ha hb
  suffices h : fl (fl (a - fl (x - z)) + fl (b - z)) = a + b - x by
    unfold twoSumF
    simp only
    rw [← hx, ← hz, h]
    ring
  have h0 : fl 0 = 0 := fl_eq hfl isFloat_zero
  rcases le_total |b| |a| with hab | hab
  · -- the larger operand first
    have h1 : IsFloat p (x - a) := by
      have := (fast_first hfl hp1 ha hb hab).neg
      rw [← hx] at this
      rwa [neg_sub] at this
    rw [fl_eq hfl h1] at hz
    have h2 : x - z = a := by rw [hz]; ring
    have h3 : b - z = a + b - x := by rw [hz]; ring
    rw [h2, fl_eq hfl ha, sub_self, h0, h3, fl_eq hfl herrF, zero_add, fl_eq hfl herrF]
  · by_cases hex : x = a + b
    · have h1 : x - a = b := by rw [hex]; ring
      rw [h1, fl_eq hfl hb] at hz
      rw [hz, show x - b = a by rw [hex]; ring, fl_eq hfl ha, sub_self, sub_self, h0, add_zero, h0, hex, sub_self]
    · have ha0 : a ≠ 0 := by
        rintro rfl
        apply hex
        rw [hx, zero_add, fl_eq hfl hb]
      have hb0 : b ≠ 0 := by
        rintro rfl
        rw [abs_zero] at hab
        exact ha0 (abs_eq_zero.1 (le_antisymm hab (abs_nonneg _)))
      obtain ⟨ka, ha1, ha2⟩ := exists_binade p a ha0
      obtain ⟨kb, hb1, hb2⟩ := exists_binade p b hb0
      have hkk : ka ≤ kb := by
        have := zp_lt_iff.1 ((ha1.trans hab).trans_lt hb2)
        omega
      have ga := ha.onGrid ha1
      have gb := hb.onGrid hb1
      -- the sum is larger than `a`
      have hsum : |a| ≤ |a + b| := by
        by_contra hc
        push Not at hc
        apply hex
        rw [hx]
        apply fl_eq hfl
        exact (ga.add (gb.mono hkk)).isFloat hp1 (hc.trans ha2).le
      have hxa : |a| ≤ |x| := by
        rw [hx]
        exact le_abs_fl hfl ha.abs (abs_nonneg a) hsum
      have h1 : IsFloat p (x - z) := by
        have := fast_first hfl hp1 hxF ha.neg (by rwa [abs_neg])
        rwa [← sub_eq_add_neg, ← hz] at this
      have h2 : IsFloat p (a - (x - z)) := by
        have := (sum_err_isFloat hfl hp1 hxF ha.neg).neg
        rw [← sub_eq_add_neg, ← hz] at this
        convert this using 1
        ring
      -- `b - z` is exact
      have hδ : |a + b - x| ≤ 2 ^ kb := by
        have h3 : |a + b| ≤ 2 ^ (kb + 1 + p) := by
          rw [show kb + 1 + p = kb + p + 1 by ring, zp_succ]
          have := abs_add_le a b
          linarith
        have := err_le hfl hp1 h3
        rw [← hx, zp_succ] at this
        linarith
      have hxa' : x - a = b - (a + b - x) := by ring
      have hclose : |x - a - z| ≤ |a + b - x| := by
        have := hfl.nearest (x - a) b hb
        rw [← hz] at this
        refine this.trans (le_of_eq ?_)
        rw [hxa', show b - (a + b - x) - b = -(a + b - x) by ring, abs_neg]
      have hbz : |b - z| ≤ 2 ^ (kb - 1 + p) := by
        have e : b - z = (a + b - x) + (x - a - z) := by ring
        have h4 := abs_add_le (a + b - x) (x - a - z)
        rw [← e] at h4
        have h5 : (2 : K) ^ (kb + 1) ≤ 2 ^ (kb - 1 + p) := zp_le (by omega)
        rw [zp_succ] at h5
        linarith
      have gz : OnGrid (kb - 1) z := by
        rw [hz]
        apply (hfl.isFloat _).onGrid
        apply le_abs_fl hfl (isFloat_zp hp1 _) (zp _).le
        rw [hxa']
        have h6 := abs_sub_abs_le_abs_sub b (a + b - x)
        have h7 : (2 : K) ^ (kb + p - 1) = 2 * 2 ^ (kb - 1 + p - 1) := by
          rw [← zp_succ]; congr 1; ring
        have h8 : (2 : K) ^ kb ≤ 2 ^ (kb - 1 + p - 1) * 1 := by
          rw [mul_one]; exact zp_le (by omega)
        linarith
      have h9 : IsFloat p (b - z) := ((gb.mono (by omega)).sub gz).isFloat hp1 hbz
      rw [fl_eq hfl h1, fl_eq hfl h2, fl_eq hfl h9, show a - (x - z) + (b - z) = a + b - x by ring, fl_eq hfl herrF]

end RN

/-! ### Splitting and products, 53 digits -/

/-- What `Split` achieves for a number of binade `k`: a head on the coarse grid and a small tail. -/
structure SplitSpec (k : ℤ) (a a1 a2 : K) : Prop where
  sum : a1 + a2 = a
  head_grid : OnGrid (k + 27) a1
  head_le : |a1| ≤ 2 ^ (k + 53)
  tail_grid : OnGrid k a2
  tail_le : |a2| ≤ 2 ^ (k + 26)

/-- The head is a nearest 26-digit number. -/
theorem SplitSpec.nearest {k : ℤ} {a a1 a2 : K} (h : SplitSpec k a a1 a2) (h1 : 2 ^ (k + 52) ≤ |a|) (g : K)
    (hg : IsFloat 26 g) : |a - a1| ≤ |a - g| := by
  have ht : |a - a1| ≤ 2 ^ (k + 26) := by
    rw [← h.sum, add_sub_cancel_left]
    exact h.tail_le
  have e27 : (2 : K) ^ (k + 27) = 2 * 2 ^ (k + 26) := by
    rw [← zp_succ, show k + 26 + 1 = k + 27 by ring]
  have main : ∀ g : K, OnGrid (k + 27) g → |a - a1| ≤ |a - g| := by
    rintro g hg
    by_cases he : g = a1
    · rw [he]
    have hgrid := h.head_grid.sub hg
    have hfar : 2 ^ (k + 27) ≤ |a1 - g| := by
      by_contra hc
      push Not at hc
      have := hgrid.le_of_lt (b := 0) (by push_cast; rw [zero_add, one_mul]; exact hc)
      push_cast at this
      rw [zero_mul] at this
      exact he (sub_eq_zero.1 (abs_eq_zero.1 (le_antisymm this (abs_nonneg _)))).symm
    have h3 := abs_sub_le a1 a g
    rw [abs_sub_comm a1 a] at h3
    rw [e27] at hfar
    linarith
  rcases le_or_gt (2 ^ (k + 27 + ((26 : ℕ) : ℤ) - 1)) |g| with hgk | hgk
  · exact main g (hg.onGrid hgk)
  · have ek : k + 27 + ((26 : ℕ) : ℤ) - 1 = k + 52 := by push_cast; ring
    rw [ek] at hgk
    have gp : OnGrid (k + 27) ((2 : K) ^ (k + 52)) :=
      ⟨33554432, by
        have := zp_nat (K := K) (k + 27) 25
        rw [show k + 27 + ((25 : ℕ) : ℤ) = k + 52 by push_cast; ring] at this
        rw [this]; norm_num⟩
    have h5 := abs_sub_abs_le_abs_sub a g
    rcases le_total 0 a with h0 | h0
    · have := main _ gp
      rw [abs_of_nonneg h0] at h1 h5
      rw [abs_of_nonneg (by linarith : 0 ≤ a - 2 ^ (k + 52))] at this
      linarith
    · have := main _ gp.neg
      rw [abs_of_nonpos h0] at h1 h5
      rw [abs_of_nonpos (by linarith : a - -2 ^ (k + 52) ≤ 0)] at this
      linarith

section RN53

variable {fl : K → K} (hfl : RoundsToNearest 53 fl)

include hfl

theorem split_spec {a : K} (ha : IsFloat 53 a) {k : ℤ} (h1 : 2 ^ (k + 52) ≤ |a|) (h2 : |a| < 2 ^ (k + 53)) :
    SplitSpec k a (splitF fl a).1 (splitF fl a).2 := by
  have hp : 1 ≤ 53 := by norm_num
  have e1 : ∀ j : ℤ, ∀ d : ℕ, (2 : K) ^ (j + d) = 2 ^ d * 2 ^ j := fun j d => zp_nat j d
  have ga : OnGrid k a := ha.onGrid (by rw [show k + ((53 : ℕ) : ℤ) - 1 = k + 52 by push_cast; ring]; exact h1)
  obtain ⟨c, hc⟩ : ∃ c, c = fl ((2 ^ 27 + 1) * a) := ⟨_, rfl⟩
  obtain ⟨d, hd⟩ : ∃ d, d = fl (c - a) := ⟨_, rfl⟩
  have h2' : |a| ≤ 9007199254740991 * 2 ^ k := by
    have h := e1 k 53
    push_cast at h
    have := ga.le_of_lt (b := 9007199254740991) (by rw [h] at h2; norm_num at h2 ⊢; exact h2)
    exact_mod_cast this
  have hk := zp (K := K) k
  have E26 := e1 k 26
  have E27 := e1 k 27
  have E52 := e1 k 52
  have E53 := e1 k 53
  push_cast at E26 E27 E52 E53
  have habs : |(2 ^ 27 + 1) * a| = (2 ^ 27 + 1) * |a| := by rw [abs_mul, abs_of_pos (by positivity)]
  -- the key fact: `d` is on the coarse grid, and `c - d` is close to `a`
  have key : OnGrid (k + 27) c ∧ OnGrid (k + 27) d ∧ |c - d - a| ≤ 2 ^ (k + 26) := by
    have gc : OnGrid (k + 27) c := by
      rw [hc]
      apply (hfl.isFloat _).onGrid
      apply le_abs_fl hfl (isFloat_zp hp _) (zp _).le
      rw [habs, show k + 27 + ((53 : ℕ) : ℤ) - 1 = (k + 52) + (27 : ℕ) by push_cast; ring, e1]
      nlinarith [abs_nonneg a, zp (K := K) (k + 52)]
    by_cases hmin : |a| = 2 ^ (k + 52)
    · -- a power of two: everything is exact
      have ga' : OnGrid (k + 52) a := by
        rcases abs_choice a with h | h
        · exact ⟨1, by rw [← h, hmin]; simp⟩
        · exact ⟨-1, by rw [← neg_neg a, ← h, hmin]; simp⟩
      have hcf : c = (2 ^ 27 + 1) * a := by
        rw [hc]
        apply fl_eq hfl
        have g : OnGrid (k + 52) ((2 ^ 27 + 1) * a) := by
          have g := ga'.intMul 134217729
          norm_num at g ⊢
          exact g
        apply g.isFloat hp
        rw [habs, hmin, e1]
        have := zp (K := K) (k + 52)
        norm_num
        linarith
      have hdf : d = 2 ^ 27 * a := by
        rw [hd, hcf, show (2 ^ 27 + 1) * a - a = 2 ^ 27 * a by ring]
        apply fl_eq hfl
        have g : OnGrid (k + 52) (2 ^ 27 * a) := by
          have g := ga'.intMul 134217728
          norm_num at g ⊢
          exact g
        apply g.isFloat hp
        rw [abs_mul, hmin, e1, abs_of_pos (by positivity)]
        have := zp (K := K) (k + 52)
        norm_num
        linarith
      refine ⟨gc, ?_, ?_⟩
      · rw [hdf]
        have g : OnGrid (k + 52) (2 ^ 27 * a) := by
          have g := ga'.intMul 134217728
          norm_num at g ⊢
          exact g
        exact g.mono (by omega)
      · rw [hcf, hdf, show (2 ^ 27 + 1) * a - 2 ^ 27 * a - a = 0 by ring, abs_zero]
        exact (zp _).le
    · have hbig : 4503599627370497 * 2 ^ k ≤ |a| := by
        by_contra hcon
        push Not at hcon
        have := ga.le_of_lt (b := 4503599627370496) (by norm_num; exact hcon)
        apply hmin
        apply le_antisymm _ h1
        rw [E52]
        norm_num
        exact_mod_cast this
      have hcerr : |(2 ^ 27 + 1) * a - c| ≤ 2 ^ (k + 27) := by
        have : |(2 ^ 27 + 1) * a| ≤ 2 ^ (k + 28 + (53 : ℕ)) := by
          rw [habs, show k + 28 + ((53 : ℕ) : ℤ) = k + (81 : ℕ) by push_cast; ring, e1]
          generalize (2 : K) ^ k = u at *
          norm_num
          linarith
        have := err_le hfl hp this
        rw [← hc] at this
        have e28 : (2 : K) ^ (k + 28) = 2 * 2 ^ (k + 27) := by
          rw [← zp_succ, show k + 27 + 1 = k + 28 by ring]
        rw [e28, mul_div_cancel_left₀ _ two_ne_zero] at this
        exact this
      have hca : |c - a - 2 ^ 27 * a| ≤ 2 ^ (k + 27) := by
        rw [show c - a - 2 ^ 27 * a = -((2 ^ 27 + 1) * a - c) by ring, abs_neg]
        exact hcerr
      have hup : |c - a| ≤ 2 ^ (k + 27 + (53 : ℕ)) := by
        have h3 := abs_sub_abs_le_abs_sub (c - a) (2 ^ 27 * a)
        rw [abs_mul, abs_of_pos (by positivity : (0 : K) < 2 ^ 27)] at h3
        rw [show k + 27 + ((53 : ℕ) : ℤ) = k + (80 : ℕ) by push_cast; ring, e1]
        rw [E27] at hca
        generalize (2 : K) ^ k = u at *
        norm_num at hca h3 ⊢
        linarith
      have hlo : 2 ^ (k + 27 + ((53 : ℕ) : ℤ) - 1) ≤ |c - a| := by
        have h3 := abs_sub_abs_le_abs_sub (2 ^ 27 * a) (c - a)
        rw [abs_sub_comm (2 ^ 27 * a), abs_mul, abs_of_pos (by positivity : (0 : K) < 2 ^ 27)] at h3
        rw [show k + 27 + ((53 : ℕ) : ℤ) - 1 = k + (79 : ℕ) by push_cast; ring, e1]
        rw [E27] at hca
        generalize (2 : K) ^ k = u at *
        norm_num at hca h3 ⊢
        linarith
      refine ⟨gc, ?_, ?_⟩
      · rw [hd]
        apply (hfl.isFloat _).onGrid
        exact le_abs_fl hfl (isFloat_zp hp _) (zp _).le hlo
      · have := err_le hfl hp hup
        rw [← hd] at this
        rw [show c - d - a = c - a - d by ring]
        have e27 : (2 : K) ^ (k + 27) = 2 * 2 ^ (k + 26) := by
          rw [← zp_succ, show k + 26 + 1 = k + 27 by ring]
        rw [e27] at this
        linarith
  obtain ⟨gc, gd, hcd⟩ := key
  have hle : |c - d| ≤ 2 ^ (k + 53) := by
    have h3 := abs_sub_abs_le_abs_sub (c - d) a
    rw [E26] at hcd
    have g := (gc.sub gd).le_of_lt (b := 67108864) (by
      rw [E27]
      generalize (2 : K) ^ k = u at *
      norm_num at hcd ⊢
      linarith)
    rw [E27] at g
    rw [E53]
    generalize (2 : K) ^ k = u at *
    norm_num at g ⊢
    linarith
  have hxf : IsFloat 53 (c - d) := ((gc.sub gd).mono (by omega : k ≤ k + 27)).isFloat hp (by exact_mod_cast hle)
  have hx1 : (splitF fl a).1 = c - d := by
    unfold splitF
    simp only
    rw [← hc, ← hd, fl_eq hfl hxf]
  have hy1 : (splitF fl a).2 = a - (c - d) := by
    have : (splitF fl a).2 = fl (a - (splitF fl a).1) := rfl
    rw [this, hx1]
    apply fl_eq hfl
    apply (ga.sub ((gc.sub gd).mono (by omega))).isFloat hp
    rw [abs_sub_comm]
    exact hcd.trans (zp_le (by omega))
  rw [hx1, hy1]
  exact ⟨by ring, gc.sub gd, hle, ga.sub ((gc.sub gd).mono (by omega)), by rwa [abs_sub_comm]⟩

theorem splitF_zero : splitF fl 0 = (0, 0) := by
  have h0 : fl 0 = 0 := fl_eq hfl isFloat_zero
  unfold splitF
  simp [h0]

theorem prodError_spec {a b a1 a2 b1 b2 : K} {k l : ℤ} (ha : SplitSpec k a a1 a2) (hb : SplitSpec l b b1 b2)
    (hal : 2 ^ (k + 52) ≤ |a|) (hau : |a| < 2 ^ (k + 53)) (hbl : 2 ^ (l + 52) ≤ |b|) (hbu : |b| < 2 ^ (l + 53)) :
    prodError fl (fl (a * b)) a1 a2 b1 b2 = a * b - fl (a * b) := by
  have hp : 1 ≤ 53 := by norm_num
  have e2 : ∀ i j : ℤ, (2 : K) ^ i * 2 ^ j = 2 ^ (i + j) := fun i j => (zpow_add₀ two_ne_zero i j).symm
  have mulle : ∀ {u v : K} {i j : ℤ}, |u| ≤ 2 ^ i → |v| ≤ 2 ^ j → |u * v| ≤ 2 ^ (i + j) := by
    intro u v i j hu hv
    rw [abs_mul, ← e2]
    exact mul_le_mul hu hv (abs_nonneg _) (zp _).le
  obtain ⟨x, hx⟩ : ∃ x, x = fl (a * b) := ⟨_, rfl⟩
  -- the four products are exact
  have g11 := ha.head_grid.mul hb.head_grid
  have g21 := ha.tail_grid.mul hb.head_grid
  have g12 := ha.head_grid.mul hb.tail_grid
  have g22 := ha.tail_grid.mul hb.tail_grid
  have l11 := mulle ha.head_le hb.head_le
  have l21 := mulle ha.tail_le hb.head_le
  have l12 := mulle ha.head_le hb.tail_le
  have l22 := mulle ha.tail_le hb.tail_le
  have f11 : IsFloat 53 (a1 * b1) := g11.isFloat hp (l11.trans (zp_le (by push_cast; omega)))
  have f21 : IsFloat 53 (a2 * b1) := g21.isFloat hp (l21.trans (zp_le (by push_cast; omega)))
  have f12 : IsFloat 53 (a1 * b2) := g12.isFloat hp (l12.trans (zp_le (by push_cast; omega)))
  have f22 : IsFloat 53 (a2 * b2) := g22.isFloat hp (l22.trans (zp_le (by push_cast; omega)))
  -- the product and its error
  have gab : OnGrid (k + l) (a * b) := by
    rw [← ha.sum, ← hb.sum]
    exact ((ha.head_grid.mono (by omega)).add ha.tail_grid).mul ((hb.head_grid.mono (by omega)).add hb.tail_grid)
  have gx : OnGrid (k + l + 52) x := by
    rw [hx]
    apply (hfl.isFloat _).onGrid
    apply le_abs_fl hfl (isFloat_zp hp _) (zp _).le
    rw [abs_mul, show k + l + 52 + ((53 : ℕ) : ℤ) - 1 = (k + 52) + (l + 52) by push_cast; ring, ← e2]
    exact mul_le_mul hal hbl (zp _).le (abs_nonneg _)
  have herr : |a * b - x| ≤ 2 ^ (k + l + 52) := by
    have : |a * b| ≤ 2 ^ (k + l + 53 + (53 : ℕ)) := by
      have := mulle hau.le hbu.le
      rwa [show k + 53 + (l + 53) = k + l + 53 + ((53 : ℕ) : ℤ) by push_cast; ring] at this
    have := err_le hfl hp this
    rw [← hx, show k + l + 53 = k + l + 52 + 1 by ring, zp_succ] at this
    linarith
  have gerr : OnGrid (k + l) (a * b - x) := gab.sub (gx.mono (by omega))
  set u : K := 2 ^ (k + l) with hu
  have hu0 : 0 < u := zp _
  have P : ∀ d : ℕ, (2 : K) ^ (k + l + (d : ℤ)) = 2 ^ d * u := fun d => zp_nat _ d
  have herr' : |a * b - x| ≤ 2 ^ 52 * u := by have := P 52; push_cast at this; rwa [← this]
  have l21' : |a2 * b1| ≤ 2 ^ 79 * u := by
    rw [← P, show k + l + ((79 : ℕ) : ℤ) = k + 26 + (l + 53) by push_cast; ring]; exact l21
  have l12' : |a1 * b2| ≤ 2 ^ 79 * u := by
    rw [← P, show k + l + ((79 : ℕ) : ℤ) = k + 53 + (l + 26) by push_cast; ring]; exact l12
  have l22' : |a2 * b2| ≤ 2 ^ 52 * u := by
    rw [← P, show k + l + ((52 : ℕ) : ℤ) = k + 26 + (l + 26) by push_cast; ring]; exact l22
  have hab : a * b = a1 * b1 + a2 * b1 + a1 * b2 + a2 * b2 := by rw [← ha.sum, ← hb.sum]; ring
  have t1 : IsFloat 53 (x - a1 * b1) := by
    apply OnGrid.isFloat hp (k := k + l + 52) (gx.sub (g11.mono (by omega)))
    rw [show x - a1 * b1 = a2 * b1 + a1 * b2 + a2 * b2 - (a * b - x) by rw [hab]; ring,
      show k + l + 52 + ((53 : ℕ) : ℤ) = k + l + (105 : ℕ) by push_cast; ring, P]
    have := abs_sub (a2 * b1 + a1 * b2 + a2 * b2) (a * b - x)
    have := abs_add_le (a2 * b1 + a1 * b2) (a2 * b2)
    have := abs_add_le (a2 * b1) (a1 * b2)
    norm_num at *
    linarith
  have t2 : IsFloat 53 (x - a1 * b1 - a2 * b1) := by
    apply OnGrid.isFloat hp (k := k + l + 27) (((gx.mono (by omega)).sub (g11.mono (by omega))).sub (g21.mono (by omega)))
    rw [show x - a1 * b1 - a2 * b1 = a1 * b2 + a2 * b2 - (a * b - x) by rw [hab]; ring,
      show k + l + 27 + ((53 : ℕ) : ℤ) = k + l + (80 : ℕ) by push_cast; ring, P]
    have := abs_sub (a1 * b2 + a2 * b2) (a * b - x)
    have := abs_add_le (a1 * b2) (a2 * b2)
    norm_num at *
    linarith
  have e3 : x - a1 * b1 - a2 * b1 - a1 * b2 = a2 * b2 - (a * b - x) := by rw [hab]; ring
  have t3 : IsFloat 53 (x - a1 * b1 - a2 * b1 - a1 * b2) := by
    rw [e3]
    apply OnGrid.isFloat hp (k := k + l) (g22.sub gerr)
    rw [P]
    have := abs_sub (a2 * b2) (a * b - x)
    norm_num at *
    linarith
  have t4 : IsFloat 53 (a * b - x) := by
    apply gerr.isFloat hp
    rw [P]
    norm_num at *
    linarith
  unfold prodError
  rw [← hx, fl_eq hfl f22, fl_eq hfl f11, fl_eq hfl f21, fl_eq hfl f12, fl_eq hfl t1, fl_eq hfl t2, fl_eq hfl t3, e3,
    sub_sub_cancel, fl_eq hfl t4]

theorem prodError_zero {x a1 a2 b1 b2 : K} (hx : x = 0) (h : (a1 = 0 ∧ a2 = 0) ∨ (b1 = 0 ∧ b2 = 0)) :
    prodError fl x a1 a2 b1 b2 = 0 := by
  have h0 : fl 0 = 0 := fl_eq hfl isFloat_zero
  subst hx
  rcases h with ⟨rfl, rfl⟩ | ⟨rfl, rfl⟩ <;> simp [prodError, h0]

end RN53

/-! ### Rounding to nearest, ties to even -/

theorem abs_sub_roundEven_le (q : K) (m : ℤ) : |q - roundEven q| ≤ |q - m| := by
  have h1 := Int.floor_le q
  have h2 := Int.lt_floor_add_one q
  have hm : (m : K) ≤ ⌊q⌋ ∨ (⌊q⌋ : K) + 1 ≤ m := by
    rcases le_or_gt m ⌊q⌋ with h | h
    · left; exact_mod_cast h
    · right; exact_mod_cast h
  have key : ∀ r : K, (r = ⌊q⌋ ∧ q - ⌊q⌋ ≤ 1 / 2) ∨ (r = ⌊q⌋ + 1 ∧ 1 / 2 ≤ q - ⌊q⌋) → |q - r| ≤ |q - m| := by
    rintro r (⟨rfl, h⟩ | ⟨rfl, h⟩) <;> rcases hm with hm | hm
    · rw [abs_of_nonneg (by linarith), abs_of_nonneg (by linarith)]; linarith
    · rw [abs_of_nonneg (by linarith), abs_of_nonpos (by linarith)]; linarith
    · rw [abs_of_nonpos (by linarith), abs_of_nonneg (by linarith)]; linarith
    · rw [abs_of_nonpos (by linarith), abs_of_nonpos (by linarith)]; linarith
  apply key
  unfold roundEven
  split
  · left; exact ⟨rfl, by linarith⟩
  · split
    · right; exact ⟨by push_cast; rfl, by linarith⟩
    · split
      · left; exact ⟨rfl, by linarith⟩
      · right; exact ⟨by push_cast; rfl, by linarith⟩

theorem roundFloat_nearest {p : ℕ} (hp : 1 ≤ p) : RoundsToNearest p (roundFloat p : K → K) := by
  have main : ∀ x : K, x ≠ 0 → ∃ k : ℤ, 2 ^ (k + p - 1) ≤ |x| ∧ |x| < 2 ^ (k + p) ∧
      roundFloat p x = roundEven (x / 2 ^ k) * 2 ^ k := by
    intro x hx
    have h1 := Int.zpow_log_le_self (b := 2) one_lt_two (abs_pos.2 hx)
    have h2 := Int.lt_zpow_succ_log_self (b := 2) one_lt_two |x|
    push_cast at h1 h2
    refine ⟨Int.log 2 |x| + 1 - p, by convert h1 using 2; ring, by convert h2 using 2; ring, ?_⟩
    unfold roundFloat
    rw [if_neg hx]
  have near : ∀ x : K, x ≠ 0 → ∀ k : ℤ, ∀ g : K, OnGrid k g → |x - roundEven (x / 2 ^ k) * 2 ^ k| ≤ |x - g| := by
    rintro x hx k g ⟨m, rfl⟩
    have hk := zp (K := K) k
    have := abs_sub_roundEven_le (x / 2 ^ k) m
    have e : ∀ r : K, x - r * 2 ^ k = (x / 2 ^ k - r) * 2 ^ k := by intro r; field_simp
    rw [e, e, abs_mul, abs_mul]
    exact mul_le_mul_of_nonneg_right this (abs_nonneg _)
  constructor
  · intro x
    by_cases hx : x = 0
    · subst hx
      unfold roundFloat
      rw [if_pos rfl]
      exact isFloat_zero
    · obtain ⟨k, h1, h2, h3⟩ := main x hx
      rw [h3]
      apply OnGrid.isFloat hp (k := k) ⟨_, rfl⟩
      by_contra hc
      push Not at hc
      -- otherwise the bound of the binade is nearer
      have g : OnGrid k ((roundEven (x / 2 ^ k) : K) * 2 ^ k) := ⟨_, rfl⟩
      have gp : OnGrid k ((2 : K) ^ (k + p)) := ⟨2 ^ p, by rw [zp_nat]; push_cast; rfl⟩
      have hn : ∀ s : K, (s = 2 ^ (k + p) ∨ s = -2 ^ (k + p)) → |x - roundEven (x / 2 ^ k) * 2 ^ k| ≤ |x - s| := by
        rintro s (rfl | rfl)
        · exact near x hx k _ gp
        · exact near x hx k _ gp.neg
      have h5 := abs_sub_abs_le_abs_sub ((roundEven (x / 2 ^ k) : K) * 2 ^ k) x
      rw [abs_sub_comm] at h5
      rcases le_total 0 x with h0 | h0
      · have := hn _ (Or.inl rfl)
        rw [abs_of_nonneg h0] at h2 h5
        rw [abs_of_nonpos (by linarith : x - 2 ^ (k + (p : ℤ)) ≤ 0)] at this
        linarith
      · have := hn _ (Or.inr rfl)
        rw [abs_of_nonpos h0] at h2 h5
        rw [abs_of_nonneg (by linarith : 0 ≤ x - -2 ^ (k + (p : ℤ)))] at this
        linarith
  · intro x g hg
    by_cases hx : x = 0
    · subst hx
      unfold roundFloat
      rw [if_pos rfl, sub_self, abs_zero]
      exact abs_nonneg _
    · obtain ⟨k, h1, h2, h3⟩ := main x hx
      rw [h3]
      rcases le_or_gt (2 ^ (k + p - 1)) |g| with hgk | hgk
      · exact near x hx k g (hg.onGrid hgk)
      · have gp : OnGrid k ((2 : K) ^ (k + p - 1)) :=
          ⟨2 ^ (p - 1), by
            rw [show k + (p : ℤ) - 1 = k + ((p - 1 : ℕ) : ℤ) by omega, zp_nat]; push_cast; rfl⟩
        have h5 := abs_sub_abs_le_abs_sub x g
        rcases le_total 0 x with h0 | h0
        · have := near x hx k _ gp
          rw [abs_of_nonneg h0] at h1 h5
          rw [abs_of_nonneg (by linarith : 0 ≤ x - 2 ^ (k + (p : ℤ) - 1))] at this
          linarith
        · have := near x hx k _ gp.neg
          rw [abs_of_nonpos h0] at h1 h5
          rw [abs_of_nonpos (by linarith : x - -2 ^ (k + (p : ℤ) - 1) ≤ 0)] at this
          linarith

end YRoots
