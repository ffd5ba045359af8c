import Verif.Model.FloatCombine
import Verif.Proofs.Combine
import Verif.Proofs.FloatBounding

/-!
# Helper lemmas: combining touching boxes in floating-point arithmetic
-/

namespace YRoots

variable {n : ℕ} {K : Type*} [Field K] [LinearOrder K] [IsStrictOrderedRing K]

omit [IsStrictOrderedRing K] in
theorem addTransformF_finalStep (fl : K → K) (t : TrackedInterval n K) (sub : Box n K) : (t.addTransformF fl sub).finalStep = t.finalStep := by
  unfold TrackedInterval.addTransformF TrackedInterval.applySubF
  split_ifs <;> rfl

theorem combineIntervalsF_box (fl : K → K) (orig r1 r2 : TrackedInterval n K) (hf : orig.finalStep = false) :
    (combineIntervalsF fl orig r1 r2).getIntervalForCombining = Box.hull r1.getIntervalForCombining r2.getIntervalForCombining := by
  obtain ⟨h1, -⟩ := copy_of_not_final orig hf
  unfold TrackedInterval.getIntervalForCombining combineIntervalsF
  simp only [h1, Bool.false_eq_true, if_false, addTransformF_finalStep]
  rfl

section

variable [FloorRing K] {fl : K → K} (hfl : RoundsToNearest 53 fl)
include hfl

theorem fl_double {x : K} (hx : IsFloat 53 x) : fl (2 * x) = 2 * x := by
  have := hx.mul_zp 1
  rw [zpow_one, mul_comm] at this
  exact fl_eq hfl this

theorem fl_pos {x : K} (h : 0 < x) : 0 < fl x := by
  have := fl_ge hfl (by norm_num) h.le
  have h2 : 0 < (1 - 1 / 2 ^ 53) * x := mul_pos (by norm_num) h
  exact h2.trans_le this

theorem localCoordF_mono {a b x y : K} (hab : a < b) (hxy : x ≤ y) : localCoordF fl a b x ≤ localCoordF fl a b y := by
  unfold localCoordF
  have hd := fl_pos hfl (sub_pos.2 hab)
  refine fl_mono hfl (div_le_div_of_nonneg_right ?_ hd.le)
  refine fl_mono hfl (sub_le_sub_right ?_ b)
  refine fl_mono hfl (sub_le_sub_right ?_ a)
  exact fl_mono hfl (by linarith)

theorem localCoordF_close {a b x m : K} (hab : a < b) (hx : IsFloat 53 x) (hax : a ≤ x) (hxb : x ≤ b) (ha : |a| ≤ m) (hb : |b| ≤ m)
    (hm : m ≤ 2 ^ 40 * (b - a)) : |localCoordF fl a b x - (2 * x - a - b) / (b - a)| ≤ (m / (b - a) + 1) / 2 ^ 50 := by
  obtain ⟨w, hw⟩ : ∃ w, w = b - a := ⟨_, rfl⟩
  have hw0 : 0 < w := by linarith
  have hm0 : 0 ≤ m := (abs_nonneg a).trans ha
  obtain ⟨r, hr⟩ : ∃ r, r = m / w := ⟨_, rfl⟩
  have hmr : m = r * w := by rw [hr, div_mul_cancel₀ _ hw0.ne']
  have hr0 : 0 ≤ r := by rw [hr]; positivity
  have hr1 : r ≤ 2 ^ 40 := by rw [hr, div_le_iff₀ hw0, hw]; exact hm
  rw [← hw] at hm ⊢
  rw [← hr]
  unfold localCoordF
  rw [fl_double hfl hx, ← hw]
  rw [abs_le] at ha hb
  have e1 := fl_rel hfl (by norm_num) (2 * x - a)
  obtain ⟨d1, hd1⟩ : ∃ d, d = fl (2 * x - a) := ⟨_, rfl⟩
  rw [← hd1] at e1 ⊢
  have e2 := fl_rel hfl (by norm_num) (d1 - b)
  obtain ⟨d2, hd2⟩ : ∃ d, d = fl (d1 - b) := ⟨_, rfl⟩
  rw [← hd2] at e2 ⊢
  have e3 := fl_rel hfl (by norm_num) w
  obtain ⟨D, hD⟩ : ∃ d, d = fl w := ⟨_, rfl⟩
  rw [← hD] at e3 ⊢
  have e4 := fl_rel hfl (by norm_num) (d2 / D)
  obtain ⟨N, hN⟩ : ∃ N, N = 2 * x - a - b := ⟨_, rfl⟩
  rw [← hN]
  have hNw : |N| ≤ w := by rw [abs_le]; constructor <;> linarith
  have b1 : |2 * x - a| ≤ 3 * m := by rw [abs_le]; constructor <;> linarith
  have c1 : |d1 - (2 * x - a)| ≤ 3 * m / 2 ^ 53 := e1.trans (div_le_div_of_nonneg_right b1 (by norm_num))
  have b2 : |d1 - b| ≤ w + 3 * m / 2 ^ 53 := by
    have : d1 - b = N + (d1 - (2 * x - a)) := by rw [hN]; ring
    rw [this]
    exact (abs_add_le _ _).trans (add_le_add hNw c1)
  have c2 : |d2 - (d1 - b)| ≤ (w + 3 * m / 2 ^ 53) / 2 ^ 53 := e2.trans (div_le_div_of_nonneg_right b2 (by norm_num))
  have c3 : |d2 - N| ≤ (4 * m + w) / 2 ^ 53 := by
    have : d2 - N = (d2 - (d1 - b)) + (d1 - (2 * x - a)) := by rw [hN]; ring
    rw [this]
    refine (abs_add_le _ _).trans ((add_le_add c2 c1).trans ?_)
    linarith
  rw [abs_of_pos hw0] at e3
  have hDw : (1 - 1 / 2 ^ 53) * w ≤ D := by
    have := (abs_le.1 e3).1
    linarith
  have hD0 : 0 < D := lt_of_lt_of_le (mul_pos (by norm_num) hw0) hDw
  have c4 : |d2 / D - N / w| ≤ (5 * r + 3) / 2 ^ 53 := by
    have h1 : d2 / D - N / w = ((d2 - N) + N / w * (w - D)) / D := by field_simp; ring
    have h2 : |N / w| ≤ 1 := by rw [abs_div, abs_of_pos hw0, div_le_one hw0]; exact hNw
    have h3 : |N / w * (w - D)| ≤ w / 2 ^ 53 := by
      rw [abs_mul, abs_sub_comm w D]
      calc |N / w| * |D - w| ≤ 1 * (w / 2 ^ 53) := mul_le_mul h2 e3 (abs_nonneg _) zero_le_one
        _ = w / 2 ^ 53 := one_mul _
    rw [h1, abs_div, abs_of_pos hD0, div_le_iff₀ hD0]
    have h4 := (abs_add_le (d2 - N) (N / w * (w - D))).trans (add_le_add c3 h3)
    have h5 : (5 * r + 3) / 2 ^ 53 * ((1 - 1 / 2 ^ 53) * w) ≤ (5 * r + 3) / 2 ^ 53 * D := mul_le_mul_of_nonneg_left hDw (by positivity)
    refine h4.trans (le_trans ?_ h5)
    have h6 : 0 ≤ r * w := by positivity
    rw [hmr]
    have h7 : (5 * r + 3) / 2 ^ 53 * ((1 - 1 / 2 ^ 53) * w) = (5 * (r * w) + 3 * w) / 2 ^ 53 * (1 - 1 / 2 ^ 53) := by ring
    rw [h7]
    linarith
  have c5 : |d2 / D| ≤ 2 := by
    have h2 : |N / w| ≤ 1 := by rw [abs_div, abs_of_pos hw0, div_le_one hw0]; exact hNw
    have : d2 / D = (d2 / D - N / w) + N / w := by ring
    rw [this]
    refine (abs_add_le _ _).trans ?_
    linarith
  have : fl (d2 / D) - N / w = (fl (d2 / D) - d2 / D) + (d2 / D - N / w) := by ring
  rw [this]
  refine (abs_add_le _ _).trans ?_
  have c6 : |d2 / D| / 2 ^ 53 ≤ 2 / 2 ^ 53 := div_le_div_of_nonneg_right c5 (by norm_num)
  linarith

end

end YRoots
