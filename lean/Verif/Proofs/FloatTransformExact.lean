import Verif.Model.FloatTransformExact
import Verif.Props.Float
import Verif.Props.FloatTransform

/-!
# Helper lemmas: rounding errors of the re-expansion with `exact=True`
-/

set_option linter.unusedSectionVars false

namespace YRoots

open Finset

section Fold

variable {K : Type*} [Field K] [LinearOrder K] {ι : Type*}

theorem foldl_putRowEF (fl : K → K) (c : ι → K) (f : ℕ → K × K) (l : List ℕ) (hl : l.Nodup) (p : (ℕ → K) × (ℕ → K) × (ℕ → ι → K)) :
    l.foldl (fun p i => putRowEF fl c i (f i) p) p
      = (fun j => if j ∈ l then (f j).1 else p.1 j, fun j => if j ∈ l then (f j).2 else p.2.1 j,
        fun j => if j ∈ l then fun k => fl (p.2.2 j k + fl (c k * fl ((f j).1 + (f j).2))) else p.2.2 j) := by
  induction l generalizing p with
  | nil => simp
  | cons a l ih =>
    have ha : a ∉ l := (List.nodup_cons.1 hl).1
    rw [List.foldl_cons, ih (List.nodup_cons.1 hl).2]
    refine Prod.ext (funext fun j => ?_) (Prod.ext (funext fun j => ?_) (funext fun j => ?_))
    all_goals
      by_cases hj : j = a
      · subst hj; simp [putRowEF, ha]
      · simp [putRowEF, hj]

/-- The spots of the new column. -/
def spotOf (r0 r1 : K × K) (mid : ℕ → K × K) (last fin : K × K) (R i : ℕ) : K × K :=
  if i = R then fin else if i = R - 1 then last else if i = 0 then r0 else if i = 1 then r1 else mid i

variable (fl : K → K) (thr : K) (c : ι → K) (r0 r1 : K × K) (mid : ℕ → K × K) (last fin : K × K) (s : EState K (ι → K)) (hR : 2 ≤ s.maxRow)

include hR

theorem eStepWith_spec (j : ℕ) :
    (eStepWith fl thr c r0 r1 mid last fin s).arr2 j = (if j ≤ s.maxRow then (spotOf r0 r1 mid last fin s.maxRow j).1 else s.arr3 j) ∧
    (eStepWith fl thr c r0 r1 mid last fin s).arr2E j = (if j ≤ s.maxRow then (spotOf r0 r1 mid last fin s.maxRow j).2 else s.arr3E j) ∧
    (eStepWith fl thr c r0 r1 mid last fin s).out j = (if j ≤ s.maxRow then fun k => fl (s.out j k +
      fl (c k * fl ((spotOf r0 r1 mid last fin s.maxRow j).1 + (spotOf r0 r1 mid last fin s.maxRow j).2))) else s.out j) := by
  have hnd : (List.range' 2 (s.maxRow - 1 - 2)).Nodup := List.nodup_range'
  unfold eStepWith
  simp only []
  rw [foldl_putRowEF fl c mid _ hnd]
  have hmem : ∀ j, j ∈ List.range' 2 (s.maxRow - 1 - 2) ↔ 2 ≤ j ∧ j < s.maxRow - 1 := by
    intro j; rw [List.mem_range'_1]; omega
  simp only [putRowEF, hmem]
  by_cases h1 : j = s.maxRow
  · subst h1
    have e1 : ¬ (s.maxRow < s.maxRow - 1) := by omega
    have e2 : s.maxRow ≠ s.maxRow - 1 := by omega
    have e3 : s.maxRow ≠ 0 := by omega
    have e4 : s.maxRow ≠ 1 := by omega
    have e5 : ¬ (2 ≤ s.maxRow ∧ s.maxRow < s.maxRow - 1) := by omega
    by_cases h2 : s.maxRow > 2 <;> simp only [spotOf, e2, e3, e4, e5, h2, if_true, if_false, Function.update_self, ne_eq, not_false_eq_true, Function.update_of_ne, le_refl, and_self]
  · by_cases h3 : j = s.maxRow - 1
    · subst h3
      have e1 : s.maxRow - 1 ≠ s.maxRow := by omega
      have e2 : s.maxRow - 1 ≠ 0 := by omega
      by_cases h2 : s.maxRow > 2
      · have e3 : s.maxRow - 1 ≠ 1 := by omega
        simp [spotOf, e1, e2, h2, e3]
      · simp [spotOf, e1, e2, h2]
    · by_cases h4 : 2 ≤ j ∧ j < s.maxRow - 1
      · have e1 : j ≤ s.maxRow := by omega
        have e2 : j ≠ 0 := by omega
        have e3 : j ≠ 1 := by omega
        by_cases h2 : s.maxRow > 2 <;> simp [spotOf, h1, h3, h4, e1, e2, e3, h2]
      · by_cases h5 : j = 1
        · subst h5
          have e1 : s.maxRow > 2 := by omega
          have e2 : 1 ≤ s.maxRow := by omega
          simp [spotOf, h1, h3, e1, e2]
        · by_cases h6 : j = 0
          · subst h6
            by_cases h2 : s.maxRow > 2 <;> simp [spotOf, h1, h3, h2]
          · have e1 : ¬ j ≤ s.maxRow := by omega
            by_cases h2 : s.maxRow > 2 <;> simp [h1, h3, h4, h5, h6, e1, h2]

end Fold

section Spots

variable {fl : ℝ → ℝ} (hfl : RoundsToNearest 53 fl)

theorem isFloat_two_mul {x : ℝ} (h : IsFloat 53 x) : IsFloat 53 (2 * x) := by
  have := h.mul_zp 1
  rwa [zpow_one, mul_comm] at this

theorem isFloat_half {x : ℝ} (h : IsFloat 53 x) : IsFloat 53 (x / 2) := by
  have := h.mul_zp (-1)
  rwa [zpow_neg, zpow_one, ← div_eq_mul_inv] at this

include hfl

theorem ts {a b : ℝ} (ha : IsFloat 53 a) (hb : IsFloat 53 b) :
    (twoSumF fl a b).1 + (twoSumF fl a b).2 = a + b ∧ IsFloat 53 (twoSumF fl a b).1 ∧ |(twoSumF fl a b).2| ≤ 1 / 2 ^ 53 * (|a| + |b|) ∧
      |(twoSumF fl a b).1| ≤ (1 + 1 / 2 ^ 53) * (|a| + |b|) := by
  obtain ⟨h1, h2, -⟩ := C43_twoSum hfl ha hb
  have h3 := fl_rel' hfl (a + b)
  rw [← h1] at h3
  have h4 : (twoSumF fl a b).2 = a + b - (twoSumF fl a b).1 := by linarith
  have h5 : |(twoSumF fl a b).2| ≤ 1 / 2 ^ 53 * (|a| + |b|) := by
    rw [h4, abs_sub_comm]
    exact h3.trans (mul_le_mul_of_nonneg_left (abs_add_le _ _) (by norm_num))
  refine ⟨h2, by rw [h1]; exact hfl.isFloat _, h5, ?_⟩
  have h6 : (twoSumF fl a b).1 = a + b - (twoSumF fl a b).2 := by linarith
  rw [h6, add_mul, one_mul]
  exact (abs_sub _ _).trans (add_le_add (abs_add_le _ _) h5)

theorem tp {a b : ℝ} (ha : IsFloat 53 a) (hb : IsFloat 53 b) :
    (twoProdWithSplitF fl a b (splitF fl a).1 (splitF fl a).2).1 + (twoProdWithSplitF fl a b (splitF fl a).1 (splitF fl a).2).2 = a * b ∧
      IsFloat 53 (twoProdWithSplitF fl a b (splitF fl a).1 (splitF fl a).2).1 ∧
      |(twoProdWithSplitF fl a b (splitF fl a).1 (splitF fl a).2).2| ≤ 1 / 2 ^ 53 * (|a| * |b|) ∧
      |(twoProdWithSplitF fl a b (splitF fl a).1 (splitF fl a).2).1| ≤ (1 + 1 / 2 ^ 53) * (|a| * |b|) := by
  obtain ⟨h1, h2, -⟩ := C43_twoProdWithSplit hfl ha hb
  generalize twoProdWithSplitF fl a b (splitF fl a).1 (splitF fl a).2 = V at *
  have h3 := fl_rel' hfl (a * b)
  rw [← h1] at h3
  have h4 : V.2 = a * b - V.1 := by linarith
  have h5 : |V.2| ≤ 1 / 2 ^ 53 * (|a| * |b|) := by
    rw [h4, abs_sub_comm, ← abs_mul]
    exact h3
  refine ⟨h2, by rw [h1]; exact hfl.isFloat _, h5, ?_⟩
  have h6 : V.1 = a * b - V.2 := by linarith
  rw [h6, add_mul, one_mul, ← abs_mul]
  rw [← abs_mul] at h5
  exact (abs_sub _ _).trans (add_le_add le_rfl h5)

omit hfl in
/-- What a spot of the new column has to satisfy: the value is representable, and value and error term follow the recurrence up to `s`. -/
def SpotOK (α β : ℝ) (a1 a2 e1 e2 : ℕ → ℝ) (i : ℕ) (v : ℝ × ℝ) : Prop :=
  IsFloat 53 v.1 ∧ ∃ s, v.1 + s = -a1 i + α * mulX a2 i + 2 * β * a2 i ∧ |s| ≤ 6 * (1 / 2 ^ 53) * maj α β a1 a2 i ∧
    |v.2 - (-e1 i + α * mulX e2 i + 2 * β * e2 i + s)| ≤
      ((1 + 1 / 2 ^ 53) ^ 10 - 1) * (maj α β e1 e2 i + 6 * (1 / 2 ^ 53) * maj α β a1 a2 i)

omit hfl in
theorem SpotOK.mk {α β : ℝ} {a1 a2 e1 e2 : ℕ → ℝ} {i : ℕ} {v : ℝ × ℝ} (h0 : IsFloat 53 v.1) {s S : ℝ}
    (h1 : v.1 + s = -a1 i + α * mulX a2 i + 2 * β * a2 i) (h2 : |s| ≤ S) (h3 : S ≤ 6 * (1 / 2 ^ 53) * maj α β a1 a2 i)
    (h4 : Near (1 / 2 ^ 53) 10 v.2 (-e1 i + α * mulX e2 i + 2 * β * e2 i + s) (maj α β e1 e2 i + S)) : SpotOK α β a1 a2 e1 e2 i v :=
  ⟨h0, s, h1, h2.trans h3, h4.err.trans (mul_le_mul_of_nonneg_left (by linarith) (by norm_num))⟩

omit hfl in
/-- Sum of the bounds on the error terms. -/
theorem sum_err {A B Y : ℝ} (hA : 0 ≤ A) (hB : 0 ≤ B) (hY : 0 ≤ Y) {u : ℝ} (hu : u = 1 / 2 ^ 53) {x1 x2 x3 x4 x5 : ℝ} (h1 : x1 ≤ u * A) (h2 : x2 ≤ u * B)
    (h3 : x3 ≤ u * ((1 + u) * A)) (h4 : x4 ≤ u * ((1 + u) * B + (1 + u) ^ 2 * A)) (h5 : x5 ≤ u * ((1 + u) * ((1 + u) * B + (1 + u) ^ 2 * A) + Y)) :
    x1 + x2 + x3 + x4 + x5 ≤ 6 * u * (Y + A + B) := by
  have e1 : (1 + u) ≤ 3 / 2 := by rw [hu]; norm_num
  have e2 : (1 + u) ^ 2 ≤ 3 / 2 := by rw [hu]; norm_num
  have e3 : (1 + u) ^ 3 ≤ 3 / 2 := by rw [hu]; norm_num
  have hu0 : 0 ≤ u := by rw [hu]; norm_num
  have key : u * A + u * B + u * ((1 + u) * A) + u * ((1 + u) * B + (1 + u) ^ 2 * A) + u * ((1 + u) * ((1 + u) * B + (1 + u) ^ 2 * A) + Y) ≤
      6 * u * (Y + A + B) := by
    have k : A + B + (1 + u) * A + ((1 + u) * B + (1 + u) ^ 2 * A) + ((1 + u) * ((1 + u) * B + (1 + u) ^ 2 * A) + Y) ≤ 6 * (Y + A + B) := by
      have t1 := mul_le_mul_of_nonneg_right e1 hA
      have t2 := mul_le_mul_of_nonneg_right e2 hA
      have t3 := mul_le_mul_of_nonneg_right e3 hA
      have t4 := mul_le_mul_of_nonneg_right e1 hB
      have t5 := mul_le_mul_of_nonneg_right e2 hB
      have r : (1 + u) * ((1 + u) * B + (1 + u) ^ 2 * A) = (1 + u) ^ 2 * B + (1 + u) ^ 3 * A := by ring
      rw [r]
      linarith
    have := mul_le_mul_of_nonneg_left k hu0
    linarith
  linarith

/-- The computation with five pairs. -/
theorem five {α β p q b y : ℝ} (hα : IsFloat 53 α) (hβ : IsFloat 53 β) (hp : IsFloat 53 p) (hq : IsFloat 53 q) (hb : IsFloat 53 b) (hy : IsFloat 53 y)
    {V1 V2 V3 V4 V5 : ℝ × ℝ} (e1 : V1 = twoSumF fl p q) (e2 : V2 = twoProdWithSplitF fl β b (splitF fl β).1 (splitF fl β).2)
    (e3 : V3 = twoProdWithSplitF fl α V1.1 (splitF fl α).1 (splitF fl α).2) (e4 : V4 = twoSumF fl V2.1 V3.1) (e5 : V5 = twoSumF fl V4.1 (-y)) :
    IsFloat 53 V5.1 ∧ V5.1 + (α * V1.2 + V2.2 + V3.2 + V4.2 + V5.2) = -y + α * (p + q) + β * b ∧
      |α| * |V1.2| + |V2.2| + |V3.2| + |V4.2| + |V5.2| ≤ 6 * (1 / 2 ^ 53) * (|y| + |α| * (|p| + |q|) + |β| * |b|) := by
  obtain ⟨a1, f1, b1, c1⟩ := ts hfl hp hq
  rw [← e1] at a1 f1 b1 c1
  obtain ⟨a2, f2, b2, c2⟩ := tp hfl hβ hb
  rw [← e2] at a2 f2 b2 c2
  obtain ⟨a3, f3, b3, c3⟩ := tp hfl hα f1
  rw [← e3] at a3 f3 b3 c3
  obtain ⟨a4, f4, b4, c4⟩ := ts hfl f2 f3
  rw [← e4] at a4 f4 b4 c4
  obtain ⟨a5, f5, b5, c5⟩ := ts hfl f4 hy.neg
  rw [← e5] at a5 f5 b5 c5
  rw [abs_neg] at b5
  refine ⟨f5, ?_, ?_⟩
  · have : α * (p + q) = α * V1.1 + α * V1.2 := by rw [← a1]; ring
    linarith
  · obtain ⟨u, hu⟩ : ∃ u : ℝ, u = 1 / 2 ^ 53 := ⟨_, rfl⟩
    rw [← hu] at b1 c1 b2 c2 b3 c3 b4 c4 b5 ⊢
    have hu0 : 0 ≤ u := by rw [hu]; norm_num
    have h1u : 0 ≤ 1 + u := by linarith
    have hα0 := abs_nonneg α
    have m1 : |α| * |V1.2| ≤ u * (|α| * (|p| + |q|)) := by
      have := mul_le_mul_of_nonneg_left b1 hα0
      linarith
    have m3 : |α| * |V1.1| ≤ (1 + u) * (|α| * (|p| + |q|)) := by
      have := mul_le_mul_of_nonneg_left c1 hα0
      linarith
    have n3 : |V3.2| ≤ u * ((1 + u) * (|α| * (|p| + |q|))) := b3.trans (mul_le_mul_of_nonneg_left m3 hu0)
    have k3 : |V3.1| ≤ (1 + u) ^ 2 * (|α| * (|p| + |q|)) := by
      have := mul_le_mul_of_nonneg_left m3 h1u
      calc _ ≤ _ := c3.trans this
        _ = _ := by ring
    have n4 : |V4.2| ≤ u * ((1 + u) * (|β| * |b|) + (1 + u) ^ 2 * (|α| * (|p| + |q|))) := b4.trans (mul_le_mul_of_nonneg_left (add_le_add c2 k3) hu0)
    have k4 : |V4.1| ≤ (1 + u) * ((1 + u) * (|β| * |b|) + (1 + u) ^ 2 * (|α| * (|p| + |q|))) :=
      c4.trans (mul_le_mul_of_nonneg_left (add_le_add c2 k3) h1u)
    have n5 : |V5.2| ≤ u * ((1 + u) * ((1 + u) * (|β| * |b|) + (1 + u) ^ 2 * (|α| * (|p| + |q|))) + |y|) :=
      b5.trans (mul_le_mul_of_nonneg_left (add_le_add k4 le_rfl) hu0)
    exact sum_err (by positivity) (by positivity) (abs_nonneg _) hu m1 b2 n3 n4 n5

/-- The computation with four pairs. -/
theorem four {α β p b y : ℝ} (hα : IsFloat 53 α) (hβ : IsFloat 53 β) (hp : IsFloat 53 p) (hb : IsFloat 53 b) (hy : IsFloat 53 y)
    {V1 V2 V3 V4 : ℝ × ℝ} (e1 : V1 = twoProdWithSplitF fl β b (splitF fl β).1 (splitF fl β).2)
    (e2 : V2 = twoProdWithSplitF fl α p (splitF fl α).1 (splitF fl α).2) (e3 : V3 = twoSumF fl V1.1 V2.1) (e4 : V4 = twoSumF fl V3.1 (-y)) :
    IsFloat 53 V4.1 ∧ V4.1 + (V1.2 + V2.2 + V3.2 + V4.2) = -y + α * p + β * b ∧
      |V1.2| + |V2.2| + |V3.2| + |V4.2| ≤ 6 * (1 / 2 ^ 53) * (|y| + |α| * |p| + |β| * |b|) := by
  obtain ⟨a1, f1, b1, c1⟩ := tp hfl hβ hb
  rw [← e1] at a1 f1 b1 c1
  obtain ⟨a2, f2, b2, c2⟩ := tp hfl hα hp
  rw [← e2] at a2 f2 b2 c2
  obtain ⟨a3, f3, b3, c3⟩ := ts hfl f1 f2
  rw [← e3] at a3 f3 b3 c3
  obtain ⟨a4, f4, b4, c4⟩ := ts hfl f3 hy.neg
  rw [← e4] at a4 f4 b4 c4
  rw [abs_neg] at b4
  refine ⟨f4, by linarith, ?_⟩
  obtain ⟨u, hu⟩ : ∃ u : ℝ, u = 1 / 2 ^ 53 := ⟨_, rfl⟩
  rw [← hu] at b1 c1 b2 c2 b3 c3 b4 ⊢
  have hu0 : 0 ≤ u := by rw [hu]; norm_num
  have h1u : 0 ≤ 1 + u := by linarith
  have hA : 0 ≤ |α| * |p| := by positivity
  have k2 : |V2.1| ≤ (1 + u) ^ 2 * (|α| * |p|) := by
    refine c2.trans (mul_le_mul_of_nonneg_right ?_ hA)
    nlinarith
  have n3 : |V3.2| ≤ u * ((1 + u) * (|β| * |b|) + (1 + u) ^ 2 * (|α| * |p|)) := b3.trans (mul_le_mul_of_nonneg_left (add_le_add c1 k2) hu0)
  have k3 : |V3.1| ≤ (1 + u) * ((1 + u) * (|β| * |b|) + (1 + u) ^ 2 * (|α| * |p|)) := c3.trans (mul_le_mul_of_nonneg_left (add_le_add c1 k2) h1u)
  have n4 : |V4.2| ≤ u * ((1 + u) * ((1 + u) * (|β| * |b|) + (1 + u) ^ 2 * (|α| * |p|)) + |y|) :=
    b4.trans (mul_le_mul_of_nonneg_left (add_le_add k3 le_rfl) hu0)
  have z : (0 : ℝ) ≤ u * ((1 + u) * (|α| * |p|)) := by positivity
  have := sum_err (x3 := 0) hA (by positivity) (abs_nonneg y) hu b2 b1 z n3 n4
  linarith

/-- The computations of the variant for halves: `p + q / 2`-like sums, with weight `w` (1 or 1/2) for the first pair. -/
theorem three {p q b y w P : ℝ} (hp : IsFloat 53 p) (hq : IsFloat 53 q) (hb : IsFloat 53 b) (hy : IsFloat 53 y) (hw0 : 0 ≤ w)
    (hwf : ∀ x : ℝ, IsFloat 53 x → IsFloat 53 (w * x)) (hP : w * (|p| + |q|) ≤ P)
    {V1 V2 V3 : ℝ × ℝ} (e1 : V1 = twoSumF fl p q) (e2 : V2 = twoSumF fl (w * V1.1) b) (e3 : V3 = twoSumF fl V2.1 (-y)) :
    IsFloat 53 V3.1 ∧ V3.1 + (w * V1.2 + V2.2 + V3.2) = -y + w * (p + q) + b ∧
      w * |V1.2| + |V2.2| + |V3.2| ≤ 6 * (1 / 2 ^ 53) * (|y| + P + |b|) := by
  obtain ⟨a1, f1, b1, c1⟩ := ts hfl hp hq
  rw [← e1] at a1 f1 b1 c1
  obtain ⟨a2, f2, b2, c2⟩ := ts hfl (hwf _ f1) hb
  rw [← e2] at a2 f2 b2 c2
  obtain ⟨a3, f3, b3, c3⟩ := ts hfl f2 hy.neg
  rw [← e3] at a3 f3 b3 c3
  rw [abs_neg] at b3
  have hP0 : 0 ≤ P := le_trans (by positivity) hP
  refine ⟨f3, ?_, ?_⟩
  · have : w * (p + q) = w * V1.1 + w * V1.2 := by rw [← a1]; ring
    linarith
  obtain ⟨u, hu⟩ : ∃ u : ℝ, u = 1 / 2 ^ 53 := ⟨_, rfl⟩
  rw [← hu] at b1 c1 b2 c2 b3 ⊢
  have hu0 : 0 ≤ u := by rw [hu]; norm_num
  have h1u : 0 ≤ 1 + u := by linarith
  have m1 : w * |V1.2| ≤ u * P := by
    have := mul_le_mul_of_nonneg_left b1 hw0
    have := mul_le_mul_of_nonneg_left hP hu0
    linarith
  have m2 : |w * V1.1| ≤ (1 + u) * P := by
    rw [abs_mul, abs_of_nonneg hw0]
    have := mul_le_mul_of_nonneg_left c1 hw0
    have := mul_le_mul_of_nonneg_left hP h1u
    linarith
  have hB := abs_nonneg b
  have m2' : |w * V1.1| + |b| ≤ (1 + u) * |b| + (1 + u) ^ 2 * P := by nlinarith [mul_nonneg hu0 hB, mul_nonneg hu0 hP0, mul_nonneg hu0 (mul_nonneg hu0 hP0)]
  have n2 : |V2.2| ≤ u * ((1 + u) * |b| + (1 + u) ^ 2 * P) := b2.trans (mul_le_mul_of_nonneg_left m2' hu0)
  have k2 : |V2.1| ≤ (1 + u) * ((1 + u) * |b| + (1 + u) ^ 2 * P) := c2.trans (mul_le_mul_of_nonneg_left m2' h1u)
  have n3 : |V3.2| ≤ u * ((1 + u) * ((1 + u) * |b| + (1 + u) ^ 2 * P) + |y|) := b3.trans (mul_le_mul_of_nonneg_left (add_le_add k2 le_rfl) hu0)
  have z : (0 : ℝ) ≤ u * ((1 + u) * P) := by positivity
  have z2 : (0 : ℝ) ≤ u * |b| := by positivity
  have := sum_err (x3 := 0) (x2 := 0) hP0 hB (abs_nonneg y) hu m1 z2 z n2 n3
  linarith

theorem addE {k : ℕ} {x y m : ℝ} (h : Near (1 / 2 ^ 53) k x y m) (E : ℝ) : Near (1 / 2 ^ 53) (k + 1) (fl (x + E)) (y + E) (m + |E|) :=
  (h.add (by norm_num) ((Near.refl (by norm_num) E).mono (by norm_num) (Nat.zero_le k) le_rfl)).fl (by norm_num) (fl_rel' hfl)

theorem negAdd {k : ℕ} {x y m : ℝ} (h : Near (1 / 2 ^ 53) k x y m) (e : ℝ) : Near (1 / 2 ^ 53) (k + 1) (fl (-e + x)) (-e + y) (|e| + m) :=
  ((((Near.refl (by norm_num) e).neg (by norm_num)).mono (by norm_num) (Nat.zero_le k) le_rfl).add (by norm_num) h).fl (by norm_num) (fl_rel' hfl)

theorem mulN {k : ℕ} {x y m : ℝ} (h : Near (1 / 2 ^ 53) k x y m) (c : ℝ) : Near (1 / 2 ^ 53) (k + 1) (fl (c * x)) (c * y) (|c| * m) := by
  have := ((Near.refl (by norm_num) c).mul (by norm_num) h).fl (by norm_num) (fl_rel' hfl)
  rwa [zero_add] at this

theorem refl0 (y : ℝ) : Near (1 / 2 ^ 53) 0 y y |y| := Near.refl (by norm_num) y

theorem betaN (β e : ℝ) : Near (1 / 2 ^ 53) 2 (fl (fl (2 * β) * e)) (2 * β * e) (2 * |β| * |e|) := by
  have h1 := mulN hfl (refl0 hfl β) 2
  rw [abs_two] at h1
  exact (h1.mul (by norm_num) (refl0 hfl e)).fl (by norm_num) (fl_rel' hfl)

theorem addN {k l : ℕ} {x y m x' y' m' : ℝ} (h : Near (1 / 2 ^ 53) k x y m) (h' : Near (1 / 2 ^ 53) l x' y' m') (hlk : l ≤ k) :
    Near (1 / 2 ^ 53) (k + 1) (fl (x + x')) (y + y') (m + m') :=
  (h.add (by norm_num) (h'.mono (by norm_num) hlk le_rfl)).fl (by norm_num) (fl_rel' hfl)

variable {α β : ℝ} {a1 a2 e1 e2 : ℕ → ℝ}

theorem spot0_ok (hα : IsFloat 53 α) (hβ : IsFloat 53 β) (h1 : ∀ i, IsFloat 53 (a1 i)) (h2 : ∀ i, IsFloat 53 (a2 i)) :
    SpotOK α β a1 a2 e1 e2 0 (spot0 fl α β a1 a2 e1 e2) := by
  unfold spot0
  simp only [fl_eq hfl (isFloat_two_mul (h2 0))]
  obtain ⟨V1, hV1⟩ : ∃ V, V = twoProdWithSplitF fl β (2 * a2 0) (splitF fl β).1 (splitF fl β).2 := ⟨_, rfl⟩
  obtain ⟨V2, hV2⟩ : ∃ V, V = twoProdWithSplitF fl α (a2 1) (splitF fl α).1 (splitF fl α).2 := ⟨_, rfl⟩
  obtain ⟨V3, hV3⟩ : ∃ V, V = twoSumF fl V1.1 V2.1 := ⟨_, rfl⟩
  obtain ⟨V4, hV4⟩ : ∃ V, V = twoSumF fl V3.1 (-a1 0) := ⟨_, rfl⟩
  obtain ⟨f, g, b⟩ := four hfl hα hβ (h2 1) (isFloat_two_mul (h2 0)) (h1 0) hV1 hV2 hV3 hV4
  rw [← hV1, ← hV2, ← hV3, ← hV4]
  refine SpotOK.mk (s := V1.2 + V2.2 + V3.2 + V4.2) (S := |V1.2| + |V2.2| + |V3.2| + |V4.2|) f (by rw [g]; simp only [mulX]; ring) ?_ ?_ ?_
  · exact (abs_add_le _ _).trans (add_le_add ((abs_add_le _ _).trans (add_le_add (abs_add_le _ _) le_rfl)) le_rfl)
  · refine b.trans (le_of_eq ?_)
    simp only [maj, mulX, abs_mul, abs_two]
    ring
  · have n := addE hfl (addE hfl (addE hfl (addE hfl (addN hfl (negAdd hfl (mulN hfl (refl0 hfl (e2 1)) α) (e1 0)) (betaN hfl β (e2 0)) (by norm_num))
      V1.2) V2.2) V3.2) V4.2
    have n := n.mono (by norm_num) (by norm_num : _ ≤ 10) le_rfl
    convert n using 1
    · simp only [mulX]; ring
    · simp only [maj, mulX]; ring

theorem spotFive_ok (hα : IsFloat 53 α) (hβ : IsFloat 53 β) (h1 : ∀ i, IsFloat 53 (a1 i)) (h2 : ∀ i, IsFloat 53 (a2 i)) (i : ℕ) {p q t mt : ℝ}
    (hp : IsFloat 53 p) (hq : IsFloat 53 q) (hpq : mulX a2 i = p + q) (hpq' : mulX (fun j => |a2 j|) i = |p| + |q|) {t' : ℝ}
    (ht : Near (1 / 2 ^ 53) 2 t' t mt) (ht1 : mulX e2 i = t) (ht2 : mulX (fun j => |e2 j|) i = mt)
    {V1 V2 V3 V4 V5 : ℝ × ℝ} (hV1 : V1 = twoSumF fl p q) (hV2 : V2 = twoProdWithSplitF fl β (2 * a2 i) (splitF fl β).1 (splitF fl β).2)
    (hV3 : V3 = twoProdWithSplitF fl α V1.1 (splitF fl α).1 (splitF fl α).2) (hV4 : V4 = twoSumF fl V2.1 V3.1) (hV5 : V5 = twoSumF fl V4.1 (-a1 i)) :
    SpotOK α β a1 a2 e1 e2 i (V5.1, fl (fl (fl (fl (fl (fl (-e1 i + fl (α * fl (t' + V1.2))) + fl (fl (2 * β) * e2 i)) + V2.2) + V3.2) + V4.2)
      + V5.2)) := by
  obtain ⟨f, g, b⟩ := five hfl hα hβ hp hq (isFloat_two_mul (h2 i)) (h1 i) hV1 hV2 hV3 hV4 hV5
  refine SpotOK.mk (s := α * V1.2 + V2.2 + V3.2 + V4.2 + V5.2) (S := |α| * |V1.2| + |V2.2| + |V3.2| + |V4.2| + |V5.2|) f (by
    rw [g, hpq]; ring) ?_ ?_ ?_
  · rw [← abs_mul]
    exact (abs_add_le _ _).trans (add_le_add ((abs_add_le _ _).trans (add_le_add ((abs_add_le _ _).trans (add_le_add (abs_add_le _ _) le_rfl)) le_rfl))
      le_rfl)
  · refine b.trans (le_of_eq ?_)
    simp only [maj, hpq', abs_mul, abs_two]
    ring
  · have n := addE hfl (addE hfl (addE hfl (addE hfl (addN hfl (negAdd hfl (mulN hfl (addE hfl ht V1.2) α) (e1 i)) (betaN hfl β (e2 i)) (by norm_num))
      V2.2) V3.2) V4.2) V5.2
    convert n using 1
    · rw [ht1]; ring
    · simp only [maj, ht2]; ring

theorem spot1_ok (hα : IsFloat 53 α) (hβ : IsFloat 53 β) (h1 : ∀ i, IsFloat 53 (a1 i)) (h2 : ∀ i, IsFloat 53 (a2 i)) :
    SpotOK α β a1 a2 e1 e2 1 (spot1 fl α β a1 a2 e1 e2) := by
  unfold spot1
  simp only [fl_eq hfl (isFloat_two_mul (h2 0)), fl_eq hfl (isFloat_two_mul (h2 1))]
  have n := addE hfl (mulN hfl (refl0 hfl (e2 0)) 2) (e2 2)
  refine spotFive_ok hfl hα hβ h1 h2 1 (isFloat_two_mul (h2 0)) (h2 2) rfl ?_ n rfl ?_ rfl rfl rfl rfl rfl
  · simp only [mulX, abs_mul, abs_two]
  · simp only [mulX, abs_two]

theorem spotMid_ok (hα : IsFloat 53 α) (hβ : IsFloat 53 β) (h1 : ∀ i, IsFloat 53 (a1 i)) (h2 : ∀ i, IsFloat 53 (a2 i)) {i : ℕ} (hi : 2 ≤ i) :
    SpotOK α β a1 a2 e1 e2 i (spotMid fl α β a1 a2 e1 e2 i) := by
  unfold spotMid
  simp only [fl_eq hfl (isFloat_two_mul (h2 i))]
  have n := (addE hfl (refl0 hfl (e2 (i - 1))) (e2 (i + 1))).mono (by norm_num) (by norm_num : _ ≤ 2) le_rfl
  exact spotFive_ok hfl hα hβ h1 h2 i (h2 (i - 1)) (h2 (i + 1)) (mulX_of_two_le _ hi) (mulX_of_two_le _ hi) n (mulX_of_two_le _ hi)
    (mulX_of_two_le _ hi) rfl rfl rfl rfl rfl

/-- The weight of the second to last spot. -/
theorem mulX_last (b : ℕ → ℝ) {R : ℕ} (hR : 2 ≤ R) (hb : ∀ j, R ≤ j → b j = 0) :
    mulX b (R - 1) = (if R - 1 = 1 then 2 else 1) * b (R - 1 - 1) := by
  by_cases h : R - 1 = 1
  · have h2 : R = 2 := by omega
    subst h2
    simp [mulX, hb 2 le_rfl]
  · rw [mulX_of_two_le _ (by omega), hb (R - 1 + 1) (by omega)]
    simp [h]

theorem spotLast_ok (hα : IsFloat 53 α) (hβ : IsFloat 53 β) (h1 : ∀ i, IsFloat 53 (a1 i)) (h2 : ∀ i, IsFloat 53 (a2 i)) {R : ℕ} (hR : 2 ≤ R)
    (z2 : ∀ j, R ≤ j → a2 j = 0) (y2 : ∀ j, R ≤ j → e2 j = 0) : SpotOK α β a1 a2 e1 e2 (R - 1) (spotLast fl α β a1 a2 e1 e2 (R - 1)) := by
  obtain ⟨C, hC⟩ : ∃ C : ℝ, C = if R - 1 = 1 then 2 else 1 := ⟨_, rfl⟩
  have hC0 : |C| = C := by rw [hC]; split <;> norm_num
  have hCf : IsFloat 53 (C * a2 (R - 1 - 1)) := by
    rw [hC]
    split
    · exact isFloat_two_mul (h2 _)
    · rw [one_mul]; exact h2 _
  unfold spotLast
  simp only [fl_eq hfl (isFloat_two_mul (h2 (R - 1))), ← hC, fl_eq hfl hCf]
  obtain ⟨V1, hV1⟩ : ∃ V, V = twoProdWithSplitF fl β (2 * a2 (R - 1)) (splitF fl β).1 (splitF fl β).2 := ⟨_, rfl⟩
  obtain ⟨V2, hV2⟩ : ∃ V, V = twoProdWithSplitF fl α (C * a2 (R - 1 - 1)) (splitF fl α).1 (splitF fl α).2 := ⟨_, rfl⟩
  obtain ⟨V3, hV3⟩ : ∃ V, V = twoSumF fl V1.1 V2.1 := ⟨_, rfl⟩
  obtain ⟨V4, hV4⟩ : ∃ V, V = twoSumF fl V3.1 (-a1 (R - 1)) := ⟨_, rfl⟩
  obtain ⟨f, g, b⟩ := four hfl hα hβ hCf (isFloat_two_mul (h2 (R - 1))) (h1 (R - 1)) hV1 hV2 hV3 hV4
  have mx : ∀ b : ℕ → ℝ, (∀ j, R ≤ j → b j = 0) → mulX b (R - 1) = C * b (R - 1 - 1) := fun b hb => by rw [mulX_last hfl b hR hb, hC]
  have mx2 := mx a2 z2
  have mx2' := mx (fun j => |a2 j|) (fun j hj => by simp [z2 j hj])
  have me := mx e2 y2
  have me' := mx (fun j => |e2 j|) (fun j hj => by simp [y2 j hj])
  rw [← hV1, ← hV2, ← hV3, ← hV4]
  refine SpotOK.mk (s := V1.2 + V2.2 + V3.2 + V4.2) (S := |V1.2| + |V2.2| + |V3.2| + |V4.2|) f (by rw [g, mx2]; ring) ?_ ?_ ?_
  · exact (abs_add_le _ _).trans (add_le_add ((abs_add_le _ _).trans (add_le_add (abs_add_le _ _) le_rfl)) le_rfl)
  · refine b.trans (le_of_eq ?_)
    simp only [maj, mx2', abs_mul, abs_two, hC0]
    ring
  · have n1 : Near (1 / 2 ^ 53) 2 (fl (fl (C * α) * e2 (R - 1 - 1))) (C * α * e2 (R - 1 - 1)) (C * |α| * |e2 (R - 1 - 1)|) := by
      have h1 := mulN hfl (refl0 hfl α) C
      rw [hC0] at h1
      exact (h1.mul (by norm_num) (refl0 hfl (e2 (R - 1 - 1)))).fl (by norm_num) (fl_rel' hfl)
    have n := addE hfl (addE hfl (addE hfl (addE hfl (addN hfl (negAdd hfl n1 (e1 (R - 1))) (betaN hfl β (e2 (R - 1))) (by norm_num))
      V1.2) V2.2) V3.2) V4.2
    have n := n.mono (by norm_num) (by norm_num : _ ≤ 10) le_rfl
    convert n using 1
    · rw [me]; ring
    · simp only [maj, me']; ring

/-- At the new row only one term is left. -/
theorem at_row {R : ℕ} (hR : 2 ≤ R) (b1 b2 : ℕ → ℝ) (z1 : ∀ j, R ≤ j → b1 j = 0) (z2 : ∀ j, R ≤ j → b2 j = 0) :
    -b1 R + α * mulX b2 R + 2 * β * b2 R = α * b2 (R - 1) ∧ maj α β b1 b2 R = |α| * |b2 (R - 1)| := by
  constructor
  · rw [z1 R le_rfl, z2 R le_rfl, mulX_of_two_le _ hR, z2 (R + 1) (by omega)]; ring
  · unfold maj
    rw [z1 R le_rfl, z2 R le_rfl, mulX_of_two_le _ hR, z2 (R + 1) (by omega)]; simp

theorem spotFin_ok (hα : IsFloat 53 α) (h2 : ∀ i, IsFloat 53 (a2 i)) {R : ℕ} (hR : 2 ≤ R) (z1 : ∀ j, R ≤ j → a1 j = 0) (z2 : ∀ j, R ≤ j → a2 j = 0)
    (y1 : ∀ j, R ≤ j → e1 j = 0) (y2 : ∀ j, R ≤ j → e2 j = 0) : SpotOK α β a1 a2 e1 e2 R (spotFin fl α a2 e2 (R - 1)) := by
  unfold spotFin
  simp only []
  obtain ⟨F, hF⟩ : ∃ V, V = twoProdWithSplitF fl α (a2 (R - 1)) (splitF fl α).1 (splitF fl α).2 := ⟨_, rfl⟩
  obtain ⟨a, f, b, -⟩ := tp hfl hα (h2 (R - 1))
  rw [← hF] at a f b ⊢
  obtain ⟨q1, q2⟩ := at_row hfl (α := α) (β := β) hR a1 a2 z1 z2
  obtain ⟨q3, q4⟩ := at_row hfl (α := α) (β := β) hR e1 e2 y1 y2
  refine SpotOK.mk (s := F.2) (S := |F.2|) f (by rw [q1, a]) le_rfl ?_ ?_
  · rw [q2]
    refine b.trans ?_
    have : 0 ≤ |α| * |a2 (R - 1)| := by positivity
    nlinarith
  · have n := addE hfl (mulN hfl (refl0 hfl (e2 (R - 1))) α) F.2
    have n := n.mono (by norm_num) (by norm_num : _ ≤ 10) le_rfl
    rw [q3, q4]
    convert n using 1
    rw [add_comm]

/-! ### The variant for halves -/

theorem spotS0_ok {bs : ℝ} (hbs : bs = 1 ∨ bs = -1) (h1 : ∀ i, IsFloat 53 (a1 i)) (h2 : ∀ i, IsFloat 53 (a2 i)) :
    SpotOK (1 / 2) (bs * (1 / 2)) a1 a2 e1 e2 0 (spotS0 fl bs a1 a2 e1 e2) := by
  have hab : |bs| = 1 := by rcases hbs with rfl | rfl <;> simp
  have hbf : ∀ x : ℝ, IsFloat 53 x → IsFloat 53 (bs * x) := by
    intro x hx
    rcases hbs with rfl | rfl
    · rwa [one_mul]
    · rw [neg_one_mul]; exact hx.neg
  unfold spotS0
  simp only [fl_eq hfl (isFloat_half (h2 1)), fl_eq hfl (hbf _ (h2 0))]
  obtain ⟨V1, hV1⟩ : ∃ V, V = twoSumF fl (a2 1 / 2) (bs * a2 0) := ⟨_, rfl⟩
  obtain ⟨V2, hV2⟩ : ∃ V, V = twoSumF fl V1.1 (-a1 0) := ⟨_, rfl⟩
  obtain ⟨a, f, b, c⟩ := ts hfl (isFloat_half (h2 1)) (hbf _ (h2 0))
  rw [← hV1] at a f b c ⊢
  obtain ⟨a', f', b', c'⟩ := ts hfl f (h1 0).neg
  rw [← hV2] at a' f' b' c' ⊢
  rw [abs_neg] at b'
  refine SpotOK.mk (s := V1.2 + V2.2) (S := |V1.2| + |V2.2|) f' (by simp only [mulX]; linarith) (abs_add_le _ _) ?_ ?_
  · simp only [maj, mulX, abs_mul, hab]
    rw [abs_mul, hab, abs_div] at b c
    norm_num at b c b' ⊢
    linarith [abs_nonneg (a1 0), abs_nonneg (a2 0), abs_nonneg (a2 1)]
  · have k1 := mulN hfl (refl0 hfl (e2 0)) bs
    have k2 := mulN hfl (refl0 hfl (e2 1)) (1 / 2)
    have n := addE hfl (addE hfl (addN hfl (negAdd hfl k2 (e1 0)) k1 (by norm_num)) V1.2) V2.2
    have n := n.mono (by norm_num) (by norm_num : _ ≤ 10) le_rfl
    have ed : e2 1 / 2 = 1 / 2 * e2 1 := by ring
    simp only [ed]
    convert n using 1
    · simp only [mulX]; ring
    · simp only [maj, mulX, abs_mul, hab]; norm_num; ring

theorem spotS1_ok {bs : ℝ} (hbs : bs = 1 ∨ bs = -1) (h1 : ∀ i, IsFloat 53 (a1 i)) (h2 : ∀ i, IsFloat 53 (a2 i)) :
    SpotOK (1 / 2) (bs * (1 / 2)) a1 a2 e1 e2 1 (spotS1 fl bs a1 a2 e1 e2) := by
  have hab : |bs| = 1 := by rcases hbs with rfl | rfl <;> simp
  have hbf : ∀ x : ℝ, IsFloat 53 x → IsFloat 53 (bs * x) := by
    intro x hx
    rcases hbs with rfl | rfl
    · rwa [one_mul]
    · rw [neg_one_mul]; exact hx.neg
  unfold spotS1
  simp only [fl_eq hfl (isFloat_half (h2 2)), fl_eq hfl (hbf _ (h2 1))]
  obtain ⟨V1, hV1⟩ : ∃ V, V = twoSumF fl (a2 0) (a2 2 / 2) := ⟨_, rfl⟩
  obtain ⟨V2, hV2⟩ : ∃ V, V = twoSumF fl V1.1 (bs * a2 1) := ⟨_, rfl⟩
  obtain ⟨V3, hV3⟩ : ∃ V, V = twoSumF fl V2.1 (-a1 1) := ⟨_, rfl⟩
  obtain ⟨f, g, b⟩ := three (w := 1) (P := |a2 0| + |a2 2 / 2|) hfl (h2 0) (isFloat_half (h2 2)) (hbf _ (h2 1)) (h1 1) zero_le_one
    (fun x hx => by rwa [one_mul]) (by rw [one_mul]) hV1 (by rw [one_mul]; exact hV2) hV3
  rw [← hV1, ← hV2, ← hV3]
  refine SpotOK.mk (s := 1 * V1.2 + V2.2 + V3.2) (S := 1 * |V1.2| + |V2.2| + |V3.2|) f (by rw [g]; simp only [mulX]; ring) ?_ ?_ ?_
  · rw [one_mul, one_mul]
    exact (abs_add_le _ _).trans (add_le_add (abs_add_le _ _) le_rfl)
  · refine b.trans (le_of_eq ?_)
    simp only [maj, mulX, abs_mul, hab, abs_div, abs_two]
    norm_num
    ring
  · have k1 := mulN hfl (refl0 hfl (e2 1)) bs
    have k2 := mulN hfl (refl0 hfl (e2 2)) (1 / 2)
    have n := addE hfl (addE hfl (addE hfl (addN hfl (addN hfl (negAdd hfl (refl0 hfl (e2 0)) (e1 1)) k2 (by norm_num)) k1 (by norm_num)) V1.2) V2.2) V3.2
    have n := n.mono (by norm_num) (by norm_num : _ ≤ 10) le_rfl
    have ed : e2 2 / 2 = 1 / 2 * e2 2 := by ring
    simp only [ed]
    convert n using 1
    · simp only [mulX]; ring
    · simp only [maj, mulX, abs_mul, hab]; norm_num; ring

theorem spotSMid_ok {bs : ℝ} (hbs : bs = 1 ∨ bs = -1) (h1 : ∀ i, IsFloat 53 (a1 i)) (h2 : ∀ i, IsFloat 53 (a2 i)) {i : ℕ} (hi : 2 ≤ i) :
    SpotOK (1 / 2) (bs * (1 / 2)) a1 a2 e1 e2 i (spotSMid fl bs a1 a2 e1 e2 i) := by
  have hab : |bs| = 1 := by rcases hbs with rfl | rfl <;> simp
  have hbf : ∀ x : ℝ, IsFloat 53 x → IsFloat 53 (bs * x) := by
    intro x hx
    rcases hbs with rfl | rfl
    · rwa [one_mul]
    · rw [neg_one_mul]; exact hx.neg
  unfold spotSMid
  obtain ⟨-, f1, -, -⟩ := ts hfl (h2 (i - 1)) (h2 (i + 1))
  simp only [fl_eq hfl (isFloat_half f1), fl_eq hfl (hbf _ (h2 i))]
  obtain ⟨V1, hV1⟩ : ∃ V, V = twoSumF fl (a2 (i - 1)) (a2 (i + 1)) := ⟨_, rfl⟩
  rw [← hV1]
  obtain ⟨V2, hV2⟩ : ∃ V, V = twoSumF fl (V1.1 / 2) (bs * a2 i) := ⟨_, rfl⟩
  obtain ⟨V3, hV3⟩ : ∃ V, V = twoSumF fl V2.1 (-a1 i) := ⟨_, rfl⟩
  have ed : ∀ x : ℝ, x / 2 = 1 / 2 * x := fun x => by ring
  obtain ⟨f, g, b⟩ := three (w := 1 / 2) (P := 1 / 2 * (|a2 (i - 1)| + |a2 (i + 1)|)) hfl (h2 (i - 1)) (h2 (i + 1)) (hbf _ (h2 i)) (h1 i) (by norm_num)
    (fun x hx => by rw [← ed]; exact isFloat_half hx) le_rfl hV1 (by rw [← ed]; exact hV2) hV3
  rw [← hV2, ← hV3]
  refine SpotOK.mk (s := 1 / 2 * V1.2 + V2.2 + V3.2) (S := 1 / 2 * |V1.2| + |V2.2| + |V3.2|) f (by
    rw [g, mulX_of_two_le _ hi]; ring) ?_ ?_ ?_
  · have : (1 / 2 : ℝ) * |V1.2| = |1 / 2 * V1.2| := by rw [abs_mul]; norm_num
    rw [this]
    exact (abs_add_le _ _).trans (add_le_add (abs_add_le _ _) le_rfl)
  · refine b.trans (le_of_eq ?_)
    simp only [maj, mulX_of_two_le _ hi, abs_mul, hab]
    norm_num
  · have k1 := mulN hfl (refl0 hfl (e2 i)) bs
    have k2 := mulN hfl (addE hfl (addE hfl (refl0 hfl (e2 (i - 1))) (e2 (i + 1))) V1.2) (1 / 2)
    have n := addE hfl (addE hfl (addN hfl (negAdd hfl k2 (e1 i)) k1 (by norm_num)) V2.2) V3.2
    have n := n.mono (by norm_num) (by norm_num : _ ≤ 10) le_rfl
    rw [ed (fl (fl (e2 (i - 1) + e2 (i + 1)) + V1.2))]
    convert n using 1
    · rw [mulX_of_two_le _ hi]; ring
    · simp only [maj, mulX_of_two_le _ hi, abs_mul, hab]; norm_num; ring

theorem spotSLast_ok {bs : ℝ} (hbs : bs = 1 ∨ bs = -1) (h1 : ∀ i, IsFloat 53 (a1 i)) (h2 : ∀ i, IsFloat 53 (a2 i)) {R : ℕ} (hR : 2 ≤ R)
    (z2 : ∀ j, R ≤ j → a2 j = 0) (y2 : ∀ j, R ≤ j → e2 j = 0) :
    SpotOK (1 / 2) (bs * (1 / 2)) a1 a2 e1 e2 (R - 1) (spotSLast fl bs a1 a2 e1 e2 (R - 1)) := by
  have hab : |bs| = 1 := by rcases hbs with rfl | rfl <;> simp
  have hbf : ∀ x : ℝ, IsFloat 53 x → IsFloat 53 (bs * x) := by
    intro x hx
    rcases hbs with rfl | rfl
    · rwa [one_mul]
    · rw [neg_one_mul]; exact hx.neg
  obtain ⟨C, hC⟩ : ∃ C : ℝ, C = if R - 1 = 1 then 1 else 1 / 2 := ⟨_, rfl⟩
  have hC0 : |C| = C := by rw [hC]; split <;> norm_num
  have hC2 : (if R - 1 = 1 then (2 : ℝ) else 1) = 2 * C := by rw [hC]; split <;> norm_num
  have hCf : IsFloat 53 (C * a2 (R - 1 - 1)) := by
    rw [hC]
    split
    · rw [one_mul]; exact h2 _
    · have := isFloat_half (h2 (R - 1 - 1))
      rwa [div_eq_mul_one_div, mul_comm] at this
  unfold spotSLast
  simp only [← hC, fl_eq hfl hCf, fl_eq hfl (hbf _ (h2 (R - 1)))]
  obtain ⟨V1, hV1⟩ : ∃ V, V = twoSumF fl (C * a2 (R - 1 - 1)) (bs * a2 (R - 1)) := ⟨_, rfl⟩
  obtain ⟨V2, hV2⟩ : ∃ V, V = twoSumF fl V1.1 (-a1 (R - 1)) := ⟨_, rfl⟩
  obtain ⟨a, f, b, c⟩ := ts hfl hCf (hbf _ (h2 (R - 1)))
  rw [← hV1] at a f b c ⊢
  obtain ⟨a', f', b', c'⟩ := ts hfl f (h1 (R - 1)).neg
  rw [← hV2] at a' f' b' c' ⊢
  rw [abs_neg] at b'
  have mx : ∀ b : ℕ → ℝ, (∀ j, R ≤ j → b j = 0) → mulX b (R - 1) = 2 * C * b (R - 1 - 1) := fun b hb => by rw [mulX_last hfl b hR hb, hC2]
  have mx2 := mx a2 z2
  have mx2' := mx (fun j => |a2 j|) (fun j hj => by simp [z2 j hj])
  have me := mx e2 y2
  have me' := mx (fun j => |e2 j|) (fun j hj => by simp [y2 j hj])
  refine SpotOK.mk (s := V1.2 + V2.2) (S := |V1.2| + |V2.2|) f' (by rw [mx2]; linarith) (abs_add_le _ _) ?_ ?_
  · simp only [maj, mx2', abs_mul, hab]
    rw [abs_mul, abs_mul, hab, hC0] at b c
    have hC1 : 0 ≤ C * |a2 (R - 1 - 1)| := by rw [← hC0]; positivity
    norm_num at b c b' ⊢
    linarith [abs_nonneg (a1 (R - 1)), abs_nonneg (a2 (R - 1))]
  · have k1 := mulN hfl (refl0 hfl (e2 (R - 1))) bs
    have k2 := mulN hfl (refl0 hfl (e2 (R - 1 - 1))) C
    have n := addE hfl (addE hfl (addN hfl (negAdd hfl k2 (e1 (R - 1))) k1 (by norm_num)) V1.2) V2.2
    have n := n.mono (by norm_num) (by norm_num : _ ≤ 10) le_rfl
    convert n using 1
    · rw [me]; ring
    · simp only [maj, me', abs_mul, hab, hC0]; norm_num; ring

theorem spotSFin_ok {bs : ℝ} (h2 : ∀ i, IsFloat 53 (a2 i)) {R : ℕ} (hR : 2 ≤ R) (z1 : ∀ j, R ≤ j → a1 j = 0) (z2 : ∀ j, R ≤ j → a2 j = 0)
    (y1 : ∀ j, R ≤ j → e1 j = 0) (y2 : ∀ j, R ≤ j → e2 j = 0) : SpotOK (1 / 2) (bs * (1 / 2)) a1 a2 e1 e2 R (spotSFin fl a2 e2 (R - 1)) := by
  unfold spotSFin
  rw [fl_eq hfl (isFloat_half (h2 (R - 1)))]
  obtain ⟨q1, q2⟩ := at_row hfl (α := 1 / 2) (β := bs * (1 / 2)) hR a1 a2 z1 z2
  obtain ⟨q3, q4⟩ := at_row hfl (α := 1 / 2) (β := bs * (1 / 2)) hR e1 e2 y1 y2
  refine SpotOK.mk (s := 0) (S := 0) (isFloat_half (h2 (R - 1))) (by rw [q1]; ring) (by simp) ?_ ?_
  · rw [q2]; positivity
  · have n := (mulN hfl (refl0 hfl (e2 (R - 1))) (1 / 2)).mono (by norm_num) (by norm_num : _ ≤ 10) le_rfl
    have ed : e2 (R - 1) / 2 = 1 / 2 * e2 (R - 1) := by ring
    rw [q3, q4, add_zero, add_zero, ed]
    exact n

end Spots

end YRoots
