import Verif.Model.FloatTransform
import Verif.Proofs.FloatBounding
import Verif.Proofs.TransformND
import Verif.Proofs.Approx

/-!
# Helper lemmas: rounding errors of the re-expansion
-/

set_option linter.unusedSectionVars false

namespace YRoots

open Finset

section Near

variable {K : Type*} [Field K] [LinearOrder K] [IsStrictOrderedRing K]

/-- `x` is `y` after `k` roundings with relative error `u`, for a quantity whose parts add up to at most `m` in absolute value. -/
structure Near (u : K) (k : ℕ) (x y m : K) : Prop where
  le : |y| ≤ m
  err : |x - y| ≤ ((1 + u) ^ k - 1) * m

variable {u : K} (hu : 0 ≤ u)

include hu

theorem one_le_pow_u (k : ℕ) : 1 ≤ (1 + u) ^ k := one_le_pow₀ (by linarith)

theorem Near.refl (y : K) : Near u 0 y y |y| := ⟨le_rfl, by simp⟩

theorem Near.mono {k l : ℕ} {x y m m' : K} (h : Near u k x y m) (hkl : k ≤ l) (hm : m ≤ m') : Near u l x y m' := by
  refine ⟨h.le.trans hm, h.err.trans ?_⟩
  have h1 : (1 + u) ^ k ≤ (1 + u) ^ l := pow_le_pow_right₀ (by linarith) hkl
  have h2 := one_le_pow_u hu k
  exact mul_le_mul (by linarith) hm ((abs_nonneg _).trans h.le) (by linarith)

theorem Near.add {k : ℕ} {x y m x' y' m' : K} (h : Near u k x y m) (h' : Near u k x' y' m') : Near u k (x + x') (y + y') (m + m') := by
  refine ⟨(abs_add_le _ _).trans (add_le_add h.le h'.le), ?_⟩
  have e : x + x' - (y + y') = (x - y) + (x' - y') := by ring
  rw [e, mul_add]
  exact (abs_add_le _ _).trans (add_le_add h.err h'.err)

theorem Near.neg {k : ℕ} {x y m : K} (h : Near u k x y m) : Near u k (-x) (-y) m :=
  ⟨by rw [abs_neg]; exact h.le, by rw [← neg_sub', abs_neg]; exact h.err⟩

theorem Near.mul {k l : ℕ} {x y m x' y' m' : K} (h : Near u k x y m) (h' : Near u l x' y' m') : Near u (k + l) (x * x') (y * y') (m * m') := by
  have hm := (abs_nonneg _).trans h.le
  have hm' := (abs_nonneg _).trans h'.le
  refine ⟨by rw [abs_mul]; exact mul_le_mul h.le h'.le (abs_nonneg _) hm, ?_⟩
  have e : x * x' - y * y' = (x - y) * (x' - y') + (x - y) * y' + y * (x' - y') := by ring
  have h1 := one_le_pow_u hu k
  have h2 := one_le_pow_u hu l
  have b1 : |(x - y) * (x' - y')| ≤ (((1 + u) ^ k - 1) * m) * (((1 + u) ^ l - 1) * m') := by
    rw [abs_mul]; exact mul_le_mul h.err h'.err (abs_nonneg _) (mul_nonneg (by linarith) hm)
  have b2 : |(x - y) * y'| ≤ (((1 + u) ^ k - 1) * m) * m' := by
    rw [abs_mul]; exact mul_le_mul h.err h'.le (abs_nonneg _) (mul_nonneg (by linarith) hm)
  have b3 : |y * (x' - y')| ≤ m * (((1 + u) ^ l - 1) * m') := by
    rw [abs_mul]; exact mul_le_mul h.le h'.err (abs_nonneg _) hm
  rw [e]
  calc _ ≤ _ := (abs_add_le _ _).trans (add_le_add ((abs_add_le _ _).trans (add_le_add b1 b2)) b3)
    _ = _ := by rw [pow_add]; ring

theorem Near.fl {f : K → K} (hf : ∀ x, |f x - x| ≤ u * |x|) {k : ℕ} {x y m : K} (h : Near u k x y m) : Near u (k + 1) (f x) y m := by
  refine ⟨h.le, ?_⟩
  have e : f x - y = (f x - x) + (x - y) := by ring
  have h1 : |x| ≤ |y| + |x - y| := by
    have := abs_add_le y (x - y)
    rwa [add_sub_cancel] at this
  have h2 := h.err
  have h3 := h.le
  have h4 : u * |x| ≤ u * (m + ((1 + u) ^ k - 1) * m) := mul_le_mul_of_nonneg_left (by linarith) hu
  rw [e]
  calc _ ≤ _ := (abs_add_le _ _).trans (add_le_add ((hf x).trans h4) h2)
    _ = _ := by rw [pow_succ]; ring

end Near

section Fold

variable {K : Type*} [Field K] [LinearOrder K] {ι : Type*}

theorem foldl_putRowF (fl : K → K) (c : ι → K) (f : ℕ → K) (l : List ℕ) (hl : l.Nodup) (p : (ℕ → K) × (ℕ → ι → K)) :
    l.foldl (fun p i => putRowF fl c i (f i) p) p
      = (fun j => if j ∈ l then f j else p.1 j, fun j => if j ∈ l then fun k => fl (p.2 j k + fl (c k * f j)) else p.2 j) := by
  induction l generalizing p with
  | nil => simp
  | cons a l ih =>
    have ha : a ∉ l := (List.nodup_cons.1 hl).1
    rw [List.foldl_cons, ih (List.nodup_cons.1 hl).2]
    ext j
    · by_cases hj : j = a
      · subst hj; simp [putRowF, ha]
      · simp [putRowF, hj]
    · by_cases hj : j = a
      · subst hj; simp [putRowF, ha]
      · simp [putRowF, hj]

/-- The rounded rows `< R` of the new column. -/
def rowValF (fl : K → K) (α β : K) (R : ℕ) (a1 a2 : ℕ → K) (i : ℕ) : K :=
  if i = R - 1 then fl (fl (-a1 i + fl (fl ((if i = 1 then 2 else 1) * α) * a2 (i - 1))) + fl (fl (2 * β) * a2 i))
  else if i = 0 then fl (fl (-a1 0 + fl (α * a2 1)) + fl (fl (2 * β) * a2 0))
  else if i = 1 then fl (fl (-a1 1 + fl (α * fl (fl (2 * a2 0) + a2 2))) + fl (fl (2 * β) * a2 1))
  else fl (fl (-a1 i + fl (α * fl (a2 (i - 1) + a2 (i + 1)))) + fl (fl (2 * β) * a2 i))

theorem tRowsF_eq (fl : K → K) (c : ι → K) (α β : K) (s : TState K (ι → K)) (hR : 2 ≤ s.maxRow) :
    tRowsF fl c α β s =
      (fun j => if j < s.maxRow then rowValF fl α β s.maxRow s.arr1 s.arr2 j else s.arr3 j,
       fun j => if j < s.maxRow then fun k => fl (s.out j k + fl (c k * rowValF fl α β s.maxRow s.arr1 s.arr2 j)) else s.out j) := by
  unfold tRowsF
  simp only []
  have hnd : (List.range' 2 (s.maxRow - 1 - 2)).Nodup := List.nodup_range'
  rw [foldl_putRowF fl c (fun i => fl (fl (-s.arr1 i + fl (α * fl (s.arr2 (i - 1) + s.arr2 (i + 1)))) + fl (fl (2 * β) * s.arr2 i))) _ hnd]
  have key : ∀ j, (j < s.maxRow ↔ j = 0 ∨ (j = 1 ∧ 2 < s.maxRow) ∨
      j ∈ List.range' 2 (s.maxRow - 1 - 2) ∨ j = s.maxRow - 1) := by
    intro j; simp only [List.mem_range'_1]; omega
  refine Prod.ext (funext fun j => ?_) (funext fun j => ?_)
  · by_cases hjl : j = s.maxRow - 1
    · subst hjl
      have h1 : s.maxRow - 1 < s.maxRow := by omega
      simp only [putRowF, Function.update_self, h1, if_true, rowValF]
    · simp only [putRowF, ne_eq, hjl, not_false_eq_true, Function.update_of_ne, rowValF, if_false]
      by_cases hjm : j ∈ List.range' 2 (s.maxRow - 1 - 2)
      · have hj : j < s.maxRow := (key j).2 (by tauto)
        have hm := List.mem_range'_1.1 hjm
        have h0 : j ≠ 0 := by omega
        have h1 : j ≠ 1 := by omega
        simp only [hjm, hj, if_true, h0, h1, if_false]
      · simp only [hjm, if_false]
        by_cases hj1 : j = 1
        · subst hj1
          have h2 : 2 < s.maxRow := by omega
          have h3 : 1 < s.maxRow := by omega
          simp [h2, h3]
        · by_cases hj0 : j = 0
          · subst hj0
            have h3 : 0 < s.maxRow := by omega
            split <;> simp [h3]
          · have hj : ¬ j < s.maxRow := by rw [key]; tauto
            split <;> simp [hj, hj0, hj1]
  · by_cases hjl : j = s.maxRow - 1
    · subst hjl
      have h1 : s.maxRow - 1 < s.maxRow := by omega
      have h2 : s.maxRow - 1 ∉ List.range' 2 (s.maxRow - 1 - 2) := by
        simp only [List.mem_range'_1]; omega
      have h0 : s.maxRow - 1 ≠ 0 := by omega
      simp only [putRowF, Function.update_self, h1, if_true, h2, if_false, rowValF]
      funext k
      congr 2
      split
      · have : s.maxRow - 1 ≠ 1 := by omega
        simp [this, h0]
      · simp [h0]
    · simp only [putRowF, ne_eq, hjl, not_false_eq_true, Function.update_of_ne, rowValF, if_false]
      by_cases hjm : j ∈ List.range' 2 (s.maxRow - 1 - 2)
      · have hj : j < s.maxRow := (key j).2 (by tauto)
        have hm := List.mem_range'_1.1 hjm
        have h0 : j ≠ 0 := by omega
        have h1 : j ≠ 1 := by omega
        simp only [hjm, hj, if_true, h0, h1, if_false]
        funext k
        split <;> simp [h0, h1]
      · simp only [hjm, if_false]
        by_cases hj1 : j = 1
        · subst hj1
          have h2 : 2 < s.maxRow := by omega
          have h3 : 1 < s.maxRow := by omega
          simp [h2, h3]
        · by_cases hj0 : j = 0
          · subst hj0
            have h3 : 0 < s.maxRow := by omega
            split <;> simp [h3]
          · have hj : ¬ j < s.maxRow := by rw [key]; tauto
            split <;> simp [hj, hj0, hj1]

end Fold

section Step

variable {K : Type*} [Field K] [LinearOrder K] [IsStrictOrderedRing K] {ι : Type*}

/-- Majorant of the entries of the three-term recurrence. -/
def maj (α β : K) (a1 a2 : ℕ → K) (i : ℕ) : K := |a1 i| + |α| * mulX (fun j => |a2 j|) i + 2 * |β| * |a2 i|

variable {fl : K → K} {u : K} (hu : 0 ≤ u) (hf : ∀ x, |fl x - x| ≤ u * |x|)

include hu hf

theorem fl0_of : fl 0 = 0 := by
  have := hf 0
  rw [abs_zero, mul_zero, sub_zero] at this
  exact abs_eq_zero.1 (le_antisymm this (abs_nonneg _))

theorem rowValF_near (α β : K) {R : ℕ} (hR : 2 ≤ R) (a1 a2 : ℕ → K) (h2 : ∀ i, R ≤ i → a2 i = 0) {i : ℕ} (hi : i < R) :
    Near u 5 (rowValF fl α β R a1 a2 i) (-a1 i + α * mulX a2 i + 2 * β * a2 i) (maj α β a1 a2 i) := by
  have r := fun y : K => Near.refl hu y
  have two : ∀ y : K, Near u 1 (fl (2 * y)) (2 * y) (2 * |y|) := by
    intro y
    have := (r (2 * y)).fl hu hf
    rwa [abs_mul, abs_two] at this
  -- the shape common to all branches
  have comb : ∀ {z w mw : K} (_ : Near u 4 z w mw) (i : ℕ),
      Near u 5 (fl (z + fl (fl (2 * β) * a2 i))) (w + 2 * β * a2 i) (mw + 2 * |β| * |a2 i|) := by
    intro z w mw hz i
    have h1 : Near u 2 (fl (fl (2 * β) * a2 i)) (2 * β * a2 i) (2 * |β| * |a2 i|) := by
      have := (((two β).mul hu (r (a2 i)))).fl hu hf
      simpa using this
    exact (hz.add hu (h1.mono hu (by norm_num) le_rfl)).fl hu hf
  have comb2 : ∀ {z w mw : K} (_ : Near u 3 z w mw) (i : ℕ), Near u 4 (fl (-a1 i + z)) (-a1 i + w) (|a1 i| + mw) := by
    intro z w mw hz i
    exact ((((r (a1 i)).neg hu).mono hu (by norm_num) le_rfl).add hu hz).fl hu hf
  unfold rowValF
  by_cases hil : i = R - 1
  · rw [if_pos hil]
    have hb : Near u 3 (fl (fl ((if i = 1 then 2 else 1) * α) * a2 (i - 1))) (α * mulX a2 i) (|α| * mulX (fun j => |a2 j|) i) := by
      have h1 : Near u 1 (fl ((if i = 1 then 2 else 1) * α)) ((if i = 1 then 2 else 1) * α) ((if i = 1 then 2 else 1) * |α|) := by
        have := (r ((if i = 1 then 2 else 1) * α)).fl hu hf
        rw [abs_mul] at this
        split_ifs at this ⊢ <;> simpa using this
      have h3 := (h1.mul hu (r (a2 (i - 1)))).fl hu hf
      have e : ∀ (b : ℕ → K), (∀ j, R ≤ j → b j = 0) → mulX b i = (if i = 1 then 2 else 1) * b (i - 1) := by
        intro b hb
        by_cases h : i = 1
        · subst h
          have := hb 2 (by omega)
          simp [mulX, this]
        · rw [mulX_of_two_le _ (by omega), hb (i + 1) (by omega)]
          simp [h]
      rw [e a2 h2, e (fun j => |a2 j|) (fun j hj => by simp [h2 j hj])]
      have e1 : α * ((if i = 1 then 2 else 1) * a2 (i - 1)) = (if i = 1 then 2 else 1) * α * a2 (i - 1) := by ring
      have e2 : |α| * ((if i = 1 then 2 else 1) * |a2 (i - 1)|) = (if i = 1 then 2 else 1) * |α| * |a2 (i - 1)| := by ring
      rw [e1, e2]
      exact h3.mono hu (by norm_num) le_rfl
    exact comb (comb2 hb i) i
  · rw [if_neg hil]
    by_cases h0 : i = 0
    · subst h0
      rw [if_pos rfl]
      have hb : Near u 3 (fl (α * a2 1)) (α * mulX a2 0) (|α| * mulX (fun j => |a2 j|) 0) :=
        ((((r α).mul hu (r (a2 1))).fl hu hf).mono hu (by norm_num) le_rfl)
      exact comb (comb2 hb 0) 0
    · rw [if_neg h0]
      by_cases h1 : i = 1
      · subst h1
        rw [if_pos rfl]
        have hb : Near u 3 (fl (α * fl (fl (2 * a2 0) + a2 2))) (α * mulX a2 1) (|α| * mulX (fun j => |a2 j|) 1) := by
          have h3 := ((two (a2 0)).add hu ((r (a2 2)).mono hu (by norm_num : 0 ≤ 1) le_rfl)).fl hu hf
          have := ((r α).mul hu h3).fl hu hf
          exact this
        exact comb (comb2 hb 1) 1
      · rw [if_neg h1]
        have hb : Near u 3 (fl (α * fl (a2 (i - 1) + a2 (i + 1)))) (α * mulX a2 i) (|α| * mulX (fun j => |a2 j|) i) := by
          rw [mulX_of_two_le _ (by omega), mulX_of_two_le _ (by omega)]
          have h3 := ((r (a2 (i - 1))).add hu (r (a2 (i + 1)))).fl hu hf
          exact (((r α).mul hu h3).fl hu hf).mono hu (by norm_num) le_rfl
        exact comb (comb2 hb i) i

omit hu hf in
theorem mulX_abs_nonneg (a : ℕ → K) (i : ℕ) : 0 ≤ mulX (fun j => |a j|) i := by
  match i with
  | 0 => exact abs_nonneg _
  | 1 => exact add_nonneg (mul_nonneg two_pos.le (abs_nonneg _)) (abs_nonneg _)
  | i + 2 => exact add_nonneg (abs_nonneg _) (abs_nonneg _)

omit hu hf in
theorem maj_nonneg (α β : K) (a1 a2 : ℕ → K) (i : ℕ) : 0 ≤ maj α β a1 a2 i := by
  unfold maj
  have := mulX_abs_nonneg a2 i
  positivity

/-- One rounded column step: the three-term recurrence up to rounding and the dropped entry. -/
theorem tStepF_spec {thr : K} (hthr : 0 ≤ thr) (coeffs : ℕ → ι → K) (α β : K) (s : TState K (ι → K)) (col : ℕ) (hs : TSupp s) :
    ((tStepF fl thr coeffs α β s col).maxRow = s.maxRow ∨ (tStepF fl thr coeffs α β s col).maxRow = s.maxRow + 1) ∧
      (∀ i, |(tStepF fl thr coeffs α β s col).arr2 i - (-s.arr1 i + α * mulX s.arr2 i + 2 * β * s.arr2 i)|
        ≤ ((1 + u) ^ 5 - 1) * maj α β s.arr1 s.arr2 i + if i = s.maxRow then thr else 0) ∧
      (∀ i, (tStepF fl thr coeffs α β s col).maxRow ≤ i → (tStepF fl thr coeffs α β s col).arr2 i = 0) ∧
      (∀ i k, (tStepF fl thr coeffs α β s col).out i k
        = fl (s.out i k + fl (coeffs col k * (tStepF fl thr coeffs α β s col).arr2 i))) := by
  have hR := hs.two_le
  have h00 := fl0_of hu hf
  have hX : ∀ i, s.maxRow < i → mulX s.arr2 i = 0 := by
    intro i hi
    rw [mulX_of_two_le _ (by omega), hs.z2 (i - 1) (by omega), hs.z2 (i + 1) (by omega)]; simp
  have hXR : mulX s.arr2 s.maxRow = s.arr2 (s.maxRow - 1) := by
    rw [mulX_of_two_le _ hR, hs.z2 (s.maxRow + 1) (by omega)]; simp
  have hε : 0 ≤ (1 + u) ^ 5 - 1 := by linarith [one_le_pow_u hu 5]
  have hlt : ∀ i, i < s.maxRow → |rowValF fl α β s.maxRow s.arr1 s.arr2 i - (-s.arr1 i + α * mulX s.arr2 i + 2 * β * s.arr2 i)|
      ≤ ((1 + u) ^ 5 - 1) * maj α β s.arr1 s.arr2 i + if i = s.maxRow then thr else 0 := by
    intro i hi
    rw [if_neg (by omega), add_zero]
    exact (rowValF_near hu hf α β hR s.arr1 s.arr2 hs.z2 hi).err
  have hgt : ∀ i, s.maxRow < i → |0 - (-s.arr1 i + α * mulX s.arr2 i + 2 * β * s.arr2 i)|
      ≤ ((1 + u) ^ 5 - 1) * maj α β s.arr1 s.arr2 i + if i = s.maxRow then thr else 0 := by
    intro i hi
    rw [hs.z1 i hi.le, hs.z2 i hi.le, hX i hi, if_neg (by omega)]
    simp only [neg_zero, mul_zero, add_zero, sub_zero, abs_zero]
    exact mul_nonneg hε (maj_nonneg _ _ _ _ _)
  have hmajR : |α * s.arr2 (s.maxRow - 1)| ≤ maj α β s.arr1 s.arr2 s.maxRow := by
    unfold maj
    rw [abs_mul, mulX_of_two_le _ hR]
    have h1 := abs_nonneg (s.arr1 s.maxRow)
    have h2 : 0 ≤ |α| * |s.arr2 (s.maxRow + 1)| := by positivity
    have h3 : 0 ≤ 2 * |β| * |s.arr2 s.maxRow| := by positivity
    rw [mul_add]
    linarith
  have hu5 : u ≤ (1 + u) ^ 5 - 1 := by
    have : (1 + u) ^ 1 ≤ (1 + u) ^ 5 := pow_le_pow_right₀ (by linarith) (by norm_num)
    rw [pow_one] at this
    linarith
  have hRexact : -s.arr1 s.maxRow + α * mulX s.arr2 s.maxRow + 2 * β * s.arr2 s.maxRow = α * s.arr2 (s.maxRow - 1) := by
    rw [hs.z1 _ le_rfl, hs.z2 _ le_rfl, hXR]; ring
  have hround : |fl (α * s.arr2 (s.maxRow - 1)) - α * s.arr2 (s.maxRow - 1)| ≤ ((1 + u) ^ 5 - 1) * maj α β s.arr1 s.arr2 s.maxRow :=
    (hf _).trans (mul_le_mul hu5 hmajR (abs_nonneg _) hε)
  by_cases hfv : |fl (α * s.arr2 (s.maxRow - 1))| > thr
  · refine ⟨Or.inr (by simp [tStepF, hfv]), ?_, ?_, ?_⟩
    · intro i
      simp only [tStepF, hfv, if_true, tRowsF_eq fl _ α β s hR, putRowF]
      by_cases hi : i = s.maxRow
      · subst hi
        rw [Function.update_self, hRexact, if_pos rfl]
        linarith
      · rw [Function.update_of_ne hi]
        by_cases h : i < s.maxRow
        · simp only [h, if_true]
          exact hlt i h
        · have h1 : s.maxRow < i := by omega
          simp only [h, if_false, hs.z3 i h1.le]
          exact hgt i h1
    · intro i hi
      simp only [tStepF, hfv, if_true, tRowsF_eq fl _ α β s hR, putRowF] at hi ⊢
      have h1 : s.maxRow < i := by omega
      rw [Function.update_of_ne (by omega)]
      simp only [show ¬ i < s.maxRow by omega, if_false, hs.z3 i h1.le]
    · intro i k
      simp only [tStepF, hfv, if_true, tRowsF_eq fl _ α β s hR, putRowF]
      by_cases hi : i = s.maxRow
      · subst hi
        simp
      · rw [Function.update_of_ne hi, Function.update_of_ne hi]
        by_cases h : i < s.maxRow
        · simp only [h, if_true]
        · have h1 : s.maxRow ≤ i := by omega
          simp only [h, if_false, hs.z3 i h1, hs.zo i h1, mul_zero, h00, add_zero, Pi.zero_apply]
  · refine ⟨Or.inl (by simp [tStepF, hfv]), ?_, ?_, ?_⟩
    · intro i
      simp only [tStepF, hfv, if_false, tRowsF_eq fl _ α β s hR]
      by_cases h : i < s.maxRow
      · simp only [h, if_true]
        exact hlt i h
      · have h1 : s.maxRow ≤ i := by omega
        simp only [h, if_false, hs.z3 i h1]
        by_cases hi : i = s.maxRow
        · subst hi
          rw [hRexact, if_pos rfl, zero_sub, abs_neg]
          have h2 : |α * s.arr2 (s.maxRow - 1)| ≤ |fl (α * s.arr2 (s.maxRow - 1))| +
              |fl (α * s.arr2 (s.maxRow - 1)) - α * s.arr2 (s.maxRow - 1)| := by
            have := abs_sub (fl (α * s.arr2 (s.maxRow - 1))) (fl (α * s.arr2 (s.maxRow - 1)) - α * s.arr2 (s.maxRow - 1))
            rwa [sub_sub_cancel] at this
          linarith [not_lt.1 hfv]
        · exact hgt i (by omega)
    · intro i hi
      simp only [tStepF, hfv, if_false, tRowsF_eq fl _ α β s hR] at hi ⊢
      simp only [show ¬ i < s.maxRow by omega, if_false, hs.z3 i hi]
    · intro i k
      simp only [tStepF, hfv, if_false, tRowsF_eq fl _ α β s hR]
      by_cases h : i < s.maxRow
      · simp only [h, if_true]
      · have h1 : s.maxRow ≤ i := by omega
        simp only [h, if_false, hs.z3 i h1, hs.zo i h1, mul_zero, h00, add_zero, Pi.zero_apply]

omit hu hf in
theorem tStepF_arr1 (thr : K) (coeffs : ℕ → ι → K) (α β : K) (s : TState K (ι → K)) (col : ℕ) :
    (tStepF fl thr coeffs α β s col).arr1 = s.arr2 := rfl

omit hu hf in
theorem TSupp.initF (coeffs : ℕ → ι → K) (α β : K) : TSupp (tInitF fl coeffs α β) where
  two_le := le_rfl
  z1 i hi := by
    have : i ≠ 0 := by simp [tInitF] at hi; omega
    simp [tInitF, this]
  z2 i hi := by
    have : i ≠ 0 ∧ i ≠ 1 := by simp [tInitF] at hi; omega
    simp [tInitF, this.1, this.2]
  z3 i _ := rfl
  zo i hi := by
    have : i ≠ 0 ∧ i ≠ 1 := by simp [tInitF] at hi; omega
    simp [tInitF, this.1, this.2]
    rfl

theorem TSupp.stepF {thr : K} (hthr : 0 ≤ thr) (coeffs : ℕ → ι → K) (α β : K) (s : TState K (ι → K)) (col : ℕ)
    (hs : TSupp s) : TSupp (tStepF fl thr coeffs α β s col) := by
  obtain ⟨hm, -, hz, ho⟩ := tStepF_spec hu hf hthr coeffs α β s col hs
  have hR := hs.two_le
  refine ⟨by omega, fun i hi => hs.z2 i (by omega), hz, fun i hi => hs.z1 i (by omega), ?_⟩
  intro i hi
  funext k
  rw [ho, hz i hi, hs.zo i (by omega), mul_zero, fl0_of hu hf]
  simp [fl0_of hu hf]

/-- State after processing columns `0 .. m+1`. -/
def tRunF (fl : K → K) (thr : K) (coeffs : ℕ → ι → K) (α β : K) (m : ℕ) : TState K (ι → K) :=
  (List.range' 2 m).foldl (tStepF fl thr coeffs α β) (tInitF fl coeffs α β)

omit hu hf in
theorem tRunF_succ (thr : K) (coeffs : ℕ → ι → K) (α β : K) (m : ℕ) :
    tRunF fl thr coeffs α β (m + 1) = tStepF fl thr coeffs α β (tRunF fl thr coeffs α β m) (m + 2) := by
  simp only [tRunF, List.range'_1_concat, List.foldl_append, List.foldl_cons, List.foldl_nil]
  rw [Nat.add_comm 2 m]

theorem tRunF_supp {thr : K} (hthr : 0 ≤ thr) (coeffs : ℕ → ι → K) (α β : K) (m : ℕ) : TSupp (tRunF fl thr coeffs α β m) := by
  induction m with
  | zero => exact TSupp.initF coeffs α β
  | succ m ih => rw [tRunF_succ]; exact ih.stepF hu hf hthr coeffs α β _ _

theorem tRunF_maxRow_le {thr : K} (hthr : 0 ≤ thr) (coeffs : ℕ → ι → K) (α β : K) (m : ℕ) :
    (tRunF fl thr coeffs α β m).maxRow ≤ m + 2 := by
  induction m with
  | zero => exact le_rfl
  | succ m ih =>
    rw [tRunF_succ]
    have := (tStepF_spec hu hf hthr coeffs α β (tRunF fl thr coeffs α β m) (m + 2) (tRunF_supp hu hf hthr coeffs α β m)).1
    omega

/-- The computed columns of the matrix. -/
def colF (fl : K → K) (thr : K) (coeffs : ℕ → ι → K) (α β : K) : ℕ → ℕ → K
  | 0 => Function.update (fun _ => 0) 0 1
  | c + 1 => (tRunF fl thr coeffs α β c).arr2

omit hu hf in
theorem tRunF_arr1 (thr : K) (coeffs : ℕ → ι → K) (α β : K) (m : ℕ) : (tRunF fl thr coeffs α β m).arr1 = colF fl thr coeffs α β m := by
  cases m with
  | zero => rfl
  | succ m => rw [tRunF_succ]; rfl

/-- The output rows are sums over the computed columns, up to rounding. -/
theorem out_near {thr : K} (hthr : 0 ≤ thr) (coeffs : ℕ → ι → K) (α β : K) (m i : ℕ) (k : ι) :
    Near u (m + 2) ((tRunF fl thr coeffs α β m).out i k) (∑ c ∈ range (m + 2), coeffs c k * colF fl thr coeffs α β c i)
      (∑ c ∈ range (m + 2), |coeffs c k| * |colF fl thr coeffs α β c i|) := by
  induction m with
  | zero =>
    simp only [sum_range_succ, sum_range_zero, zero_add]
    have h0 := fl0_of hu hf
    have r := fun y : K => Near.refl hu y
    by_cases hi : i = 0
    · subst hi
      have h1 := ((r β).mul hu (r (coeffs 1 k))).fl hu hf
      have h2 := (((r (coeffs 0 k)).mono hu (by norm_num : 0 ≤ 0 + 0 + 1) le_rfl).add hu h1).fl hu hf
      have e1 : colF fl thr coeffs α β 0 0 = 1 := by simp [colF]
      have e2 : colF fl thr coeffs α β 1 0 = β := by simp [colF, tRunF, tInitF]
      have e3 : (tRunF fl thr coeffs α β 0).out 0 k = fl (coeffs 0 k + fl (β * coeffs 1 k)) := by simp [tRunF, tInitF]
      rw [e1, e2, e3, mul_one, abs_one, mul_one, mul_comm (coeffs 1 k), mul_comm |coeffs 1 k|]
      exact h2
    · by_cases hi1 : i = 1
      · subst hi1
        have h1 := ((((r α).mul hu (r (coeffs 1 k))).fl hu hf)).fl hu hf
        have e1 : colF fl thr coeffs α β 0 1 = 0 := by simp [colF]
        have e2 : colF fl thr coeffs α β 1 1 = α := by simp [colF, tRunF, tInitF]
        have e3 : (tRunF fl thr coeffs α β 0).out 1 k = fl (fl (α * coeffs 1 k)) := by simp [tRunF, tInitF]
        rw [e1, e2, e3, mul_zero, abs_zero, mul_zero, zero_add, zero_add, mul_comm (coeffs 1 k), mul_comm |coeffs 1 k|]
        exact h1
      · have e1 : colF fl thr coeffs α β 0 i = 0 := by simp [colF, hi]
        have e2 : colF fl thr coeffs α β 1 i = 0 := by simp [colF, tRunF, tInitF, hi, hi1]
        have e3 : (tRunF fl thr coeffs α β 0).out i k = 0 := by simp [tRunF, tInitF, hi, hi1]
        rw [e1, e2, e3]
        refine ⟨by simp, by simp⟩
  | succ m ih =>
    have ho := (tStepF_spec hu hf hthr coeffs α β (tRunF fl thr coeffs α β m) (m + 2) (tRunF_supp hu hf hthr coeffs α β m)).2.2.2 i k
    rw [← tRunF_succ] at ho
    rw [ho, sum_range_succ (n := m + 2), sum_range_succ (n := m + 2)]
    have h1 : Near u 1 (fl (coeffs (m + 2) k * (tRunF fl thr coeffs α β (m + 1)).arr2 i)) (coeffs (m + 2) k * colF fl thr coeffs α β (m + 2) i)
        (|coeffs (m + 2) k| * |colF fl thr coeffs α β (m + 2) i|) :=
      ((Near.refl hu _).mul hu (Near.refl hu _)).fl hu hf
    exact (ih.add hu (h1.mono hu (by omega) le_rfl)).fl hu hf

end Step

section Real

/-- The coefficients of a Chebyshev series that is at most `B` on `[-1, 1]` are at most `2 B`. -/
theorem coef_le_of_bound (R : ℕ) (a : ℕ → ℝ) (B : ℝ) (h : ∀ x : ℝ, |x| ≤ 1 → |colEval R a x| ≤ B) {i : ℕ} (hi : i < R) : |a i| ≤ 2 * B := by
  have hR : 1 ≤ R := by omega
  have hR0 : (0 : ℝ) < R := by positivity
  have hsum : ∑ k ∈ range (R + 1), wt R k = R := by
    have := trap_cos R hR 0
    simpa using this
  have hid : ∑ k ∈ range (R + 1), wt R k * (colEval R a (chebPt R k) * chebT i (chebPt R k)) = a i * (R / (2 * wt R i)) := by
    have e : ∀ k ∈ range (R + 1), wt R k * (colEval R a (chebPt R k) * chebT i (chebPt R k)) =
        ∑ j ∈ range R, a j * (wt R k * (Real.cos (k * (j * Real.pi / R)) * Real.cos (k * (i * Real.pi / R)))) := by
      intro k _
      unfold colEval
      rw [sum_mul, mul_sum]
      apply sum_congr rfl
      intro j _
      rw [chebT_chebPt, chebT_chebPt]
      have e1 : (j : ℝ) * (k * Real.pi / R) = k * (j * Real.pi / R) := by ring
      have e2 : (i : ℝ) * (k * Real.pi / R) = k * (i * Real.pi / R) := by ring
      rw [e1, e2]
      ring
    rw [sum_congr rfl e, sum_comm]
    rw [sum_eq_single i]
    · rw [← mul_sum, trap_cos_mul R hR i i hi.le hi.le, if_pos rfl]
    · intro j hj hji
      rw [← mul_sum, trap_cos_mul R hR j i (mem_range.1 hj).le hi.le, if_neg hji, mul_zero]
    · intro hni
      exact absurd (mem_range.2 hi) hni
  have hB : 0 ≤ B := (abs_nonneg _).trans (h 0 (by simp))
  have hpt : ∀ k, |chebPt R k| ≤ 1 := by
    intro k
    unfold chebPt
    exact Real.abs_cos_le_one _
  have hle : |a i * (R / (2 * wt R i))| ≤ R * B := by
    rw [← hid]
    calc _ ≤ ∑ k ∈ range (R + 1), |wt R k * (colEval R a (chebPt R k) * chebT i (chebPt R k))| := abs_sum_le_sum_abs _ _
      _ ≤ ∑ k ∈ range (R + 1), wt R k * B := by
        apply sum_le_sum
        intro k _
        rw [abs_mul, abs_of_pos (wt_pos R k), abs_mul]
        apply mul_le_mul_of_nonneg_left _ (wt_pos R k).le
        calc _ ≤ B * 1 := mul_le_mul (h _ (hpt k)) (abs_chebT_le_one _ (hpt k)) (abs_nonneg _) hB
          _ = B := mul_one B
      _ = R * B := by rw [← sum_mul, hsum]
  have hw : 0 < wt R i ∧ wt R i ≤ 1 := by
    refine ⟨wt_pos R i, ?_⟩
    unfold wt
    rw [if_neg (by omega : i ≠ R)]
    split <;> norm_num
  rw [abs_mul, abs_of_pos (a := (R : ℝ) / (2 * wt R i)) (div_pos hR0 (by linarith [hw.1]))] at hle
  have h2 : |a i| * (R / 2) ≤ |a i| * (R / (2 * wt R i)) := by
    apply mul_le_mul_of_nonneg_left _ (abs_nonneg _)
    apply div_le_div_of_nonneg_left hR0.le (by linarith [hw.1]) (by linarith [hw.2])
  have h3 : |a i| * R ≤ 2 * B * R := by linarith
  exact le_of_mul_le_mul_right h3 hR0

/-- The value at 1 of a Chebyshev polynomial. -/
theorem chebT_at_one {K : Type*} [Field K] [CharZero K] (i : ℕ) : chebT i (1 : K) = 1 := by
  unfold chebT
  simp

theorem sum_maj (α β : ℝ) (hαβ : |α| + |β| ≤ 1) (a1 a2 : ℕ → ℝ) (R : ℕ) (h2 : ∀ i, R + 1 ≤ i → a2 i = 0) :
    ∑ i ∈ range (R + 2), maj α β a1 a2 i ≤ ∑ i ∈ range (R + 2), |a1 i| + 2 * ∑ i ∈ range (R + 2), |a2 i| := by
  have hX := colEval_mulX (fun j => |a2 j|) (1 : ℝ) R (fun i hi => by simp [h2 i hi])
  unfold colEval at hX
  simp only [chebT_at_one, mul_one] at hX
  unfold maj
  rw [sum_add_distrib, sum_add_distrib, ← mul_sum, ← mul_sum, hX]
  have hA : 0 ≤ ∑ i ∈ range (R + 2), |a2 i| := sum_nonneg fun _ _ => abs_nonneg _
  nlinarith

variable {ι : Type*} {fl : ℝ → ℝ} {u thr : ℝ} (hu : 0 ≤ u) (hf : ∀ x, |fl x - x| ≤ u * |x|) (hthr : 0 ≤ thr)

include hu hf hthr

/-- The computed columns stay close to the columns of the matrix. -/
theorem col_close (coeffs : ℕ → ι → ℝ) {α β : ℝ} (hαβ : |α| + |β| ≤ 1) (R : ℕ) {t : ℝ}
    (ht : ((1 + u) ^ 5 - 1) * (12 * R) + thr ≤ t) (m : ℕ) (hmR : m + 3 ≤ R) (hm1 : t * (m * (m + 1) / 2) ≤ 1) :
    (∀ x : ℝ, |x| ≤ 1 → ∀ k, |chebU k (α * x + β) * (chebT (m + 1) (α * x + β) - colEval R (tRunF fl thr coeffs α β m).arr2 x)
      - chebU' k (α * x + β) * (chebT m (α * x + β) - colEval R (tRunF fl thr coeffs α β m).arr1 x)| ≤ errB t m k) ∧
    ∑ i ∈ range R, |(tRunF fl thr coeffs α β m).arr1 i| ≤ 4 * R ∧ ∑ i ∈ range R, |(tRunF fl thr coeffs α β m).arr2 i| ≤ 4 * R := by
  have hε : 0 ≤ (1 + u) ^ 5 - 1 := by linarith [one_le_pow_u hu 5]
  have hR0 : (0 : ℝ) ≤ R := Nat.cast_nonneg R
  have ht0 : 0 ≤ t := le_trans (add_nonneg (mul_nonneg hε (by positivity)) hthr) ht
  have hy : ∀ x : ℝ, |x| ≤ 1 → |α * x + β| ≤ 1 := by
    intro x hx
    refine (abs_add_le _ _).trans (le_trans ?_ hαβ)
    rw [abs_mul]
    have := mul_le_of_le_one_right (abs_nonneg α) hx
    linarith
  -- from closeness to the bound on the coefficients
  have key : ∀ m : ℕ, t * (m * (m + 1) / 2) ≤ 1 → (∀ x : ℝ, |x| ≤ 1 → ∀ k,
      |chebU k (α * x + β) * (chebT (m + 1) (α * x + β) - colEval R (tRunF fl thr coeffs α β m).arr2 x)
      - chebU' k (α * x + β) * (chebT m (α * x + β) - colEval R (tRunF fl thr coeffs α β m).arr1 x)| ≤ errB t m k) →
      ∑ i ∈ range R, |(tRunF fl thr coeffs α β m).arr2 i| ≤ 4 * R := by
    intro m hm h
    have hb : ∀ x : ℝ, |x| ≤ 1 → |colEval R (tRunF fl thr coeffs α β m).arr2 x| ≤ 2 := by
      intro x hx
      have h1 := (err_zero (h x hx)).trans hm
      have h2 := abs_chebT_le_one (m + 1) (hy x hx)
      have := abs_sub (chebT (m + 1) (α * x + β)) (chebT (m + 1) (α * x + β) - colEval R (tRunF fl thr coeffs α β m).arr2 x)
      rw [sub_sub_cancel] at this
      linarith
    calc _ ≤ ∑ i ∈ range R, (2 * 2 : ℝ) := sum_le_sum fun i hi => coef_le_of_bound R _ 2 hb (mem_range.1 hi)
      _ = 4 * R := by rw [sum_const, card_range, nsmul_eq_mul]; ring
  induction m with
  | zero =>
    have h0 : ∀ x : ℝ, |x| ≤ 1 → ∀ k,
      |chebU k (α * x + β) * (chebT (0 + 1) (α * x + β) - colEval R (tRunF fl thr coeffs α β 0).arr2 x)
      - chebU' k (α * x + β) * (chebT 0 (α * x + β) - colEval R (tRunF fl thr coeffs α β 0).arr1 x)| ≤ errB t 0 k := by
      intro x _ k
      have e1 : colEval R (tRunF fl thr coeffs α β 0).arr1 x = 1 := tInit_colEval1 (V := ℝ) (fun _ => 0) α β R (by omega) x
      have e2 : colEval R (tRunF fl thr coeffs α β 0).arr2 x = α * x + β := tInit_colEval2 (V := ℝ) (fun _ => 0) α β R (by omega) x
      rw [e1, e2]
      simp [errB]
    refine ⟨h0, ?_, key 0 hm1 h0⟩
    rw [sum_eq_single 0]
    · have : (1 : ℝ) ≤ R := by exact_mod_cast (by omega : 1 ≤ R)
      simp only [tRunF, List.range'_zero, List.foldl_nil, tInitF, Function.update_self, abs_one]
      linarith
    · intro b _ hb
      simp [tRunF, tInitF, hb]
    · intro h
      exact absurd (mem_range.2 (by omega)) h
  | succ m ih =>
    have hm0 : t * (m * (m + 1) / 2) ≤ 1 := by
      refine le_trans (mul_le_mul_of_nonneg_left ?_ ht0) hm1
      push_cast
      have : (0 : ℝ) ≤ m := Nat.cast_nonneg m
      nlinarith
    obtain ⟨i1, i2, i3⟩ := ih (by omega) hm0
    have hs := tRunF_supp hu hf hthr coeffs α β m
    have hle := tRunF_maxRow_le hu hf hthr coeffs α β m
    obtain ⟨R', hR'⟩ : ∃ R', R = R' + 2 := ⟨R - 2, by omega⟩
    have hspec := (tStepF_spec hu hf hthr coeffs α β (tRunF fl thr coeffs α β m) (m + 2) hs).2.1
    rw [← tRunF_succ] at hspec
    have hstep : ∀ x : ℝ, |x| ≤ 1 → ∀ k,
      |chebU k (α * x + β) * (chebT (m + 1 + 1) (α * x + β) - colEval R (tRunF fl thr coeffs α β (m + 1)).arr2 x)
      - chebU' k (α * x + β) * (chebT (m + 1) (α * x + β) - colEval R (tRunF fl thr coeffs α β (m + 1)).arr1 x)| ≤ errB t (m + 1) k := by
      intro x hx
      have ha1 : (tRunF fl thr coeffs α β (m + 1)).arr1 = (tRunF fl thr coeffs α β m).arr2 := by rw [tRunF_succ]; rfl
      rw [ha1]
      refine err_step (d := colEval R (fun i => -(tRunF fl thr coeffs α β m).arr1 i + α * mulX (tRunF fl thr coeffs α β m).arr2 i
        + (2 * β) * (tRunF fl thr coeffs α β m).arr2 i) x - colEval R (tRunF fl thr coeffs α β (m + 1)).arr2 x) (hy x hx) (i1 x hx) ?_ ?_
      · rw [colEval_lin (r := 0), hR', colEval_mulX _ x R' (fun i hi => hs.z2 i (by omega)), chebT_add_two]
        ring
      · unfold colEval
        rw [← sum_sub_distrib]
        calc _ ≤ ∑ i ∈ range R, |((-(tRunF fl thr coeffs α β m).arr1 i + α * mulX (tRunF fl thr coeffs α β m).arr2 i
              + 2 * β * (tRunF fl thr coeffs α β m).arr2 i) * chebT i x - (tRunF fl thr coeffs α β (m + 1)).arr2 i * chebT i x)| :=
              abs_sum_le_sum_abs _ _
          _ ≤ ∑ i ∈ range R, (((1 + u) ^ 5 - 1) * maj α β (tRunF fl thr coeffs α β m).arr1 (tRunF fl thr coeffs α β m).arr2 i
              + if i = (tRunF fl thr coeffs α β m).maxRow then thr else 0) := by
              apply sum_le_sum
              intro i _
              rw [← sub_mul, abs_mul, abs_sub_comm]
              exact (mul_le_of_le_one_right (abs_nonneg _) (abs_chebT_le_one i hx)).trans (hspec i)
          _ ≤ ((1 + u) ^ 5 - 1) * (12 * R) + thr := by
              rw [sum_add_distrib, ← mul_sum]
              have h1 := sum_maj α β hαβ (tRunF fl thr coeffs α β m).arr1 (tRunF fl thr coeffs α β m).arr2 R' (fun i hi => hs.z2 i (by omega))
              rw [← hR'] at h1
              refine add_le_add (mul_le_mul_of_nonneg_left (h1.trans (by linarith)) hε) ?_
              rw [sum_ite_eq']
              split
              · exact le_rfl
              · exact hthr
          _ ≤ t := ht
    refine ⟨hstep, ?_, key (m + 1) hm1 hstep⟩
    rw [tRunF_succ]
    exact i3

/-- Error of the rounded re-expansion of one fibre, from bounds on the columns. -/
theorem fibre_error (coeffs : ℕ → ι → ℝ) (α β : ℝ) (m R : ℕ) (hmR : m + 2 ≤ R) (y x : ℝ) (hx : |x| ≤ 1) (k : ι) {A E : ℝ}
    (hA : ∀ c < m + 2, ∑ i ∈ range R, |colF fl thr coeffs α β c i| ≤ A)
    (hE : ∀ c < m + 2, |chebT c y - colEval R (colF fl thr coeffs α β c) x| ≤ E) :
    |∑ c ∈ range (m + 2), chebT c y * coeffs c k - ∑ i ∈ range (tRunF fl thr coeffs α β m).maxRow, chebT i x * (tRunF fl thr coeffs α β m).out i k|
      ≤ (E + ((1 + u) ^ (m + 2) - 1) * A) * ∑ c ∈ range (m + 2), |coeffs c k| := by
  have hs := tRunF_supp hu hf hthr coeffs α β m
  have hle := tRunF_maxRow_le hu hf hthr coeffs α β m
  have e0 : ∑ i ∈ range (tRunF fl thr coeffs α β m).maxRow, chebT i x * (tRunF fl thr coeffs α β m).out i k =
      ∑ i ∈ range R, chebT i x * (tRunF fl thr coeffs α β m).out i k := by
    apply sum_subset (range_mono (by omega))
    intro i _ hi
    rw [hs.zo i (by simpa using hi)]
    simp
  have e1 : ∑ i ∈ range R, chebT i x * ∑ c ∈ range (m + 2), coeffs c k * colF fl thr coeffs α β c i =
      ∑ c ∈ range (m + 2), colEval R (colF fl thr coeffs α β c) x * coeffs c k := by
    simp only [mul_sum, colEval, sum_mul]
    rw [sum_comm]
    refine sum_congr rfl fun c _ => sum_congr rfl fun i _ => by ring
  rw [e0]
  have e2 : ∑ c ∈ range (m + 2), chebT c y * coeffs c k - ∑ i ∈ range R, chebT i x * (tRunF fl thr coeffs α β m).out i k =
      ∑ c ∈ range (m + 2), (chebT c y - colEval R (colF fl thr coeffs α β c) x) * coeffs c k -
      ∑ i ∈ range R, chebT i x * ((tRunF fl thr coeffs α β m).out i k - ∑ c ∈ range (m + 2), coeffs c k * colF fl thr coeffs α β c i) := by
    simp only [sub_mul, mul_sub, sum_sub_distrib]
    rw [e1]
    ring
  rw [e2, add_mul]
  refine (abs_sub _ _).trans (add_le_add ?_ ?_)
  · rw [mul_sum]
    refine (abs_sum_le_sum_abs _ _).trans (sum_le_sum fun c hc => ?_)
    rw [abs_mul]
    exact mul_le_mul_of_nonneg_right (hE c (mem_range.1 hc)) (abs_nonneg _)
  · have hε : 0 ≤ (1 + u) ^ (m + 2) - 1 := by linarith [one_le_pow_u hu (m + 2)]
    calc _ ≤ ∑ i ∈ range R, ((1 + u) ^ (m + 2) - 1) * ∑ c ∈ range (m + 2), |coeffs c k| * |colF fl thr coeffs α β c i| := by
          refine (abs_sum_le_sum_abs _ _).trans (sum_le_sum fun i _ => ?_)
          rw [abs_mul]
          exact (mul_le_of_le_one_left (abs_nonneg _) (abs_chebT_le_one i hx)).trans (out_near hu hf hthr coeffs α β m i k).err
      _ = ((1 + u) ^ (m + 2) - 1) * ∑ c ∈ range (m + 2), |coeffs c k| * ∑ i ∈ range R, |colF fl thr coeffs α β c i| := by
          rw [← mul_sum, sum_comm]
          simp only [mul_sum]
      _ ≤ ((1 + u) ^ (m + 2) - 1) * ∑ c ∈ range (m + 2), |coeffs c k| * A := by
          apply mul_le_mul_of_nonneg_left _ hε
          exact sum_le_sum fun c hc => mul_le_mul_of_nonneg_left (hA c (mem_range.1 hc)) (abs_nonneg _)
      _ = _ := by rw [← sum_mul]; ring

end Real

section Axis

variable {n : ℕ} {fl : ℝ → ℝ}

theorem transformAxisF_bound (M : Tensor n ℝ) (d : Fin n) (α β : ℝ) {x : Fin n → ℝ} (hx : InCube x) {C : ℝ}
    (h : ∀ k, |∑ c ∈ range (M.shape d), chebT c (α * x d + β) * M.rows d c k -
      ∑ i ∈ range (transform1DF fl (M.rows d) (M.shape d) α β).2, chebT i (x d) * (transform1DF fl (M.rows d) (M.shape d) α β).1 i k|
        ≤ C * ∑ c ∈ range (M.shape d), |M.rows d c k|) :
    |M.eval (Function.update x d (α * x d + β)) - (transformAxisF fl M d α β).eval x| ≤ C * M.absSum := by
  rw [transformAxisF, ofRows_eval, eval_axis M d]
  simp only [rowL_update, Function.update_self, rowL_apply]
  have e1 : ∑ j ∈ range (M.shape d), chebT j (α * x d + β) * ∑ k ∈ restIdx M.shape d, M.rows d j k * ∏ i ∈ univ.erase d, chebT (k i) (x i) =
      ∑ k ∈ restIdx M.shape d, (∑ c ∈ range (M.shape d), chebT c (α * x d + β) * M.rows d c k) * ∏ i ∈ univ.erase d, chebT (k i) (x i) := by
    simp only [mul_sum, sum_mul]
    rw [sum_comm]
    refine sum_congr rfl fun k _ => sum_congr rfl fun c _ => by ring
  have e2 : ∀ k, outEval (transform1DF fl (M.rows d) (M.shape d) α β).2 (transform1DF fl (M.rows d) (M.shape d) α β).1 (x d) k =
      ∑ i ∈ range (transform1DF fl (M.rows d) (M.shape d) α β).2, chebT i (x d) * (transform1DF fl (M.rows d) (M.shape d) α β).1 i k := by
    intro k
    unfold outEval
    rw [Finset.sum_apply]
    rfl
  rw [e1, ← sum_sub_distrib]
  have e3 : M.absSum = ∑ k ∈ restIdx M.shape d, ∑ c ∈ range (M.shape d), |M.rows d c k| := by
    unfold Tensor.absSum Tensor.idx
    rw [sum_piFinset_axis _ d, sum_comm]
    rfl
  rw [e3, mul_sum]
  refine (abs_sum_le_sum_abs _ _).trans (sum_le_sum fun k _ => ?_)
  rw [← sub_mul, abs_mul, e2, abs_prod]
  refine (mul_le_of_le_one_right (abs_nonneg _) ?_).trans (h k)
  exact prod_le_one (fun _ _ => abs_nonneg _) fun i _ => abs_chebT_le_one _ (hx i)

theorem transformNDF_cases (M : Tensor n ℝ) (d : Fin n) (α β : ℝ) :
    (transformNDF fl M d α β = M ∧ ((α = 1 ∧ β = 0) ∨ M.shape d = 1)) ∨
    (M.shape d ≠ 1 ∧ ∃ (σ : Equiv.Perm (Fin n)) (z : Fin n), σ z = d ∧
      transformNDF fl M d α β = (transformAxisF fl (M.transpose σ) z α β).transpose σ.symm) := by
  unfold transformNDF
  split
  · left; exact ⟨rfl, by assumption⟩
  · rename_i h
    right
    rw [not_or] at h
    refine ⟨h.2, ?_⟩
    split
    · exact ⟨Equiv.refl _, d, rfl, rfl⟩
    · exact ⟨moveAxisOrder d, ⟨0, d.pos⟩, moveAxisOrder_zero d, rfl⟩

theorem transformNDF_bound (M : Tensor n ℝ) (d : Fin n) (hN : 0 < M.shape d) (α β : ℝ) {x : Fin n → ℝ} (hx : InCube x) {C : ℝ} (hC : 0 ≤ C)
    (h : 2 ≤ M.shape d → ∀ coeffs : ℕ → (Fin n → ℕ) → ℝ, ∀ k, |∑ c ∈ range (M.shape d), chebT c (α * x d + β) * coeffs c k -
      ∑ i ∈ range (transform1DF fl coeffs (M.shape d) α β).2, chebT i (x d) * (transform1DF fl coeffs (M.shape d) α β).1 i k|
        ≤ C * ∑ c ∈ range (M.shape d), |coeffs c k|) :
    |M.eval (Function.update x d (α * x d + β)) - (transformNDF fl M d α β).eval x| ≤ C * M.absSum := by
  have hS : 0 ≤ M.absSum := Finset.sum_nonneg fun _ _ => abs_nonneg _
  rcases transformNDF_cases (fl := fl) M d α β with ⟨h0, h1 | h1⟩ | ⟨hne, σ, z, hz, h0⟩
  · rw [h0, h1.1, h1.2]; simpa using mul_nonneg hC hS
  · have : M.eval (Function.update x d (α * x d + β)) = M.eval x := by
      rw [eval_axis M d, eval_axis M d, h1]; simp [rowL_update]
    rw [h0, this, sub_self, abs_zero]; exact mul_nonneg hC hS
  · have h1 : (M.transpose σ).shape z = M.shape d := by simp [Tensor.transpose, hz]
    rw [h0, transpose_eval, Equiv.symm_symm]
    have hb := transformAxisF_bound (fl := fl) (M.transpose σ) z α β (x := fun i => x (σ i)) (fun i => hx _) (C := C) (by
      intro k
      rw [h1, hz]
      exact h (by omega) _ k)
    rw [transpose_eval, update_comp_perm, transpose_absSum, hz] at hb
    exact hb

end Axis

end YRoots
