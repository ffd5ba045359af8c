import Verif.Model.Transform
import Mathlib.Algebra.BigOperators.Intervals
import Mathlib.Tactic.NormNum
import Mathlib.Tactic.FieldSimp
import Mathlib.Tactic.Positivity
import Mathlib.Tactic.Abel
import Mathlib.Tactic.LinearCombination

/-!
# Helper lemmas for the one-dimensional re-expansion
-/

set_option linter.unusedSectionVars false
set_option linter.unusedSimpArgs false

namespace YRoots

open Finset

section Alg

variable {K : Type*} [Field K]

/-- Coefficients of `2 x * ∑ a_i T_i`. -/
def mulX (a : ℕ → K) : ℕ → K
  | 0 => a 1
  | 1 => 2 * a 0 + a 2
  | i + 2 => a (i + 1) + a (i + 3)

theorem mulX_of_two_le (a : ℕ → K) {i : ℕ} (h : 2 ≤ i) : mulX a i = a (i - 1) + a (i + 1) := by
  obtain ⟨j, rfl⟩ := Nat.exists_eq_add_of_le' h
  simp [mulX]

/-- Value of a column with entries `a 0 .. a (R-1)`. -/
noncomputable def colEval (R : ℕ) (a : ℕ → K) (x : K) : K := ∑ i ∈ range R, a i * chebT i x

theorem sum_mulX (a : ℕ → K) (x : K) (R : ℕ) :
    ∑ i ∈ range (R + 2), mulX a i * chebT i x
      = 2 * x * ∑ i ∈ range (R + 1), a i * chebT i x + a (R + 1) * chebT R x
        + a (R + 2) * chebT (R + 1) x := by
  induction R with
  | zero => simp [sum_range_succ, mulX]; ring
  | succ R ih =>
    rw [sum_range_succ, ih, sum_range_succ (n := R + 1)]
    simp only [mulX]
    have := two_mul_chebT R x
    linear_combination (-a (R + 1)) * this

theorem colEval_mulX (a : ℕ → K) (x : K) (R : ℕ) (ha : ∀ i, R + 1 ≤ i → a i = 0) :
    colEval (R + 2) (mulX a) x = 2 * x * colEval (R + 2) a x := by
  unfold colEval
  rw [sum_mulX, sum_range_succ (n := R + 1)]
  rw [ha (R + 1) le_rfl, ha (R + 2) (by omega)]
  ring

theorem colEval_lin (R : ℕ) (a b : ℕ → K) (p q r : K) (x : K) :
    colEval R (fun i => -a i + p * mulX b i + q * b i) x
      = -colEval R a x + p * colEval R (mulX b) x + q * colEval R b x := by
  simp only [colEval, Finset.mul_sum, ← Finset.sum_neg_distrib, ← Finset.sum_add_distrib]
  apply Finset.sum_congr rfl
  intros; ring

/-- Cut a buffer off at row `R`. -/
def trunc (R : ℕ) (a : ℕ → K) : ℕ → K := fun i => if i < R then a i else 0

end Alg

section Fold

variable {K : Type*} [Field K] [LinearOrder K]
variable {V : Type*} [AddCommGroup V] [Module K V]

theorem foldl_putRow (c : V) (f : ℕ → K) (l : List ℕ) (hl : l.Nodup) (p : (ℕ → K) × (ℕ → V)) :
    l.foldl (fun p i => putRow c i (f i) p) p
      = (fun j => if j ∈ l then f j else p.1 j, fun j => if j ∈ l then p.2 j + f j • c else p.2 j) := by
  induction l generalizing p with
  | nil => simp
  | cons a l ih =>
    have ha : a ∉ l := (List.nodup_cons.1 hl).1
    rw [List.foldl_cons, ih (List.nodup_cons.1 hl).2]
    ext j
    · by_cases hj : j = a
      · subst hj; simp [putRow, ha]
      · simp [putRow, hj]
    · by_cases hj : j = a
      · subst hj; simp [putRow, ha]
      · simp [putRow, hj]

/-- The rows `< maxRow` of the new column, in closed form. -/
def rowVal (α β : K) (R : ℕ) (a1 a2 : ℕ → K) (i : ℕ) : K :=
  -a1 i + α * mulX (trunc R a2) i + 2 * β * a2 i

theorem rowVal_zero (α β : K) {R : ℕ} (hR : 2 ≤ R) (a1 a2 : ℕ → K) :
    rowVal α β R a1 a2 0 = -a1 0 + α * a2 1 + 2 * β * a2 0 := by
  have : 1 < R := by omega
  simp [rowVal, mulX, trunc, this]

theorem rowVal_one (α β : K) {R : ℕ} (hR : 2 < R) (a1 a2 : ℕ → K) :
    rowVal α β R a1 a2 1 = -a1 1 + α * (2 * a2 0 + a2 2) + 2 * β * a2 1 := by
  have h0 : 0 < R := by omega
  simp [rowVal, mulX, trunc, hR, h0]

theorem rowVal_mid (α β : K) {R i : ℕ} (h1 : 2 ≤ i) (h2 : i + 1 < R) (a1 a2 : ℕ → K) :
    rowVal α β R a1 a2 i = -a1 i + α * (a2 (i - 1) + a2 (i + 1)) + 2 * β * a2 i := by
  have h3 : i - 1 < R := by omega
  rw [rowVal, mulX_of_two_le _ h1]; simp [trunc, h2, h3]

theorem rowVal_last (α β : K) {R : ℕ} (hR : 2 ≤ R) (a1 a2 : ℕ → K) :
    rowVal α β R a1 a2 (R - 1) = -a1 (R - 1)
      + (if R - 1 = 1 then 2 else 1) * α * a2 (R - 1 - 1) + 2 * β * a2 (R - 1) := by
  by_cases h : R - 1 = 1
  · have hR2 : R = 2 := by omega
    subst hR2
    simp [rowVal, mulX, trunc]; ring
  · have h3 : 2 ≤ R - 1 := by omega
    have h4 : R - 1 - 1 < R := by omega
    have h5 : ¬ (R - 1 + 1 < R) := by omega
    rw [rowVal, mulX_of_two_le _ h3]
    simp only [trunc, h4, h5, h, if_true, if_false]
    ring

theorem tRows_eq (c : V) (α β : K) (s : TState K V) (hR : 2 ≤ s.maxRow) :
    tRows c α β s =
      (fun j => if j < s.maxRow then rowVal α β s.maxRow s.arr1 s.arr2 j else s.arr3 j,
       fun j => if j < s.maxRow then s.out j + rowVal α β s.maxRow s.arr1 s.arr2 j • c
        else s.out j) := by
  unfold tRows
  simp only []
  have hnd : (List.range' 2 (s.maxRow - 1 - 2)).Nodup := List.nodup_range'
  rw [foldl_putRow c (fun i => -s.arr1 i + α * (s.arr2 (i - 1) + s.arr2 (i + 1)) + 2 * β * s.arr2 i)
    _ hnd]
  have key : ∀ j, (j < s.maxRow ↔ j = 0 ∨ (j = 1 ∧ 2 < s.maxRow) ∨
      j ∈ List.range' 2 (s.maxRow - 1 - 2) ∨ j = s.maxRow - 1) := by
    intro j; simp only [List.mem_range'_1]; omega
  have hv0 := rowVal_zero α β hR s.arr1 s.arr2
  have hvl := rowVal_last α β hR s.arr1 s.arr2
  ext j
  · by_cases hjl : j = s.maxRow - 1
    · subst hjl
      have : s.maxRow - 1 < s.maxRow := by omega
      simp only [putRow, Function.update_self, this, if_true, hvl]
    · simp only [putRow, ne_eq, hjl, not_false_eq_true, Function.update_of_ne]
      by_cases hjm : j ∈ List.range' 2 (s.maxRow - 1 - 2)
      · have hj : j < s.maxRow := (key j).2 (by tauto)
        have hm := List.mem_range'_1.1 hjm
        simp only [hjm, hj, if_true]
        rw [rowVal_mid α β hm.1 (by omega)]
      · simp only [hjm, if_false]
        by_cases hj1 : j = 1
        · subst hj1
          have h2 : 2 < s.maxRow := by omega
          have h3 : 1 < s.maxRow := by omega
          simp [h2, h3, rowVal_one α β h2]
        · by_cases hj0 : j = 0
          · subst hj0
            have h3 : 0 < s.maxRow := by omega
            split <;> simp [h3, hv0]
          · have hj : ¬ j < s.maxRow := by rw [key]; tauto
            split <;> simp [hj, hj0, hj1]
  · by_cases hjl : j = s.maxRow - 1
    · subst hjl
      have h1 : s.maxRow - 1 < s.maxRow := by omega
      have h2 : s.maxRow - 1 ∉ List.range' 2 (s.maxRow - 1 - 2) := by
        simp only [List.mem_range'_1]; omega
      have h0 : s.maxRow - 1 ≠ 0 := by omega
      simp only [putRow, Function.update_self, h1, if_true, hvl, h2, if_false]
      congr 1
      split
      · have : s.maxRow - 1 ≠ 1 := by omega
        simp [this, h0]
      · simp [h0]
    · simp only [putRow, ne_eq, hjl, not_false_eq_true, Function.update_of_ne]
      by_cases hjm : j ∈ List.range' 2 (s.maxRow - 1 - 2)
      · have hj : j < s.maxRow := (key j).2 (by tauto)
        have hm := List.mem_range'_1.1 hjm
        have h0 : j ≠ 0 := by omega
        have h1 : j ≠ 1 := by omega
        simp only [hjm, hj, if_true]
        rw [rowVal_mid α β hm.1 (by omega)]
        split <;> simp [h0, h1]
      · simp only [hjm, if_false]
        by_cases hj1 : j = 1
        · subst hj1
          have h2 : 2 < s.maxRow := by omega
          have h3 : 1 < s.maxRow := by omega
          simp [h2, h3, rowVal_one α β h2]
        · by_cases hj0 : j = 0
          · subst hj0
            have h3 : 0 < s.maxRow := by omega
            split <;> simp [h3, hv0]
          · have hj : ¬ j < s.maxRow := by rw [key]; tauto
            split <;> simp [hj, hj0, hj1]

/-- Buffers vanish from row `maxRow` on. -/
structure TSupp (s : TState K V) : Prop where
  two_le : 2 ≤ s.maxRow
  z1 : ∀ i, s.maxRow ≤ i → s.arr1 i = 0
  z2 : ∀ i, s.maxRow ≤ i → s.arr2 i = 0
  z3 : ∀ i, s.maxRow ≤ i → s.arr3 i = 0
  zo : ∀ i, s.maxRow ≤ i → s.out i = 0

theorem TSupp.init (coeffs : ℕ → V) (α β : K) : TSupp (tInit coeffs α β) where
  two_le := le_rfl
  z1 i hi := by
    have : i ≠ 0 := by simp [tInit] at hi; omega
    simp [tInit, this]
  z2 i hi := by
    have : i ≠ 0 ∧ i ≠ 1 := by simp [tInit] at hi; omega
    simp [tInit, this.1, this.2]
  z3 i _ := rfl
  zo i hi := by
    have : i ≠ 0 ∧ i ≠ 1 := by simp [tInit] at hi; omega
    simp [tInit, this.1, this.2]

/-- Closed form of one column step: the new column is the exact three-term recurrence, up to the
possibly dropped entry `δ` in row `maxRow`. -/
theorem tStep_spec (thr : K) (coeffs : ℕ → V) (α β : K) (s : TState K V) (col : ℕ)
    (hs : TSupp s) :
    ∃ δ : K, ((δ = 0 ∧ (tStep thr coeffs α β s col).maxRow = s.maxRow + 1) ∨
        (|δ| ≤ thr ∧ (tStep thr coeffs α β s col).maxRow = s.maxRow)) ∧
      (∀ i, (tStep thr coeffs α β s col).arr2 i
        = -s.arr1 i + α * mulX s.arr2 i + 2 * β * s.arr2 i - if i = s.maxRow then δ else 0) ∧
      (∀ i, (tStep thr coeffs α β s col).out i
        = s.out i + (tStep thr coeffs α β s col).arr2 i • coeffs col) := by
  have hR := hs.two_le
  have htr : trunc s.maxRow s.arr2 = s.arr2 := by
    funext i; unfold trunc; split
    · rfl
    · rw [hs.z2 i (by omega)]
  have hX : ∀ i, s.maxRow < i → mulX s.arr2 i = 0 := by
    intro i hi
    rw [mulX_of_two_le _ (by omega), hs.z2 (i - 1) (by omega), hs.z2 (i + 1) (by omega)]; simp
  have hXR : mulX s.arr2 s.maxRow = s.arr2 (s.maxRow - 1) := by
    rw [mulX_of_two_le _ hR, hs.z2 (s.maxRow + 1) (by omega)]; simp
  have hrv : ∀ i, rowVal α β s.maxRow s.arr1 s.arr2 i
      = -s.arr1 i + α * mulX s.arr2 i + 2 * β * s.arr2 i := by
    intro i; simp [rowVal, htr]
  by_cases hf : |α * s.arr2 (s.maxRow - 1)| > thr
  · refine ⟨0, Or.inl ⟨rfl, by simp [tStep, hf]⟩, ?_, ?_⟩
    · intro i
      simp only [tStep, hf, if_true, tRows_eq _ α β s hR, putRow, ite_self, sub_zero]
      by_cases hi : i = s.maxRow
      · subst hi
        simp [hs.z1 s.maxRow le_rfl, hs.z2 s.maxRow le_rfl, hXR]
      · rw [Function.update_of_ne hi]
        by_cases hlt : i < s.maxRow
        · simp [hlt, hrv]
        · have h1 : s.maxRow ≤ i := by omega
          have h2 : s.maxRow < i := by omega
          simp [hlt, hs.z1 i h1, hs.z2 i h1, hs.z3 i h1, hX i h2]
    · intro i
      simp only [tStep, hf, if_true, tRows_eq _ α β s hR, putRow]
      by_cases hi : i = s.maxRow
      · subst hi; simp
      · rw [Function.update_of_ne hi, Function.update_of_ne hi]
        by_cases hlt : i < s.maxRow
        · simp [hlt]
        · have h1 : s.maxRow ≤ i := by omega
          simp [hlt, hs.z3 i h1]
  · refine ⟨α * s.arr2 (s.maxRow - 1), Or.inr ⟨le_of_not_gt hf, by simp [tStep, hf]⟩, ?_, ?_⟩
    · intro i
      simp only [tStep, hf, if_false, tRows_eq _ α β s hR]
      by_cases hlt : i < s.maxRow
      · have : i ≠ s.maxRow := by omega
        simp [hlt, hrv, this]
      · have h1 : s.maxRow ≤ i := by omega
        by_cases hi : i = s.maxRow
        · subst hi
          simp [hs.z1 s.maxRow le_rfl, hs.z2 s.maxRow le_rfl, hs.z3 s.maxRow le_rfl, hXR]
        · have h2 : s.maxRow < i := by omega
          simp [hlt, hs.z1 i h1, hs.z2 i h1, hs.z3 i h1, hX i h2, hi]
    · intro i
      simp only [tStep, hf, if_false, tRows_eq _ α β s hR]
      by_cases hlt : i < s.maxRow
      · simp [hlt]
      · have h1 : s.maxRow ≤ i := by omega
        simp [hlt, hs.z3 i h1]

theorem tStep_arr1 (thr : K) (coeffs : ℕ → V) (α β : K) (s : TState K V) (col : ℕ) :
    (tStep thr coeffs α β s col).arr1 = s.arr2 := rfl

theorem tStep_arr3 (thr : K) (coeffs : ℕ → V) (α β : K) (s : TState K V) (col : ℕ) :
    (tStep thr coeffs α β s col).arr3 = s.arr1 := rfl

theorem TSupp.step (thr : K) (coeffs : ℕ → V) (α β : K) (s : TState K V) (col : ℕ)
    (hs : TSupp s) : TSupp (tStep thr coeffs α β s col) := by
  obtain ⟨δ, hδ, ha, ho⟩ := tStep_spec thr coeffs α β s col hs
  have hR := hs.two_le
  have hge : s.maxRow ≤ (tStep thr coeffs α β s col).maxRow := by
    rcases hδ with h | h <;> omega
  have h2 : ∀ i, (tStep thr coeffs α β s col).maxRow ≤ i →
      (tStep thr coeffs α β s col).arr2 i = 0 := by
    intro i hi
    rw [ha]
    by_cases hie : i = s.maxRow
    · -- then the entry was dropped
      have hm : (tStep thr coeffs α β s col).maxRow = s.maxRow := by omega
      have hf : ¬ |α * s.arr2 (s.maxRow - 1)| > thr := by
        intro hf; simp [tStep, hf] at hm
      have := ha i
      rw [← this]
      simp only [tStep, hf, if_false, tRows_eq _ α β s hR]
      have : ¬ i < s.maxRow := by omega
      simp [this, hs.z3 i (by omega)]
    · have h1 : s.maxRow ≤ i := by omega
      have hx : mulX s.arr2 i = 0 := by
        rw [mulX_of_two_le _ (by omega), hs.z2 (i - 1) (by omega), hs.z2 (i + 1) (by omega)]; simp
      simp [hie, hs.z1 i h1, hs.z2 i h1, hx]
  refine ⟨by omega, fun i hi => hs.z2 i (by omega), h2, fun i hi => hs.z1 i (by omega), ?_⟩
  intro i hi
  rw [ho, h2 i hi, hs.zo i (by omega)]; simp

/-- Change of the value of the columns. -/
theorem tStep_colEval (thr : K) (coeffs : ℕ → V) (α β : K) (s : TState K V) (col : ℕ)
    (hs : TSupp s) (R : ℕ) (hR : s.maxRow ≤ R) (x : K) :
    ∃ δ : K, ((δ = 0 ∧ (tStep thr coeffs α β s col).maxRow = s.maxRow + 1) ∨
        (|δ| ≤ thr ∧ (tStep thr coeffs α β s col).maxRow = s.maxRow)) ∧
      colEval (R + 1) (tStep thr coeffs α β s col).arr2 x
        = 2 * (α * x + β) * colEval (R + 1) s.arr2 x - colEval (R + 1) s.arr1 x
          - δ * chebT s.maxRow x := by
  obtain ⟨δ, hδ, ha, -⟩ := tStep_spec thr coeffs α β s col hs
  refine ⟨δ, hδ, ?_⟩
  have h2 := hs.two_le
  obtain ⟨R', rfl⟩ : ∃ R', R = R' + 1 := ⟨R - 1, by omega⟩
  have e1 : colEval (R' + 1 + 1) (tStep thr coeffs α β s col).arr2 x
      = colEval (R' + 2) (fun i => -s.arr1 i + α * mulX s.arr2 i + (2 * β) * s.arr2 i) x
        - δ * chebT s.maxRow x := by
    unfold colEval
    rw [eq_sub_iff_add_eq]
    have : δ * chebT s.maxRow x
        = ∑ i ∈ range (R' + 2), (if i = s.maxRow then δ else 0) * chebT i x := by
      rw [Finset.sum_eq_single s.maxRow]
      · simp
      · intro b _ hb; simp [hb]
      · intro h; simp at h; omega
    rw [this, ← Finset.sum_add_distrib]
    apply Finset.sum_congr rfl
    intro i _
    rw [ha]; ring
  rw [e1, colEval_lin (r := 0), colEval_mulX s.arr2 x R' (fun i hi => hs.z2 i (by omega))]
  ring

/-- State after processing columns `0 .. m+1`. -/
def tRun (thr : K) (coeffs : ℕ → V) (α β : K) (m : ℕ) : TState K V :=
  (List.range' 2 m).foldl (tStep thr coeffs α β) (tInit coeffs α β)

theorem tRun_zero (thr : K) (coeffs : ℕ → V) (α β : K) :
    tRun thr coeffs α β 0 = tInit coeffs α β := rfl

theorem tRun_succ (thr : K) (coeffs : ℕ → V) (α β : K) (m : ℕ) :
    tRun thr coeffs α β (m + 1) = tStep thr coeffs α β (tRun thr coeffs α β m) (m + 2) := by
  simp only [tRun, List.range'_1_concat, List.foldl_append, List.foldl_cons, List.foldl_nil]
  rw [Nat.add_comm 2 m]

theorem tRun_supp (thr : K) (coeffs : ℕ → V) (α β : K) (m : ℕ) :
    TSupp (tRun thr coeffs α β m) := by
  induction m with
  | zero => exact TSupp.init coeffs α β
  | succ m ih => rw [tRun_succ]; exact ih.step thr coeffs α β _ _

theorem tRun_maxRow_le (thr : K) (coeffs : ℕ → V) (α β : K) (m : ℕ) :
    (tRun thr coeffs α β m).maxRow ≤ m + 2 := by
  induction m with
  | zero => simp [tRun_zero, tInit]
  | succ m ih =>
    rw [tRun_succ]
    obtain ⟨δ, hδ, -⟩ := tStep_spec thr coeffs α β (tRun thr coeffs α β m) (m + 2)
      (tRun_supp thr coeffs α β m)
    rcases hδ with h | h <;> omega

/-- Weighted sum of output rows. -/
noncomputable def outEval (R : ℕ) (o : ℕ → V) (x : K) : V := ∑ i ∈ range R, chebT i x • o i

theorem outEval_add_smul (R : ℕ) (o : ℕ → V) (a : ℕ → K) (c : V) (x : K) :
    outEval R (fun i => o i + a i • c) x = outEval R o x + colEval R a x • c := by
  simp only [outEval, colEval, Finset.sum_smul, ← Finset.sum_add_distrib]
  apply Finset.sum_congr rfl
  intro i _
  rw [smul_add, smul_smul, mul_comm]

theorem tInit_colEval1 (coeffs : ℕ → V) (α β : K) (R : ℕ) (hR : 1 ≤ R) (x : K) :
    colEval R (tInit coeffs α β).arr1 x = 1 := by
  obtain ⟨R, rfl⟩ := Nat.exists_eq_add_of_le' hR
  unfold colEval
  rw [Finset.sum_range_succ']
  simp [tInit]

theorem tInit_colEval2 (coeffs : ℕ → V) (α β : K) (R : ℕ) (hR : 2 ≤ R) (x : K) :
    colEval R (tInit coeffs α β).arr2 x = α * x + β := by
  obtain ⟨R, rfl⟩ := Nat.exists_eq_add_of_le' hR
  unfold colEval
  rw [Finset.sum_range_succ', Finset.sum_range_succ']
  simp [tInit]

theorem tInit_outEval (coeffs : ℕ → V) (α β : K) (R : ℕ) (hR : 2 ≤ R) (x : K) :
    outEval R (tInit coeffs α β).out x = coeffs 0 + (α * x + β) • coeffs 1 := by
  obtain ⟨R, rfl⟩ := Nat.exists_eq_add_of_le' hR
  unfold outEval
  rw [Finset.sum_range_succ', Finset.sum_range_succ']
  simp only [tInit]
  simp [smul_smul, add_smul]
  rw [mul_comm x α]; abel

theorem tRun_out_succ (thr : K) (coeffs : ℕ → V) (α β : K) (m R : ℕ) (x : K) :
    outEval R (tRun thr coeffs α β (m + 1)).out x
      = outEval R (tRun thr coeffs α β m).out x
        + colEval R (tRun thr coeffs α β (m + 1)).arr2 x • coeffs (m + 2) := by
  rw [← outEval_add_smul]
  congr 1
  funext i
  rw [tRun_succ]
  obtain ⟨δ, -, -, ho⟩ := tStep_spec thr coeffs α β (tRun thr coeffs α β m) (m + 2)
    (tRun_supp thr coeffs α β m)
  exact ho i

theorem tRun_exact (thr : K) (coeffs : ℕ → V) (α β : K) (R : ℕ) (x : K) (m : ℕ) (hmR : m + 3 ≤ R)
    (hm : (tRun thr coeffs α β m).maxRow = m + 2) :
    colEval R (tRun thr coeffs α β m).arr1 x = chebT m (α * x + β) ∧
    colEval R (tRun thr coeffs α β m).arr2 x = chebT (m + 1) (α * x + β) ∧
    outEval R (tRun thr coeffs α β m).out x
      = ∑ c ∈ range (m + 2), chebT c (α * x + β) • coeffs c := by
  induction m with
  | zero =>
    rw [tRun_zero, tInit_colEval1 _ _ _ _ (by omega), tInit_colEval2 _ _ _ _ (by omega),
      tInit_outEval _ _ _ _ (by omega)]
    simp [Finset.sum_range_succ]
  | succ m ih =>
    have hle := tRun_maxRow_le thr coeffs α β m
    obtain ⟨R', rfl⟩ : ∃ R', R = R' + 1 := ⟨R - 1, by omega⟩
    obtain ⟨δ, hδ, hc⟩ := tStep_colEval thr coeffs α β (tRun thr coeffs α β m) (m + 2)
      (tRun_supp thr coeffs α β m) R' (by omega) x
    have hm' := hm
    rw [tRun_succ] at hm'
    have h0 : δ = 0 ∧ (tRun thr coeffs α β m).maxRow = m + 2 := by
      rcases hδ with h | h
      · exact ⟨h.1, by omega⟩
      · exfalso; omega
    obtain ⟨i1, i2, i3⟩ := ih (by omega) h0.2
    have e2 : colEval (R' + 1) (tRun thr coeffs α β (m + 1)).arr2 x
        = chebT (m + 1 + 1) (α * x + β) := by
      rw [tRun_succ, hc, i1, i2, h0.1, chebT_add_two]; ring
    refine ⟨?_, e2, ?_⟩
    · rw [tRun_succ, tStep_arr1]; exact i2
    · rw [tRun_out_succ, i3, e2, Finset.sum_range_succ (n := m + 2)]

/-- Rows beyond the support do not matter. -/
theorem outEval_supp (o : ℕ → V) (x : K) {R R' : ℕ} (h : R ≤ R') (ho : ∀ i, R ≤ i → o i = 0) :
    outEval R' o x = outEval R o x := by
  unfold outEval
  symm
  apply Finset.sum_subset (Finset.range_mono h)
  intro i _ hi
  rw [ho i (by simpa using hi), smul_zero]

end Fold

section Bound

variable {K : Type*} [Field K] [LinearOrder K] [IsStrictOrderedRing K]
variable {V : Type*} [AddCommGroup V] [Module K V]

/-- `U_{k-1}`, with `U_{-1} = 0`. -/
noncomputable def chebU' : ℕ → K → K
  | 0, _ => 0
  | k + 1, y => chebU k y

theorem chebU_rec' (k : ℕ) (y : K) : chebU (k + 1) y = 2 * y * chebU k y - chebU' k y := by
  cases k with
  | zero => simp [chebU']
  | succ k => rw [chebU_add_two]; rfl

/-- Accumulated error allowance after `m` further columns. -/
noncomputable def errB (t : K) (m k : ℕ) : K := t * (m * (k + 1) + m * (m - 1) / 2)

theorem errB_succ (t : K) (m k : ℕ) : errB t (m + 1) k = errB t m (k + 1) + t * (k + 1) := by
  unfold errB; push_cast; ring

/-- Abstract stability of the three-term recurrence. -/
theorem err_step {t y e0 e1 e2 d : K} {m : ℕ} (hy : |y| ≤ 1)
    (h : ∀ k, |chebU k y * e1 - chebU' k y * e0| ≤ errB t m k)
    (he : e2 = 2 * y * e1 - e0 + d) (hd : |d| ≤ t) :
    ∀ k, |chebU k y * e2 - chebU' k y * e1| ≤ errB t (m + 1) k := by
  intro k
  have e : chebU k y * e2 - chebU' k y * e1
      = (chebU (k + 1) y * e1 - chebU' (k + 1) y * e0) + chebU k y * d := by
    rw [he, chebU_rec']; simp only [chebU']; ring
  rw [e, errB_succ]
  refine (abs_add_le _ _).trans (add_le_add (h (k + 1)) ?_)
  rw [abs_mul, mul_comm]
  exact mul_le_mul hd (abs_chebU_le k hy) (abs_nonneg _) ((abs_nonneg _).trans hd)

theorem err_zero {t y e0 e1 : K} {m : ℕ}
    (h : ∀ k, |chebU k y * e1 - chebU' k y * e0| ≤ errB t m k) :
    |e1| ≤ t * (m * (m + 1) / 2) := by
  have := h 0
  simp [chebU', errB] at this
  calc |e1| ≤ _ := this
    _ = _ := by ring

theorem tRun_bound {thr : K} (hthr : 0 ≤ thr) (coeffs : ℕ → V) (α β : K) (R : ℕ) {x : K}
    (hx : |x| ≤ 1) (hy : |α * x + β| ≤ 1) (L : V →ₗ[K] K) (m : ℕ) (hmR : m + 3 ≤ R) :
    (∀ k, |chebU k (α * x + β) *
        (chebT (m + 1) (α * x + β) - colEval R (tRun thr coeffs α β m).arr2 x)
      - chebU' k (α * x + β) *
        (chebT m (α * x + β) - colEval R (tRun thr coeffs α β m).arr1 x)| ≤ errB thr m k) ∧
    |∑ c ∈ range (m + 2), chebT c (α * x + β) * L (coeffs c)
        - L (outEval R (tRun thr coeffs α β m).out x)|
      ≤ thr * (m * (m + 1) / 2) * ∑ c ∈ range (m + 2), |L (coeffs c)| := by
  induction m with
  | zero =>
    rw [tRun_zero, tInit_colEval1 _ _ _ _ (by omega), tInit_colEval2 _ _ _ _ (by omega),
      tInit_outEval _ _ _ _ (by omega)]
    constructor
    · intro k; simp [errB]
    · simp [Finset.sum_range_succ]
  | succ m ih =>
    have hle := tRun_maxRow_le thr coeffs α β m
    obtain ⟨R', rfl⟩ : ∃ R', R = R' + 1 := ⟨R - 1, by omega⟩
    obtain ⟨δ, hδ, hc⟩ := tStep_colEval thr coeffs α β (tRun thr coeffs α β m) (m + 2)
      (tRun_supp thr coeffs α β m) R' (by omega) x
    obtain ⟨i1, i2⟩ := ih (by omega)
    have hd : |δ * chebT (tRun thr coeffs α β m).maxRow x| ≤ thr := by
      rw [abs_mul]
      have h1 : |δ| ≤ thr := by
        rcases hδ with h | h
        · rw [h.1]; simpa using hthr
        · exact h.1
      calc _ ≤ thr * 1 := mul_le_mul h1 (abs_chebT_le_one _ hx) (abs_nonneg _) hthr
        _ = thr := mul_one _
    have hstep := err_step (e2 := chebT (m + 1 + 1) (α * x + β)
      - colEval (R' + 1) (tRun thr coeffs α β (m + 1)).arr2 x) hy i1
      (by rw [tRun_succ, hc, chebT_add_two]; ring) hd
    refine ⟨?_, ?_⟩
    · rw [tRun_succ, tStep_arr1, ← tRun_succ]; exact hstep
    · have he := err_zero hstep
      rw [tRun_out_succ, Finset.sum_range_succ (n := m + 2), Finset.sum_range_succ (n := m + 2),
        map_add, map_smul, smul_eq_mul]
      have split : ∀ a b c d e : K, a + b * c - (d + e * c) = (a - d) + (b - e) * c := by
        intros; ring
      rw [split]
      refine (abs_add_le _ _).trans ?_
      rw [abs_mul]
      have hS : 0 ≤ ∑ c ∈ range (m + 2), |L (coeffs c)| := Finset.sum_nonneg fun _ _ => abs_nonneg _
      have h1 := mul_le_mul_of_nonneg_right he (abs_nonneg (L (coeffs (m + 2))))
      have h2 : thr * (m * (m + 1) / 2 : K) * ∑ c ∈ range (m + 2), |L (coeffs c)|
          ≤ thr * (((m + 1 : ℕ) : K) * (((m + 1 : ℕ) : K) + 1) / 2)
            * ∑ c ∈ range (m + 2), |L (coeffs c)| := by
        apply mul_le_mul_of_nonneg_right _ hS
        apply mul_le_mul_of_nonneg_left _ hthr
        push_cast
        have : (0 : K) ≤ m := Nat.cast_nonneg m
        nlinarith
      calc _ ≤ _ := add_le_add (i2.trans h2) h1
        _ = _ := by ring

end Bound

end YRoots
