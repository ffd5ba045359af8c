import Verif.Model.RowDeps
import Mathlib.LinearAlgebra.Matrix.Block
import Mathlib.LinearAlgebra.Matrix.NonsingularInverse
import Mathlib.LinearAlgebra.LinearIndependent.Defs
import Mathlib.Tactic.Ring
import Mathlib.Tactic.Linarith

/-!
# Helper lemmas: dependent rows
-/

namespace YRoots.Legacy

open Finset

variable {K : Type*} [Field K] [LinearOrder K] [IsStrictOrderedRing K]

/-- Contract of the pivoted factorisation of `A`: `Q` is orthogonal, `A P = Q R`, `R` is upper triangular, and each pivot is the norm of the
longest remaining column. -/
structure PivotQR.ValidAt (L : PivotQR K) {h w : ℕ} (A : Matrix (Fin h) (Fin w) K) : Prop where
  orth : (L.Q A).transpose * L.Q A = 1
  factor : A.submatrix id (L.P A) = L.Q A * L.R A
  upper : ∀ (i : Fin h) (j : Fin w), (j : ℕ) < i → L.R A i j = 0
  pivot : ∀ (k : ℕ) (hh : k < h) (hw : k < w) (j : Fin w), k ≤ j →
    ∑ i ∈ univ.filter (fun i : Fin h => k ≤ i), L.R A i j ^ 2 ≤ L.R A ⟨k, hh⟩ ⟨k, hw⟩ ^ 2

variable {h w : ℕ} {L : PivotQR K}

/-- Rows from a vanishing pivot on vanish. -/
theorem rows_zero {A : Matrix (Fin h) (Fin w) K} (hv : L.ValidAt A) (k : ℕ)
    (hk : ∀ (hh : k < h) (hw : k < w), L.R A ⟨k, hh⟩ ⟨k, hw⟩ = 0) (i : Fin h) (hi : k ≤ i) (j : Fin w) : L.R A i j = 0 := by
  by_cases hji : (j : ℕ) < i
  · exact hv.upper i j hji
  · have hkh : k < h := lt_of_le_of_lt hi i.2
    have hkw : k < w := lt_of_le_of_lt (hi.trans (not_lt.1 hji)) j.2
    have h1 := hv.pivot k hkh hkw j (hi.trans (not_lt.1 hji))
    rw [hk hkh hkw] at h1
    have h2 : L.R A i j ^ 2 ≤ ∑ i ∈ univ.filter (fun i : Fin h => k ≤ i), L.R A i j ^ 2 :=
      single_le_sum (f := fun i => L.R A i j ^ 2) (fun i _ => sq_nonneg _) (mem_filter.2 ⟨mem_univ _, hi⟩)
    have h3 : L.R A i j ^ 2 ≤ 0 := by linarith
    exact pow_eq_zero_iff (two_ne_zero) |>.1 (le_antisymm h3 (sq_nonneg _))

/-- The pivots that are not zero come first. -/
theorem pivot_zero {A : Matrix (Fin h) (Fin w) K} (hv : L.ValidAt A) {k l : ℕ} (hkl : k ≤ l) (hh : l < h) (hw : l < w)
    (hk : L.R A ⟨k, by omega⟩ ⟨k, by omega⟩ = 0) : L.R A ⟨l, hh⟩ ⟨l, hw⟩ = 0 :=
  rows_zero hv k (fun _ _ => hk) ⟨l, hh⟩ hkl ⟨l, hw⟩

/-- A predicate on `0, …, m - 1` that holds on an initial segment holds exactly below the number of places where it holds. -/
theorem countP_initial (m : ℕ) (q : ℕ → Bool) (hq : ∀ k l, k ≤ l → l < m → q l = true → q k = true) :
    ∀ k < m, (q k = true ↔ k < (List.range m).countP q) := by
  induction m with
  | zero => intro k hk; omega
  | succ m ih =>
    have ih' := ih fun k l hkl hl => hq k l hkl (by omega)
    have hle : (List.range m).countP q ≤ m := by simpa using List.countP_le_length (l := List.range m) (p := q)
    intro k hk
    rw [List.range_succ, List.countP_append]
    by_cases hm : q m = true
    · have hall : (List.range m).countP q = m := by
        have := List.countP_eq_length (l := List.range m) (p := q)
        rw [List.length_range] at this
        exact this.2 fun a ha => hq a m (List.mem_range.1 ha).le (by omega) hm
      rw [hall]
      simp only [List.countP_cons, List.countP_nil, hm, if_true]
      exact ⟨fun _ => by omega, fun _ => hq k m (by omega) (by omega) hm⟩
    · simp only [List.countP_cons, List.countP_nil, hm]
      simp only [Bool.false_eq_true, if_false, Nat.add_zero]
      by_cases hkm : k = m
      · subst hkm
        constructor
        · intro h; exact absurd h hm
        · intro h; omega
      · exact ih' k (by omega)

/-- With diagonal entries 0 or above the accuracy, the rank found is where the diagonal entries begin to vanish. -/
theorem diagRank_spec {A : Matrix (Fin h) (Fin w) K} (hv : L.ValidAt A) {acc : K} (hacc : 0 ≤ acc)
    (hgap : ∀ (k : ℕ) (hh : k < h) (hw : k < w), L.R A ⟨k, hh⟩ ⟨k, hw⟩ = 0 ∨ acc < |L.R A ⟨k, hh⟩ ⟨k, hw⟩|) :
    diagRank (L.R A) acc ≤ min h w ∧
      ∀ (k : ℕ) (hh : k < h) (hw : k < w), L.R A ⟨k, hh⟩ ⟨k, hw⟩ ≠ 0 ↔ k < diagRank (L.R A) acc := by
  have hne : ∀ (k : ℕ) (hh : k < h) (hw : k < w), L.R A ⟨k, hh⟩ ⟨k, hw⟩ ≠ 0 ↔ acc < |L.R A ⟨k, hh⟩ ⟨k, hw⟩| := by
    intro k hh hw
    constructor
    · exact (hgap k hh hw).resolve_left
    · intro h1 h0
      rw [h0, abs_zero] at h1
      exact absurd h1 (not_lt.2 hacc)
  set q : ℕ → Bool := fun k => if hk : k < min h w then decide (acc < |L.R A ⟨k, by omega⟩ ⟨k, by omega⟩|) else false with hqd
  have hq : diagRank (L.R A) acc = (List.range (min h w)).countP q := by
    unfold diagRank diagonals
    rw [List.countP_map, ← List.map_coe_finRange_eq_range, List.countP_map]
    apply List.countP_congr
    intro k _
    have : (k : ℕ) < min h w := k.2
    simp only [hqd, Function.comp, dif_pos this, gt_iff_lt]
  refine ⟨?_, fun k hh hw => ?_⟩
  · rw [hq]
    simpa using List.countP_le_length (l := List.range (min h w)) (p := q)
  · have h1 := countP_initial (min h w) q (fun k l hkl hl hql => ?_) k (by omega)
    · rw [hq, ← h1, hne k hh hw]
      have : k < min h w := by omega
      simp only [hqd, dif_pos this, decide_eq_true_eq]
    · have hl' : l < min h w := hl
      have hk' : k < min h w := by omega
      simp only [hqd, dif_pos hl', dif_pos hk', decide_eq_true_eq] at hql ⊢
      rw [← hne] at hql ⊢
      intro h0
      exact hql (pivot_zero hv hkl _ _ h0)

/-- A row vector that the triangular factor sends to zero vanishes where the pivots do not. -/
theorem upper_inj {R : Matrix (Fin h) (Fin w) K} (hup : ∀ (i : Fin h) (j : Fin w), (j : ℕ) < i → R i j = 0) (r : ℕ) (hrw : r ≤ w)
    (hd : ∀ (k : ℕ) (hh : k < h) (hw : k < w), k < r → R ⟨k, hh⟩ ⟨k, hw⟩ ≠ 0) (u : Fin h → K)
    (hu : ∀ j : Fin w, (j : ℕ) < r → ∑ i, u i * R i j = 0) :
    ∀ k : Fin h, (k : ℕ) < r → u k = 0 := by
  intro k
  induction hk : (k : ℕ) using Nat.strong_induction_on generalizing k with
  | _ k' ih =>
    intro hr
    subst hk
    have h1 := hu ⟨k, by omega⟩ hr
    rw [sum_eq_single k] at h1
    · exact (mul_eq_zero.1 h1).resolve_right (hd k k.2 (by omega) hr)
    · intro i _ hik
      rcases lt_or_gt_of_ne hik with hlt | hgt
      · rw [ih i (by exact_mod_cast hlt) i rfl (by have : (i : ℕ) < k := hlt; omega), zero_mul]
      · rw [hup i _ (by exact_mod_cast hgt), mul_zero]
    · simp

theorem PivotQR.ValidAt.orth' {A : Matrix (Fin h) (Fin w) K} (hv : L.ValidAt A) : L.Q A * (L.Q A).transpose = 1 :=
  mul_eq_one_comm.1 hv.orth

/-- The rows of `Qᵀ` from the rank on annihilate the matrix. -/
theorem lastRows_mul {A : Matrix (Fin h) (Fin w) K} (hv : L.ValidAt A) (r : ℕ)
    (hr : ∀ (hh : r < h) (hw : r < w), L.R A ⟨r, hh⟩ ⟨r, hw⟩ = 0) : lastRows (L.Q A) r * A = 0 := by
  have h1 : (L.Q A).transpose * A.submatrix id (L.P A) = L.R A := by
    rw [hv.factor, ← Matrix.mul_assoc, hv.orth, Matrix.one_mul]
  ext t j
  have h2 := congrFun (congrFun h1 ⟨r + t, by omega⟩) ((L.P A).symm j)
  rw [rows_zero hv r hr _ (by simp) _] at h2
  rw [Matrix.mul_apply] at h2 ⊢
  simpa [lastRows] using h2

/-- The chosen columns of an orthonormal set of rows form an invertible matrix. -/
theorem pivot_columns {m : ℕ} {M : Matrix (Fin m) (Fin h) K} (hm : m ≤ h) (hM : M * M.transpose = 1) (hv : L.ValidAt M) (d : Fin m → K)
    (hd : ∀ s : Fin h, (s : ℕ) < m → ∑ t, d t * M t (L.P M s) = 0) : d = 0 := by
  have hf : ∀ t s, M t (L.P M s) = ∑ i, L.Q M t i * L.R M i s := by
    intro t s
    have := congrFun (congrFun hv.factor t) s
    rw [Matrix.mul_apply] at this
    exact this
  have hRR : L.R M * (L.R M).transpose = 1 := by
    have h1 : L.R M = (L.Q M).transpose * M.submatrix id (L.P M) := by
      rw [hv.factor, ← Matrix.mul_assoc, hv.orth, Matrix.one_mul]
    have h2 : M.submatrix id (L.P M) * (M.submatrix id (L.P M)).transpose = 1 := by
      rw [← hM]
      ext i j
      rw [Matrix.mul_apply, Matrix.mul_apply]
      exact Equiv.sum_comp (L.P M) fun l => M i l * M j l
    calc L.R M * (L.R M).transpose
        = (L.Q M).transpose * (M.submatrix id (L.P M) * (M.submatrix id (L.P M)).transpose) * L.Q M := by
          conv_lhs => rw [h1]
          rw [Matrix.transpose_mul, Matrix.transpose_transpose]
          simp only [Matrix.mul_assoc]
      _ = 1 := by rw [h2, Matrix.mul_one, hv.orth]
  have hdiag : ∀ (k : ℕ) (hh : k < m) (hw : k < h), k < m → L.R M ⟨k, hh⟩ ⟨k, hw⟩ ≠ 0 := by
    intro k hh hw _ h0
    have h1 := congrFun (congrFun hRR ⟨k, hh⟩) ⟨k, hh⟩
    rw [Matrix.mul_apply, Matrix.one_apply_eq, sum_eq_zero] at h1
    · exact zero_ne_one h1
    · intro j _
      rw [rows_zero hv k (fun _ _ => h0) ⟨k, hh⟩ le_rfl j, zero_mul]
  set u : Fin m → K := fun i => ∑ t, d t * L.Q M t i with hu
  have hu0 : ∀ k, u k = 0 := fun k => by
    refine upper_inj hv.upper m hm hdiag u (fun j hj => ?_) k k.2
    rw [← hd j hj]
    simp only [hu, hf, sum_mul, mul_sum]
    rw [sum_comm]
    exact sum_congr rfl fun t _ => sum_congr rfl fun i _ => by ring
  funext t
  have h1 : d t = ∑ i, u i * L.Q M t i := by
    have : ∀ t', ∑ i, L.Q M t' i * L.Q M t i = if t' = t then 1 else 0 := fun t' => by
      have := congrFun (congrFun hv.orth' t') t
      rw [Matrix.mul_apply, Matrix.one_apply] at this
      exact this
    simp only [hu, sum_mul]
    rw [sum_comm]
    have e : ∀ t', ∑ i, d t' * L.Q M t' i * L.Q M t i = d t' * if t' = t then 1 else 0 := fun t' => by
      rw [← this t', mul_sum]
      exact sum_congr rfl fun i _ => by ring
    rw [sum_congr rfl fun t' _ => e t']
    simp
  rw [h1]
  exact sum_eq_zero fun i _ => by rw [hu0, zero_mul]

theorem lastRows_orth {A : Matrix (Fin h) (Fin w) K} (hv : L.ValidAt A) (r : ℕ) : lastRows (L.Q A) r * (lastRows (L.Q A) r).transpose = 1 := by
  ext i j
  have h1 := congrFun (congrFun hv.orth ⟨r + i, by omega⟩) ⟨r + j, by omega⟩
  rw [Matrix.mul_apply] at h1 ⊢
  rw [Matrix.one_apply] at h1 ⊢
  have : ((⟨r + i, by omega⟩ : Fin h) = ⟨r + j, by omega⟩) ↔ i = j := by
    rw [Fin.mk.injEq, Fin.ext_iff]
    omega
  simp only [this] at h1
  exact h1

/-- A combination of the rows that are kept vanishes only trivially. -/
theorem kept_indep {A : Matrix (Fin h) (Fin w) K} (hv : L.ValidAt A) (r : ℕ) (hrh : r ≤ h) (hrw : r ≤ w)
    (hd : ∀ (k : ℕ) (hh : k < h) (hw : k < w), k < r → L.R A ⟨k, hh⟩ ⟨k, hw⟩ ≠ 0) (hv1 : L.ValidAt (lastRows (L.Q A) r)) (c : Fin h → K)
    (hc : ∀ s : Fin h, (s : ℕ) < h - r → c (L.P (lastRows (L.Q A) r) s) = 0) (h0 : ∀ j, ∑ i, c i * A i j = 0) : c = 0 := by
  set Q := L.Q A with hQ
  set u : Fin h → K := fun k => ∑ i, c i * Q i k with hu
  have hu0 : ∀ k : Fin h, (k : ℕ) < r → u k = 0 := by
    refine upper_inj hv.upper r hrw hd u fun j _ => ?_
    have hf : ∀ i, A i (L.P A j) = ∑ k, Q i k * L.R A k j := fun i => by
      have := congrFun (congrFun hv.factor i) j
      rw [Matrix.mul_apply] at this
      exact this
    rw [← h0 (L.P A j)]
    simp only [hu, hf, sum_mul, mul_sum]
    rw [sum_comm]
    exact sum_congr rfl fun t _ => sum_congr rfl fun i _ => by ring
  have hcu : ∀ i, c i = ∑ k, u k * Q i k := by
    intro t
    have : ∀ t', ∑ i, Q t' i * Q t i = if t' = t then 1 else 0 := fun t' => by
      have := congrFun (congrFun hv.orth' t') t
      rw [Matrix.mul_apply, Matrix.one_apply] at this
      exact this
    simp only [hu, sum_mul]
    rw [sum_comm]
    have e : ∀ t', ∑ i, c t' * Q t' i * Q t i = c t' * if t' = t then 1 else 0 := fun t' => by
      rw [← this t', mul_sum]
      exact sum_congr rfl fun i _ => by ring
    rw [sum_congr rfl fun t' _ => e t']
    simp
  set d : Fin (h - r) → K := fun t => u ⟨r + t, by omega⟩ with hdd
  have hcd : ∀ i, c i = ∑ t, d t * lastRows Q r t i := by
    intro i
    rw [hcu i]
    have e : h = r + (h - r) := by omega
    rw [← Equiv.sum_comp (finCongr e.symm) fun k => u k * Q i k, Fin.sum_univ_add]
    rw [sum_eq_zero, zero_add]
    · rfl
    · intro k _
      rw [hu0 _ (by simp), zero_mul]
  have hd0 : d = 0 := pivot_columns (by omega) (lastRows_orth hv r) hv1 d fun s hs => by rw [← hcd]; exact hc s hs
  funext i
  rw [hcd, hd0]
  simp

/-- The rows that are left out are combinations of the others. -/
theorem dropped_span {A : Matrix (Fin h) (Fin w) K} (r : ℕ) (hv : L.ValidAt A) (hr : ∀ (hh : r < h) (hw : r < w), L.R A ⟨r, hh⟩ ⟨r, hw⟩ = 0)
    (hv1 : L.ValidAt (lastRows (L.Q A) r)) (s : Fin h) (hs : (s : ℕ) < h - r) :
    ∃ g : Fin h → K, (∀ i : Fin h, (i : ℕ) < h - r → g i = 0) ∧
      ∀ j, A (L.P (lastRows (L.Q A) r) s) j = ∑ i, g i * A (L.P (lastRows (L.Q A) r) i) j := by
  set M := lastRows (L.Q A) r with hM
  have hlt : ∀ t : Fin (h - r), (t : ℕ) < h := fun t => by omega
  set B : Matrix (Fin (h - r)) (Fin (h - r)) K := Matrix.of fun t s => M t (L.P M ⟨s, hlt s⟩) with hB
  have hunit : IsUnit B := by
    rw [← Matrix.vecMul_injective_iff_isUnit]
    intro v v' hvv
    rw [← sub_eq_zero]
    refine pivot_columns (L := L) (M := M) (by omega) (lastRows_orth hv r) hv1 (v - v') fun s hs => ?_
    have := congrFun hvv ⟨s, hs⟩
    simp only [Matrix.vecMul, dotProduct, hB, Matrix.of_apply] at this
    simp only [Pi.sub_apply, sub_mul, sum_sub_distrib]
    exact sub_eq_zero.2 this
  obtain ⟨C, hC⟩ := hunit.exists_left_inv
  refine ⟨fun i => if (i : ℕ) < h - r then 0 else -∑ t, C ⟨s, hs⟩ t * M t (L.P M i), fun i hi => if_pos hi, fun j => ?_⟩
  have hz : ∀ t, ∑ i, M t (L.P M i) * A (L.P M i) j = 0 := by
    intro t
    have h1 := congrFun (congrFun (lastRows_mul hv r hr) t) j
    rw [Matrix.mul_apply] at h1
    exact (Equiv.sum_comp (L.P M) fun i => M t i * A i j).trans h1
  -- the combination of these equations
  have hz2 : ∑ i, (∑ t, C ⟨s, hs⟩ t * M t (L.P M i)) * A (L.P M i) j = 0 := by
    simp only [sum_mul]
    rw [sum_comm]
    refine sum_eq_zero fun t _ => ?_
    have e : ∑ i, C ⟨s, hs⟩ t * M t (L.P M i) * A (L.P M i) j = C ⟨s, hs⟩ t * ∑ i, M t (L.P M i) * A (L.P M i) j := by
      rw [mul_sum]
      exact sum_congr rfl fun i _ => by ring
    rw [e, hz, mul_zero]
  have hone : ∀ i : Fin h, (i : ℕ) < h - r → ∑ t, C ⟨s, hs⟩ t * M t (L.P M i) = if i = s then 1 else 0 := by
    intro i hi
    have h1 := congrFun (congrFun hC ⟨s, hs⟩) ⟨i, hi⟩
    rw [Matrix.mul_apply, Matrix.one_apply] at h1
    simp only [hB, Matrix.of_apply] at h1
    rw [h1]
    refine if_congr ?_ rfl rfl
    rw [Fin.mk.injEq, Fin.ext_iff, eq_comm]
  have hsplit : ∀ i : Fin h, (∑ t, C ⟨s, hs⟩ t * M t (L.P M i)) * A (L.P M i) j =
      (if i = s then A (L.P M s) j else 0) - (if (i : ℕ) < h - r then 0 else -∑ t, C ⟨s, hs⟩ t * M t (L.P M i)) * A (L.P M i) j := by
    intro i
    by_cases hi : (i : ℕ) < h - r
    · rw [hone i hi, if_pos hi]
      by_cases his : i = s
      · subst his; simp
      · simp [his]
    · rw [if_neg hi, if_neg]
      · ring
      · rintro rfl; exact hi hs
  rw [sum_congr rfl fun i _ => hsplit i, sum_sub_distrib, sum_ite_eq' univ s, if_pos (mem_univ s), sub_eq_zero] at hz2
  exact hz2

end YRoots.Legacy
