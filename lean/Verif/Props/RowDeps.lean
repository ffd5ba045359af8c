import Verif.Proofs.RowDeps
import Mathlib.LinearAlgebra.LinearIndependent.Lemmas
import Mathlib.Tactic.FinCases
import Mathlib.Tactic.NormNum

/-!
# C96: `row_linear_dependencies` splits the rows into independent ones that span the rest
-/

namespace YRoots.Legacy

open Finset

variable {K : Type*} [Field K] [LinearOrder K] [IsStrictOrderedRing K] {h w : ℕ}

/-- **C96**, the two lists contain every row once. -/
theorem C96_partition (L : PivotQR K) (A : Matrix (Fin h) (Fin w) K) (acc : K) :
    ((rowLinearDependencies L A acc).1 ++ (rowLinearDependencies L A acc).2.1).Perm (List.finRange h) := by
  unfold rowLinearDependencies
  simp only
  split_ifs with h0
  · simp
  · set P := L.P (lastRows (L.Q A) (diagRank (L.R A) acc))
    refine List.perm_append_comm.trans ?_
    simp only
    rw [← List.map_append, List.take_append_drop]
    exact (List.perm_ext_iff_of_nodup ((List.nodup_finRange h).map P.injective) (List.nodup_finRange h)).2 fun i => by
      simp only [List.mem_map, List.mem_finRange, true_and, iff_true]
      exact ⟨P.symm i, by simp⟩

/-- **C96**, for valid factorisations whose diagonal entries are 0 or above the accuracy: the rows kept are linearly independent, and the rows
of the matrix are combinations of them. -/
theorem C96_row_dependencies_partial (L : PivotQR K) (A : Matrix (Fin h) (Fin w) K) (acc : K) (hacc : 0 ≤ acc) (hv : L.ValidAt A)
    (hv1 : L.ValidAt (lastRows (L.Q A) (diagRank (L.R A) acc)))
    (hgap : ∀ (k : ℕ) (hh : k < h) (hw : k < w), L.R A ⟨k, hh⟩ ⟨k, hw⟩ = 0 ∨ acc < |L.R A ⟨k, hh⟩ ⟨k, hw⟩|) :
    LinearIndependent K (fun i : {i // i ∈ (rowLinearDependencies L A acc).1} => A i) ∧
      ∀ i, A i ∈ Submodule.span K (Set.range fun i : {i // i ∈ (rowLinearDependencies L A acc).1} => A i) := by
  obtain ⟨hle, hsp⟩ := diagRank_spec hv hacc hgap
  set r := diagRank (L.R A) acc with hr
  have hrh : r ≤ h := hle.trans (min_le_left _ _)
  have hrw : r ≤ w := hle.trans (min_le_right _ _)
  have hd : ∀ (k : ℕ) (hh : k < h) (hw : k < w), k < r → L.R A ⟨k, hh⟩ ⟨k, hw⟩ ≠ 0 := fun k hh hw hk => (hsp k hh hw).2 hk
  have hr0 : ∀ (hh : r < h) (hw : r < w), L.R A ⟨r, hh⟩ ⟨r, hw⟩ = 0 := fun hh hw => by
    by_contra hne
    exact lt_irrefl _ ((hsp r hh hw).1 hne)
  set P := L.P (lastRows (L.Q A) r) with hP
  have hmem : ∀ i, i ∈ (rowLinearDependencies L A acc).1 ↔ h - r ≤ (P.symm i : ℕ) := by
    intro i
    unfold rowLinearDependencies
    simp only
    rw [← hr]
    split_ifs with h0
    · simp [h0]
    · simp only [List.mem_map, List.mem_drop_iff_getElem, List.getElem_finRange, List.length_finRange]
      rw [← hP]
      constructor
      · rintro ⟨s, ⟨k, hk, rfl⟩, rfl⟩
        simp
      · intro hi
        refine ⟨P.symm i, ⟨P.symm i - (h - r), by omega, ?_⟩, by simp⟩
        ext
        simp
        omega
  constructor
  · rw [Fintype.linearIndependent_iff]
    intro g hg i
    have hc : (fun i => if hi : i ∈ (rowLinearDependencies L A acc).1 then g ⟨i, hi⟩ else 0) = 0 := by
      refine kept_indep hv r hrh hrw hd hv1 _ (fun s hs => ?_) fun j => ?_
      · rw [dif_neg]
        rw [hmem]
        simp only [hP, Equiv.symm_apply_apply]
        omega
      · have h1 := congrFun hg j
        simp only [Finset.sum_apply, Pi.smul_apply, smul_eq_mul, Pi.zero_apply] at h1
        refine Eq.trans ?_ h1
        set F : Fin h → K := fun i => (if hi : i ∈ (rowLinearDependencies L A acc).1 then g ⟨i, hi⟩ else 0) * A i j with hF
        have e : ∑ i : {i // i ∈ (rowLinearDependencies L A acc).1}, g i * A i j = ∑ i : {i // i ∈ (rowLinearDependencies L A acc).1}, F i :=
          sum_congr rfl fun i _ => by simp only [hF, dif_pos i.2]
        have e2 : ∑ i ∈ univ.filter (fun x : Fin h => x ∈ (rowLinearDependencies L A acc).1), F i = ∑ i : {i // i ∈ (rowLinearDependencies L A acc).1}, F i :=
          Finset.sum_subtype (p := fun x : Fin h => x ∈ (rowLinearDependencies L A acc).1) _ (fun x => by simp) F
        rw [e, ← e2]
        symm
        apply sum_filter_of_ne
        intro i _ hne
        by_contra hi
        exact hne (by simp only [hF, dif_neg hi, zero_mul])
    have := congrFun hc i
    rw [dif_pos i.2] at this
    exact this
  · intro i
    by_cases hi : i ∈ (rowLinearDependencies L A acc).1
    · exact Submodule.subset_span ⟨⟨i, hi⟩, rfl⟩
    · obtain ⟨g, hg0, hg⟩ := dropped_span r hv hr0 hv1 (P.symm i) (by rw [hmem] at hi; omega)
      rw [← hP, Equiv.apply_symm_apply] at hg
      have : A i = ∑ k, g k • A (P k) := by
        funext j
        rw [hg]
        simp
      rw [this]
      refine Submodule.sum_mem _ fun k _ => ?_
      by_cases hk : (k : ℕ) < h - r
      · rw [hg0 k hk, zero_smul]; exact Submodule.zero_mem _
      · refine Submodule.smul_mem _ _ (Submodule.subset_span ⟨⟨P k, ?_⟩, rfl⟩)
        rw [hmem, Equiv.symm_apply_apply]
        omega

/-- A factorisation by a fixed rotation in the first case, none needed in the other. -/
def exPivotQR : PivotQR ℚ where
  Q := fun {h w} _ => match h, w with
    | 2, 2 => !![3 / 5, -4 / 5; 4 / 5, 3 / 5]
    | _, _ => 1
  P := fun {h w} _ => match h, w with
    | 2, 2 => Equiv.swap 0 1
    | _, _ => 1
  R := fun {h w} A => match h, w, A with
    | 2, 2, A => (!![3 / 5, -4 / 5; 4 / 5, 3 / 5] : Matrix (Fin 2) (Fin 2) ℚ).transpose * A.submatrix id (Equiv.swap 0 1)
    | _, _, A => A

/-- The matrix with rows `(3, 6)` and `(4, 8)`: the first row is left out. -/
example : (rowLinearDependencies exPivotQR !![3, 6; 4, 8] (1 / 10 ^ 10)).1 = [1] ∧
    (rowLinearDependencies exPivotQR !![3, 6; 4, 8] (1 / 10 ^ 10)).2.1 = [0] := by
  decide +kernel

theorem exPivotQR_valid : exPivotQR.ValidAt !![3, 6; 4, 8] where
  orth := by decide +kernel
  factor := by decide +kernel
  upper := by
    intro i j
    fin_cases i <;> fin_cases j <;> decide +kernel
  pivot := by
    intro k hh hw j
    obtain rfl | rfl : k = 0 ∨ k = 1 := by omega
    · fin_cases j <;> decide +kernel +revert
    · fin_cases j <;> decide +kernel +revert

theorem exPivotQR_rank : diagRank (exPivotQR.R !![3, 6; 4, 8]) (1 / 10 ^ 10) = 1 := by decide +kernel

/-- The hypotheses hold. -/
example : LinearIndependent ℚ (fun i : {i // i ∈ (rowLinearDependencies exPivotQR !![3, 6; 4, 8] (1 / 10 ^ 10)).1} => (!![3, 6; 4, 8] : Matrix (Fin 2) (Fin 2) ℚ) i) ∧
    ∀ i, (!![3, 6; 4, 8] : Matrix (Fin 2) (Fin 2) ℚ) i ∈ Submodule.span ℚ (Set.range fun i : {i // i ∈ (rowLinearDependencies exPivotQR !![3, 6; 4, 8] (1 / 10 ^ 10)).1} =>
      (!![3, 6; 4, 8] : Matrix (Fin 2) (Fin 2) ℚ) i) :=
  C96_row_dependencies_partial exPivotQR !![3, 6; 4, 8] (1 / 10 ^ 10) (by norm_num) exPivotQR_valid
    (by
      rw [exPivotQR_rank]
      refine ⟨by decide +kernel, by decide +kernel, ?_, ?_⟩
      · intro i j
        fin_cases i
        fin_cases j <;> decide +kernel
      · intro k hh hw j
        obtain rfl : k = 0 := by omega
        fin_cases j <;> decide +kernel +revert)
    (by
      intro k hh hw
      obtain rfl | rfl : k = 0 ∨ k = 1 := by omega
      · right; decide +kernel +revert
      · left; decide +kernel +revert)

/-- A matrix with one entry, not above the accuracy, has rank 0 in the sense of the code. -/
theorem small_rank (L : PivotQR K) (A : Matrix (Fin 1) (Fin 1) K) {acc : K} (hv : L.ValidAt A) (ha : |A 0 0| ≤ acc) : diagRank (L.R A) acc = 0 := by
  have hf := congrFun (congrFun hv.factor 0) 0
  have ho := congrFun (congrFun hv.orth 0) 0
  rw [Matrix.mul_apply, Fin.sum_univ_one] at hf ho
  rw [Matrix.submatrix_apply, Subsingleton.elim (L.P _ 0) (0 : Fin 1)] at hf
  rw [Matrix.transpose_apply, Matrix.one_apply_eq] at ho
  have hq : |L.Q A 0 0| = 1 := by
    have : |L.Q A 0 0| * |L.Q A 0 0| = 1 := by rw [← abs_mul, ho, abs_one]
    nlinarith [abs_nonneg (L.Q A 0 0)]
  have hR : |A 0 0| = |L.R A 0 0| := by
    have h1 := congrArg abs hf
    rw [abs_mul, hq, one_mul] at h1
    exact h1
  unfold diagRank diagonals
  rw [List.countP_eq_zero]
  intro a hm
  obtain ⟨k, -, rfl⟩ := List.mem_map.1 hm
  have e : ∀ x : Fin 1, x = 0 := fun x => Subsingleton.elim _ _
  rw [e ⟨k, _⟩, ← hR]
  simpa using ha

/-- **C96**, false in general: the threshold is absolute.  Whatever valid factorisation is used, the row of the matrix `(10⁻¹¹)` is reported as
dependent, and the (empty) list of the other rows does not span it. -/
theorem C96_small_false (L : PivotQR K) (hv : L.ValidAt (!![1 / 10 ^ 11] : Matrix (Fin 1) (Fin 1) K)) :
    (rowLinearDependencies L (!![1 / 10 ^ 11] : Matrix (Fin 1) (Fin 1) K) (1 / 10 ^ 10)).1 = [] ∧
      (rowLinearDependencies L (!![1 / 10 ^ 11] : Matrix (Fin 1) (Fin 1) K) (1 / 10 ^ 10)).2.1 = [0] ∧
      LinearIndependent K (fun i : Fin 1 => (!![1 / 10 ^ 11] : Matrix (Fin 1) (Fin 1) K) i) := by
  have h00 : (!![1 / 10 ^ 11] : Matrix (Fin 1) (Fin 1) K) 0 0 = 1 / 10 ^ 11 := rfl
  generalize (!![1 / 10 ^ 11] : Matrix (Fin 1) (Fin 1) K) = A at *
  have hrank : diagRank (L.R A) (1 / 10 ^ 10) = 0 := by
    refine small_rank L A hv ?_
    rw [h00, abs_of_pos (by positivity)]
    apply div_le_div_of_nonneg_left <;> norm_num
  have e : ∀ x : Fin 1, x = 0 := fun x => Subsingleton.elim _ _
  refine ⟨?_, ?_, ?_⟩
  · unfold rowLinearDependencies
    simp only [hrank]
    rfl
  · unfold rowLinearDependencies
    simp only [hrank]
    exact congrArg (fun x => [x]) (e _)
  · rw [Fintype.linearIndependent_iff]
    intro g hg i
    have h1 := congrFun hg 0
    rw [Fin.sum_univ_one, Pi.smul_apply, h00, smul_eq_mul] at h1
    rw [e i]
    refine (mul_eq_zero.1 h1).resolve_right ?_
    positivity

example : (rowLinearDependencies exPivotQR !![1 / 10 ^ 11] (1 / 10 ^ 10)).2.1 = [0] :=
  (C96_small_false exPivotQR ⟨by decide +kernel, by decide +kernel, by
    intro i j
    fin_cases i
    fin_cases j
    decide +kernel, by
    intro k hh hw j
    obtain rfl : k = 0 := by omega
    fin_cases j
    decide +kernel +revert⟩).2.1

end YRoots.Legacy
