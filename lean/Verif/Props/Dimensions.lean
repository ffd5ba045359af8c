import Verif.Model.Dimensions
import Verif.Proofs.PolyClean
import Mathlib.Algebra.MvPolynomial.Division
import Mathlib.Data.Finsupp.Fintype

/-!
# C91: dimensions of polynomials, monomials, small entries
-/

set_option linter.unusedSectionVars false

namespace YRoots.Legacy

open MvPolynomial

variable {K : Type*}

theorem frontAxes_evalG [Field K] {n : ℕ} (d : ℕ) (M : Tensor n K) (w : Fin (d + n) → ℕ → K) (hw : ∀ i, w i 0 = 1) :
    (frontAxes d M).evalG w = M.evalG fun i => w (Fin.natAdd d i) := by
  unfold Tensor.evalG
  refine Finset.sum_nbij' (fun k i => k (Fin.natAdd d i)) (fun m => Fin.append (fun _ => 0) m) ?_ ?_ ?_ ?_ ?_
  · intro k hk
    simp only [Tensor.idx, Fintype.mem_piFinset, Finset.mem_range, frontAxes] at hk ⊢
    intro i
    simpa using hk (Fin.natAdd d i)
  · intro m hm
    simp only [Tensor.idx, Fintype.mem_piFinset, Finset.mem_range, frontAxes] at hm ⊢
    intro i
    refine Fin.addCases (fun i => ?_) (fun i => ?_) i
    · simp
    · simpa using hm i
  · intro k hk
    simp only [Tensor.idx, Fintype.mem_piFinset, Finset.mem_range, frontAxes] at hk
    funext i
    refine Fin.addCases (fun i => ?_) (fun i => ?_) i
    · have := hk (Fin.castAdd n i)
      simp only [Fin.append_left] at this ⊢
      omega
    · simp
  · intro m _
    funext i
    simp
  · intro k hk
    simp only [Tensor.idx, Fintype.mem_piFinset, Finset.mem_range, frontAxes] at hk
    simp only [frontAxes]
    congr 1
    rw [Fin.prod_univ_add]
    have : ∏ i : Fin d, w (Fin.castAdd n i) (k (Fin.castAdd n i)) = 1 := by
      refine Finset.prod_eq_one fun i _ => ?_
      have := hk (Fin.castAdd n i)
      simp only [Fin.append_left] at this
      rw [show k (Fin.castAdd n i) = 0 by omega, hw]
    rw [this, one_mul]

theorem foldl_max_ge (l : List ℕ) (a : ℕ) : a ≤ l.foldl max a ∧ ∀ b ∈ l, b ≤ l.foldl max a := by
  induction l generalizing a with
  | nil => simp
  | cons c l ih =>
    obtain ⟨h1, h2⟩ := ih (max a c)
    simp only [List.foldl_cons, List.mem_cons, forall_eq_or_imp]
    exact ⟨(le_max_left _ _).trans h1, (le_max_right _ _).trans h1, h2⟩

theorem foldl_max_mem (l : List ℕ) (a : ℕ) : l.foldl max a = a ∨ l.foldl max a ∈ l := by
  induction l generalizing a with
  | nil => simp
  | cons c l ih =>
    simp only [List.foldl_cons, List.mem_cons]
    rcases ih (max a c) with h | h
    · rcases max_choice a c with h' | h'
      · exact .inl (h.trans h')
      · exact .inr (.inl (h.trans h'))
    · exact .inr (.inr h)

/-- **C91** (dimensions).  The call raises for an empty list only.  Afterwards all polynomials have as many variables as the one with most of them had, and a
polynomial that had fewer is the same polynomial *in the last variables*: `w i k` stands for the value of the basis polynomial of degree `k` (power or Chebyshev)
at the `i`-th coordinate. -/
theorem C91_dimensions [Field K] [LinearOrder K] [IsStrictOrderedRing K] (polys : List (AnyArray K)) (hne : polys ≠ []) :
    ∃ out, matchPolyDimensions polys = some out ∧ out.length = polys.length ∧
      ∃ dim, (∃ p ∈ polys, p.1 = dim) ∧ (∀ p ∈ polys, p.1 ≤ dim) ∧
        ∀ i (hi : i < polys.length) (ho : i < out.length), (out[i]).1 = dim ∧ ∀ w : ℕ → ℕ → K, (∀ j, w j 0 = 1) →
          (out[i]).2.evalG (fun j => w j) = (polys[i]).2.evalG fun j => w (dim - (polys[i]).1 + j) := by
  set dim := (polys.map fun p => p.1).foldl max 0 with hdim
  have hle : ∀ p ∈ polys, p.1 ≤ dim := fun p hp => (foldl_max_ge (polys.map fun p => p.1) 0).2 p.1 (List.mem_map_of_mem hp)
  have hout : matchPolyDimensions polys =
      some (polys.map fun p => if p.1 ≠ dim then ⟨(dim - p.1) + p.1, mkPoly (frontAxes (dim - p.1) p.2)⟩ else p) := by
    cases polys with
    | nil => exact absurd rfl hne
    | cons p l => rfl
  refine ⟨_, hout, by simp, dim, ?_, hle, ?_⟩
  · rcases foldl_max_mem (polys.map fun p => p.1) 0 with h | h
    · obtain ⟨p, hp⟩ := List.exists_mem_of_ne_nil _ hne
      have := hle p hp
      exact ⟨p, hp, by omega⟩
    · obtain ⟨p, hp, h⟩ := List.mem_map.1 h
      exact ⟨p, hp, h⟩
  · intro i hi ho
    have hp := hle polys[i] (List.getElem_mem hi)
    rw [List.getElem_map]
    generalize polys[i] = p at hp
    by_cases h : p.1 = dim
    · rw [if_neg (by simpa using h)]
      refine ⟨h, fun w _ => ?_⟩
      have h0 : dim - p.1 = 0 := by omega
      simp [h0]
    · rw [if_pos (by simpa using h)]
      refine ⟨by simp only; omega, fun w hw => ?_⟩
      simp only
      rw [mkPoly_evalG, frontAxes_evalG _ _ _ fun i => hw _]
      simp

/-- Non-vacuity, and the polynomials are in general *not* the same in the first variables: together with a polynomial in two variables, `x` becomes `y`. -/
theorem C91_first_variables_false : ¬ ∀ (polys : List (AnyArray ℚ)) (out : List (AnyArray ℚ)), matchPolyDimensions polys = some out →
    ∀ i (hi : i < polys.length) (ho : i < out.length) (w : ℕ → ℕ → ℚ), (∀ j, w j 0 = 1) →
      (out[i]).2.evalG (fun j => w j) = (polys[i]).2.evalG fun j => w j := by
  intro h
  obtain ⟨out, ho, hl, dim, hm, hle, hall⟩ := C91_dimensions
    [(⟨1, ⟨fun _ => 2, fun k => k 0⟩⟩ : AnyArray ℚ), ⟨2, ⟨fun _ => 1, fun _ => 1⟩⟩] (by simp)
  have hd : dim = 2 := by
    obtain ⟨p, hp, rfl⟩ := hm
    have h2 := hle ⟨2, ⟨fun _ => 1, fun _ => 1⟩⟩ (by simp)
    simp only [List.mem_cons, List.not_mem_nil, or_false] at hp
    rcases hp with rfl | rfl
    · simp at h2
    · rfl
  subst hd
  have h1 := h _ _ ho 0 (by simp) (by rw [hl]; simp) (fun j k => (j : ℚ) ^ k) (by simp)
  rw [((hall 0 (by simp) (by rw [hl]; simp)).2 (fun j k => (j : ℚ) ^ k) (by simp))] at h1
  revert h1
  simp only [List.getElem_cons_zero]
  decide +kernel

/-- **C91** (monomials).  `divides` decides divisibility; `lcm` is the least common multiple; if `b` divides `a` then `quotient(a, b)` is the exponent of `a / b`. -/
theorem C91_monomials {n : ℕ} (a b : Fin n → ℕ) :
    (divides a b = true ↔ (monomial (Finsupp.equivFunOnFinite.symm a) (1 : ℚ)) ∣ monomial (Finsupp.equivFunOnFinite.symm b) 1) ∧
    (∀ c : Fin n → ℕ, (monomial (Finsupp.equivFunOnFinite.symm (lcmMon a b)) (1 : ℚ)) ∣ monomial (Finsupp.equivFunOnFinite.symm c) 1 ↔
      (monomial (Finsupp.equivFunOnFinite.symm a) (1 : ℚ)) ∣ monomial (Finsupp.equivFunOnFinite.symm c) 1 ∧
      (monomial (Finsupp.equivFunOnFinite.symm b) (1 : ℚ)) ∣ monomial (Finsupp.equivFunOnFinite.symm c) 1) ∧
    ∀ q : Fin n → ℕ, (∀ i, quotientMon a b i = q i) ↔
      monomial (Finsupp.equivFunOnFinite.symm q) (1 : ℚ) * monomial (Finsupp.equivFunOnFinite.symm b) 1 =
        monomial (Finsupp.equivFunOnFinite.symm a) 1 := by
  have hdvd : ∀ a b : Fin n → ℕ, (monomial (Finsupp.equivFunOnFinite.symm a) (1 : ℚ)) ∣ monomial (Finsupp.equivFunOnFinite.symm b) 1 ↔
      ∀ i, a i ≤ b i := by
    intro a b
    rw [monomial_dvd_monomial]
    simp [Finsupp.le_def]
  refine ⟨?_, fun c => ?_, fun q => ?_⟩
  · rw [hdvd]
    simp [divides]
  · rw [hdvd, hdvd, hdvd]
    simp only [lcmMon, max_le_iff]
    exact forall_and
  · rw [monomial_mul, mul_one, monomial_left_inj one_ne_zero, Finsupp.ext_iff]
    simp only [quotientMon, Finsupp.coe_add, Pi.add_apply, Finsupp.equivFunOnFinite_symm_apply_apply]
    exact forall_congr' fun i => by omega

/-- Non-vacuity. -/
example : divides ![1, 2] ![3, 2] = true ∧ divides ![1, 3] ![3, 2] = false ∧ lcmMon ![1, 3] ![3, 2] = ![3, 3] ∧
    quotientMon ![3, 2] ![1, 2] = ![2, 0] := by decide

/-- **C91** (small entries).  For real arrays exactly the entries of absolute value below the accuracy are replaced by zero. -/
theorem C91_clean [Field K] [LinearOrder K] [IsStrictOrderedRing K] (accuracy : K) (array : List K) :
    (cleanZeros accuracy array).length = array.length ∧
    ∀ i (hi : i < array.length) (ho : i < (cleanZeros accuracy array).length),
      (|array[i]| < accuracy → (cleanZeros accuracy array)[i] = 0) ∧ (accuracy ≤ |array[i]| → (cleanZeros accuracy array)[i] = array[i]) := by
  refine ⟨by simp [cleanZeros], fun i hi ho => ?_⟩
  simp only [cleanZeros, List.getElem_map]
  constructor
  · intro h
    rw [abs_lt] at h
    rw [if_pos ⟨h.2, h.1⟩]
  · intro h
    rw [if_neg]
    rintro ⟨h1, h2⟩
    exact absurd (abs_lt.2 ⟨h2, h1⟩) (not_lt.2 h)

/-- Non-vacuity. -/
example : cleanZeros (1 / 100) [1, 1 / 1000, -1 / 1000, -(2 : ℚ)] = [1, 0, 0, -2] := by decide +kernel

/-- For complex arrays this is false: numpy compares lexicographically, so that `5i` is replaced by zero. -/
theorem C91_clean_complex_false : ¬ ∀ (accuracy : ℚ) (array : List (ℚ × ℚ)), 0 < accuracy →
    ∀ i (hi : i < array.length) (ho : i < (cleanZerosComplex accuracy array).length),
      accuracy ^ 2 ≤ array[i].1 ^ 2 + array[i].2 ^ 2 → (cleanZerosComplex accuracy array)[i] = array[i] := by
  intro h
  have := h (1 / 10 ^ 10) [(0, 5)] (by norm_num) 0 (by simp) (by simp [cleanZerosComplex]) (by norm_num)
  revert this
  decide +kernel

end YRoots.Legacy
