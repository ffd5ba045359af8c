import Verif.Model.Dtype
import Verif.Props.NoLostRootExample

/-!
# Property C41: integer coefficients
-/

namespace YRoots

variable {n : ℕ} {K : Type*} [Field K] [LinearOrder K] [IsStrictOrderedRing K] [FloorSemiring K]

/-- Integer arrays: whenever the initial box is not discarded by the constant-term and quadratic checks and some
polynomial has a nonzero linear coefficient after trimming, the solver raises, whatever the fuel. -/
theorem C41_int_raises (env : Env n K) (fuel : ℕ) (Ms : Fin n → Tensor n K) (errors : Fin n → K) (exact : Bool)
    (hc : constantCheck Ms errors = false)
    (hq : quadraticDiscard env ⟨exact, true, true, false, 25, 0, true⟩ Ms errors = false)
    (i j : Fin n) (hlin : (getLinearTerms ((trimMs Ms errors (1 / 10 ^ 3) 0).1 i)).getD j 0 ≠ 0) :
    solveChebyshevSubdivisionD env fuel (fun _ => .int) Ms errors exact = .error .ufuncTypeError := by
  have hp : (TrackedInterval.new (Box.unit n K)).isPoint = false := by
    unfold TrackedInterval.isPoint TrackedInterval.new
    simp only [decide_eq_false_iff_not, not_forall]
    refine ⟨i, ?_⟩
    simp only [Box.unit]
    norm_num
  have hmax : maxAbs (fun j : Fin n => (getLinearTerms ((trimMs Ms errors (1 / 10 ^ 3) 0).1 i)).getD j 0) > 0 :=
    lt_of_lt_of_le (abs_pos.2 hlin) (abs_le_maxAbs (fun j : Fin n => (getLinearTerms ((trimMs Ms errors (1 / 10 ^ 3) 0).1 i)).getD j 0) j)
  unfold solveChebyshevSubdivisionD solvePolyRecursiveD boundingD
  simp only [hp, hc, hq, Bool.and_false, Bool.false_eq_true, if_false]
  rw [if_pos]
  refine ⟨?_, i, hmax⟩
  unfold linTermsDtype
  rw [if_neg]
  rintro ⟨_, _, _, h⟩
  cases h

/-- `x` with the error that `solve` attaches to a `MultiCheb` on the unit box. -/
example : constantCheck (fun _ => lin1 0 1) (fun _ : Fin 1 => (1 / 2 ^ 52 : ℚ)) = false ∧
    quadraticCheck 1 exLA (lin1 0 1) (1 / 2 ^ 52) = false := by decide +kernel

/-- **C41** is false: for `M = x`, integer coefficients make the solver raise where float coefficients give a
result. -/
theorem C41_int_false : ∃ (Ms : Fin 1 → Tensor 1 ℚ) (errors : Fin 1 → ℚ),
    (∀ i, ∀ k ∈ (Ms i).idx, ∃ z : ℤ, (Ms i).coef k = z) ∧ ∀ exact,
    solveChebyshevSubdivisionD exEnv 10 (fun _ => .int) Ms errors exact = .error .ufuncTypeError ∧
    ∃ r, solveChebyshevSubdivisionD exEnv 10 (fun _ => .float) Ms errors exact = .ok r := by
  refine ⟨fun _ => lin1 0 1, fun _ => 2, fun i k _ => ?_, fun exact => ⟨?_, ?_⟩⟩
  · unfold lin1; dsimp only
    split_ifs
    exacts [⟨0, by simp⟩, ⟨1, by simp⟩, ⟨0, by simp⟩]
  · refine C41_int_raises _ _ _ _ _ ?_ ?_ 0 0 ?_
    · decide +kernel
    · have : quadraticCheck 1 exLA (lin1 0 1) 2 = false := by decide +kernel
      simp [quadraticDiscard, exEnv, this]
    · have htr : trimMs (fun _ => lin1 0 1) (fun _ : Fin 1 => (2 : ℚ)) (1 / 10 ^ 3) 0 = (fun _ => lin1 0 1, fun _ => 2) := by
        unfold trimMs trimPoly
        simp only [List.finRange_succ, List.finRange_zero, List.map_nil, List.foldl_cons, List.foldl_nil]
        unfold trimAxis
        simp [lin1]
      rw [htr]; decide +kernel
  · obtain ⟨roots, boxes, h⟩ := exRun exact
    unfold solveChebyshevSubdivision at h
    unfold solveChebyshevSubdivisionD solvePolyRecursiveD boundingD
    have hd : ∀ M : Tensor 1 ℚ, M.shape 0 ≠ 1 → linTermsDtype (fun _ : Fin 1 => .float) (fun _ => M) = .float := by
      intro M hM; unfold linTermsDtype; rw [if_pos ⟨0, 0, hM, rfl⟩]
    have htr : trimMs (fun _ => lin1 0 1) (fun _ : Fin 1 => (2 : ℚ)) (1 / 10 ^ 3) 0 = (fun _ => lin1 0 1, fun _ => 2) := by
      unfold trimMs trimPoly
      simp only [List.finRange_succ, List.finRange_zero, List.map_nil, List.foldl_cons, List.foldl_nil]
      unfold trimAxis
      simp [lin1]
    simp only [htr, hd (lin1 0 1) (by simp [lin1])]
    dsimp only at h
    cases hs : solvePolyRecursive exEnv 10 ⟨exact, true, true, false, 25, 0, true⟩ (fun _ => lin1 0 1)
      (TrackedInterval.new (Box.unit 1 ℚ)) (fun _ => 2) with
    | error e => rw [hs] at h; cases h
    | ok b =>
      simp only [reduceCtorEq, false_and, if_false, ite_self]
      exact ⟨_, rfl⟩

end YRoots
