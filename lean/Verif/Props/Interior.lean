import Verif.Proofs.Interior
import Verif.Props.NoLostRootExample

/-!
# Property C46: interior boxes

The combining loop looks at exterior boxes only.  This is justified because a box set aside as interior touches no face of
the box in which it was found, hence no box found in a neighbouring box.
-/

set_option linter.unusedSectionVars false

namespace YRoots

variable {n : ℕ} {K : Type*} [Field K] [LinearOrder K] [IsStrictOrderedRing K] [FloorSemiring K]

/-- The state in which the recursion calls itself: an interval of a run from the initial box that has not entered the final
step, or has and keeps its possible duplicate roots in the box before the final step. -/
structure InRun (ti : TrackedInterval n K) : Prop where
  tracks : Tracks (Box.unit n K) ti
  mids : InCube ti.nextTransformPoints
  dup : ∀ p ∈ ti.possibleDuplicateRoots, ti.finalStep = true ∧ ti.preFinalInterval.Mem p

/-- **C46, strictly inside.**  Whatever the environment and the options, every box returned as interior lies strictly
inside the box of the call: it touches none of its faces. -/
theorem C46_interior (env : Env n K) (fuel : ℕ) (opts : Opts) (Ms : Fin n → Tensor n K) (ti : TrackedInterval n K)
    (errors : Fin n → K) (b : Boxes n K) (hti : InRun ti)
    (h : solvePolyRecursive env fuel opts Ms ti errors = .ok b) :
    ∀ r ∈ b.1, ∀ i, ti.getIntervalForCombining.lo i < r.getIntervalForCombining.lo i ∧
      r.getIntervalForCombining.hi i < ti.getIntervalForCombining.hi i :=
  solve_interior env fuel opts Ms ti errors ⟨hti.tracks, hti.mids, hti.dup⟩ h

/-- **C46, neighbours.**  An interior box never overlaps or touches a box found in a neighbouring box, so leaving it out of
the combining loop loses no merge. -/
theorem C46_neighbours (env : Env n K) (fuel fuel' : ℕ) (opts opts' : Opts) (Ms Ms' : Fin n → Tensor n K)
    (ti ti' : TrackedInterval n K) (errors errors' : Fin n → K) (b b' : Boxes n K) (hti : InRun ti) (hti' : InRun ti')
    (h : solvePolyRecursive env fuel opts Ms ti errors = .ok b)
    (h' : solvePolyRecursive env fuel' opts' Ms' ti' errors' = .ok b')
    (hnb : ∃ i, ti.getIntervalForCombining.hi i ≤ ti'.getIntervalForCombining.lo i ∨
      ti'.getIntervalForCombining.hi i ≤ ti.getIntervalForCombining.lo i) :
    ∀ r ∈ b.1, ∀ s ∈ b'.1 ++ b'.2, r.overlapsWith s = false ∧ s.overlapsWith r = false := by
  intro r hr s hs
  have h1 := C46_interior env fuel opts Ms ti errors b hti h r hr
  have h2 := (solve_struct env fuel' opts' Ms' ti' errors' ⟨hti'.tracks, hti'.mids, hti'.dup⟩ h' s hs).within
  have key : ∃ i, r.getIntervalForCombining.lo i > s.getIntervalForCombining.hi i ∨
      s.getIntervalForCombining.lo i > r.getIntervalForCombining.hi i := by
    obtain ⟨i, hi | hi⟩ := hnb
    · exact ⟨i, .inr (lt_of_lt_of_le (h1 i).2 (hi.trans (h2 i).1))⟩
    · exact ⟨i, .inl (lt_of_le_of_lt ((h2 i).2.trans hi) (h1 i).1)⟩
  unfold TrackedInterval.overlapsWith
  simp only [decide_eq_false_iff_not, not_forall, not_not]
  refine ⟨key, ?_⟩
  obtain ⟨i, hi⟩ := key
  exact ⟨i, hi.symm⟩

/-! ### A run with an interior box -/

/-- Half-width of the box after the zoom of the example. -/
private def exC : ℚ := 1125899906842625 / 2251799813685248

private theorem exInterior_zoom1 : ∃ r, zoomInOnIntervalIter exSvd (fun _ => lin1 0 1) (fun _ => 1 / 2)
    (TrackedInterval.new (Box.unit 1 ℚ)).copy false = .ok r ∧ r.Ms = (fun _ => lin1 0 exC) ∧
    r.errors = (fun _ => 1 / 2 + 1 / 2 ^ 51) ∧ r.ti.interval = ⟨fun _ => -exC, fun _ => exC⟩ ∧ r.ti.empty = false ∧
    r.ti.finalStep = false ∧ r.changed = true := by
  set ti := (TrackedInterval.new (Box.unit 1 ℚ)).copy with hti
  have hb : let r := boundingIntervalLinearSystem exSvd (fun _ => lin1 0 1) (fun _ => 1 / 2) false
      r.interval.lo 0 = -exC ∧ r.interval.hi 0 = exC ∧ r.changed = true ∧ r.shouldStop = false ∧ r.throwOut = false := by
    decide +kernel
  set b := boundingIntervalLinearSystem exSvd (fun _ => lin1 0 1) (fun _ => 1 / 2) false with hb0
  obtain ⟨h1, h2, h3, h4, h5⟩ := hb
  have hI : ti.interval = ⟨fun _ => -1, fun _ => 1⟩ := rfl
  have hf : ti.finalStep = false := rfl
  have hsk : skipPointDims ti.interval b.interval = ⟨fun _ => -exC, fun _ => exC⟩ := by
    rw [hI]
    unfold skipPointDims
    have hcc : ¬ ((-1 : ℚ) = 1) := by norm_num
    simp only [hcc, if_false]
    congr 1 <;> funext i <;> rw [Subsingleton.elim i 0]
    · exact h1
    · exact h2
  have hadd : ti.addTransform ⟨fun _ => -exC, fun _ => exC⟩ = ti.applySub ⟨fun _ => -exC, fun _ => exC⟩ := by
    unfold TrackedInterval.addTransform
    have : ¬ ∃ i : Fin 1, -exC > exC := by rintro ⟨_, h⟩; norm_num [exC] at h
    rw [if_neg (fun h => this h.1), if_neg this]
  have hint : (ti.applySub ⟨fun _ => -exC, fun _ => exC⟩).interval = ⟨fun _ => -exC, fun _ => exC⟩ := by
    unfold TrackedInterval.applySub TrackedInterval.stepBounds
    rw [hI]
    ext i
    · have h1 : ¬ -exC = -1 := by norm_num [exC]
      have h2 : ¬ -exC = 1 := by norm_num [exC]
      simp only [h1, h2, if_false]; ring
    · have h1 : ¬ exC = -1 := by norm_num [exC]
      have h2 : ¬ exC = 1 := by norm_num [exC]
      simp only [h1, h2, if_false]; ring
  have hMs : (transformChebToInterval (fun _ => lin1 0 1) (fun i : Fin 1 => (exC - -exC) / 2)
      (fun i => (exC + -exC) / 2) (fun _ => 1 / 2) false).1 = fun _ => lin1 0 exC := by
    funext i
    simp only [transformChebToInterval, transformCheb_lin1]
    congr 1 <;> ring
  have hEs : (transformChebToInterval (fun _ => lin1 0 1) (fun i : Fin 1 => (exC - -exC) / 2)
      (fun i => (exC + -exC) / 2) (fun _ => 1 / 2) false).2 = fun _ => 1 / 2 + 1 / 2 ^ 51 := by
    have : getTransformationError (lin1 0 1) (0 : Fin 1) = 1 / 2 ^ 51 := by decide +kernel
    funext i
    simp only [transformChebToInterval, transformCheb, List.finRange_succ, List.finRange_zero, List.map_nil,
      List.foldl_cons, List.foldl_nil, this]
  have hlast : (ti.applySub ⟨fun _ => -exC, fun _ => exC⟩).getLastTransform =
      some (fun i : Fin 1 => (exC - -exC) / 2, fun i => (exC + -exC) / 2) := by
    simp [TrackedInterval.applySub, TrackedInterval.getLastTransform]
  have hfs : (ti.applySub ⟨fun _ => -exC, fun _ => exC⟩).finalStep = false := rfl
  have hs : boundingIntervalLinearSystem exSvd (fun _ => lin1 0 1) (fun _ => 1 / 2) ti.finalStep = b := rfl
  unfold zoomInOnIntervalIter
  simp only [hs, hsk, hadd, h3, h4, h5, hlast, hfs, Bool.false_and, Bool.or_false, Bool.not_true, Bool.false_eq_true,
    if_false]
  exact ⟨_, rfl, hMs, hEs, hint, rfl, rfl, rfl⟩

/-- The run on `x` with error 1/2 and without final step zooms once, stops, and returns one interior box. -/
theorem exInterior_run : ∃ b, solvePolyRecursive exEnv 10 ⟨false, true, true, false, 25, 0, false⟩ (fun _ => lin1 0 1)
    (TrackedInterval.new (Box.unit 1 ℚ)) (fun _ => 1 / 2) = .ok b ∧ b.1 ≠ [] := by
  obtain ⟨r, hr, m1, e1, i1, em1, f1, c1⟩ := exInterior_zoom1
  have hp : (TrackedInterval.new (Box.unit 1 ℚ)).isPoint = false := by decide +kernel
  have hcc : constantCheck (fun _ => lin1 0 1) (fun _ : Fin 1 => (1 / 2 : ℚ)) = false := by decide +kernel
  have hq : ∀ o : Opts, quadraticDiscard exEnv o (fun _ => lin1 0 1) (fun _ : Fin 1 => (1 / 2 : ℚ)) = false := by
    intro o
    have h1 : quadraticCheck 1 exLA (lin1 0 1) (1 / 2) = false := by decide +kernel
    have h2 : ¬ ∃ i : Fin 1, exEnv.quadraticCheck (lin1 0 1) (1 / 2) = true := by
      rintro ⟨_, h⟩
      exact absurd (h1.symm.trans h) (by decide)
    simp only [quadraticDiscard, decide_eq_false h2, Bool.and_false]
  have htr : trimMs (fun _ => lin1 0 1) (fun _ : Fin 1 => (1 / 2 : ℚ)) (1 / 10 ^ 3) 0 =
      (fun _ => lin1 0 1, fun _ => 1 / 2) := by
    unfold trimMs trimPoly
    simp only [List.finRange_succ, List.finRange_zero, List.map_nil, List.foldl_cons, List.foldl_nil]
    unfold trimAxis
    simp [lin1]
  have hbd : let r := boundingIntervalLinearSystem exSvd (fun _ => lin1 0 exC) (fun _ => 1 / 2 + 1 / 2 ^ 51) false
      r.changed = false ∧ r.shouldStop = true ∧ r.throwOut = false := by decide +kernel
  have hz2 : zoomInOnIntervalIter exSvd r.Ms r.errors r.ti false = .ok ⟨r.Ms, r.errors, r.ti, false, true⟩ := by
    unfold zoomInOnIntervalIter
    rw [m1, e1]
    simp only [f1, hbd.1, hbd.2.1, hbd.2.2, Bool.false_and, Bool.or_false, Bool.false_eq_true, if_false,
      Bool.not_false, if_true]
  have hle : ∀ (p : Prop) [Decidable p] (k : ℕ), k ≤ 24 → (if p then k + 1 else k) ≤ 25 := by
    intro p _ k hk; split_ifs <;> omega
  have hz : ∀ ls, zoomLoop exEnv.svd false 25 9 (fun _ => lin1 0 1) (fun _ => 1 / 2)
      (TrackedInterval.new (Box.unit 1 ℚ)).copy ls 0 = .ok ⟨r.Ms, r.errors, r.ti, false, true⟩ := by
    intro ls
    have hs : exEnv.svd = exSvd := rfl
    unfold zoomLoop
    rw [hs, hr]
    simp only [em1, c1, Bool.false_eq_true, if_false, true_and]
    rw [if_pos (hle _ _ (by omega))]
    unfold zoomLoop
    rw [hz2]
    simp only [em1, Bool.false_eq_true, if_false, false_and]
  refine ⟨returnOne (TrackedInterval.new (Box.unit 1 ℚ)).copy.copy r.ti, ?_, ?_⟩
  · unfold solvePolyRecursive
    simp only [hp, hcc, hq, htr, Bool.false_eq_true, if_false, Bool.and_false, hz, em1, if_true, Bool.not_false,
      Bool.or_true]
  · have hx : isExteriorInterval (TrackedInterval.new (Box.unit 1 ℚ)).copy.copy r.ti = false := by
      unfold isExteriorInterval
      rw [comb_of_not_final f1, i1]
      decide +kernel
    simp [returnOne, hx]

/-- The hypotheses of C46 are met by this run, which returns an interior box. -/
example : ∃ b, InRun (TrackedInterval.new (Box.unit 1 ℚ)) ∧ b.1 ≠ [] ∧
    solvePolyRecursive exEnv 10 ⟨false, true, true, false, 25, 0, false⟩ (fun _ => lin1 0 1)
      (TrackedInterval.new (Box.unit 1 ℚ)) (fun _ => 1 / 2) = .ok b := by
  obtain ⟨b, h, hb⟩ := exInterior_run
  exact ⟨b, ⟨Good.new.tracks, Good.new.mids, Good.new.dup⟩, hb, h⟩

end YRoots
