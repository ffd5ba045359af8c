import Verif.Proofs.Solver
import Mathlib.Data.Rat.Floor

/-!
# Properties C28, C29: the final step, and reported roots

Specification: membership `Box.Mem`, inclusion `Box.Within`.  Both hold for *every* environment: no assumption
on the SVD, the sorting function, the set order or the quadratic check is needed.
-/

set_option linter.unusedSectionVars false

namespace YRoots

variable {n : ℕ} {K : Type*} [Field K] [LinearOrder K] [IsStrictOrderedRing K] [FloorSemiring K]

/-- What the caller sees of an interval in the final step: it is produced by a run of tracked operations from the
initial box, is not empty, and throwing out has not been enabled by a final-step subdivision. -/
structure InFinalStep (ti : TrackedInterval n K) : Prop where
  tracks : Tracks (Box.unit n K) ti
  mids : InCube ti.nextTransformPoints
  nodup : ti.possibleDuplicateRoots = []
  final : ti.finalStep = true
  nothrow : ti.canThrowOutFinalStep = false
  nonempty : ti.empty = false

/-- `startFinalStep` on any non-final, non-empty interval of a run puts it into that state (line 1264). -/
theorem InFinalStep.of_start {t : TrackedInterval n K} (ht : Tracks (Box.unit n K) t)
    (hm : InCube t.nextTransformPoints) (hd : t.possibleDuplicateRoots = []) (he : t.empty = false)
    (hc : t.canThrowOutFinalStep = false) : InFinalStep t.startFinalStep :=
  ⟨ht.step .startFinal trivial, hm, hd, rfl, hc, he⟩

/-- **C28**: a call on an interval in the final step that returns either was stopped by the constant-term check or the
quadratic check on its *own* (valid) errors, or reports exactly one interval, still in the final step, whose
reported box is the box from before the final step.  Zooming with zero errors and final-step subdivision never make
it disappear. -/
theorem C28_final_step (env : Env n K) (fuel : ℕ) (opts : Opts) (Ms : Fin n → Tensor n K)
    (ti : TrackedInterval n K) (errors : Fin n → K) (b : Boxes n K) (hti : InFinalStep ti)
    (h : solvePolyRecursive env fuel opts Ms ti errors = .ok b) :
    (b = ([], []) ∧ ((opts.constant_check = true ∧ constantCheck Ms errors = true) ∨
      ∃ i, env.quadraticCheck (Ms i) (errors i) = true)) ∨
    ∃ t, b.1 ++ b.2 = [t] ∧ t.finalStep = true ∧ t.getFinalInterval = ti.preFinalInterval := by
  have hg : Good ti := ⟨hti.tracks, hti.mids, fun p hp => by rw [hti.nodup] at hp; simp at hp⟩
  rcases solve_final_one env fuel opts Ms ti errors hg hti.final hti.nothrow hti.nonempty h with
    ⟨hb, h1 | h1⟩ | ⟨t, ht⟩
  · exact .inl ⟨hb, .inl h1⟩
  · unfold quadraticDiscard at h1
    rw [Bool.and_eq_true] at h1
    exact .inl ⟨hb, .inr (of_decide_eq_true h1.2)⟩
  · have hr := solve_struct env fuel opts Ms ti errors hg h t (by rw [ht]; simp)
    obtain ⟨f1, f2⟩ := hr.final hti.final
    exact .inr ⟨t, ht, f1, by rw [hr.good.tracks.final.1, comb_of_final f1, f2]⟩

/-- The hypotheses of C28: the state reached at line 1265 directly from the initial box. -/
example : InFinalStep (TrackedInterval.new (Box.unit 2 ℚ)).startFinalStep :=
  InFinalStep.of_start (Tracks.new (unit_ordered 2)) (fun i => by
    simp only [TrackedInterval.new, TrackedInterval.splitPoint]; norm_num [abs_le]) rfl rfl rfl

/-- **C29**: whenever the solver returns, every bounding interval is a box with lower ≤ upper inside `[-1,1]^n`,
each reported root is reported for one of the bounding intervals, and each root reported for a bounding interval lies
in its box. -/
theorem C29_roots_in_boxes (env : Env n K) (fuel : ℕ) (Ms : Fin n → Tensor n K) (errors : Fin n → K)
    (exact constant_check low all : Bool) (roots : List (Fin n → K)) (boxes : List (TrackedInterval n K))
    (h : solveChebyshevSubdivision env fuel Ms errors exact constant_check low all = .ok (roots, boxes)) :
    (∀ t ∈ boxes, t.getFinalInterval.Ordered ∧ t.getFinalInterval.Within (Box.unit n K) ∧
      reportedRoots t ≠ [] ∧ ∀ p ∈ reportedRoots t, p ∈ roots ∧ t.getFinalInterval.Mem p) ∧
    ∀ p ∈ roots, ∃ t ∈ boxes, t.getFinalInterval.Mem p := by
  unfold solveChebyshevSubdivision at h
  simp only at h
  split at h
  · cases h
  · rename_i b hb
    cases h
    have hs := solve_struct env fuel _ Ms _ errors Good.new hb
    have h1 : ∀ t ∈ b.1 ++ b.2, ∀ p ∈ reportedRoots t, t.getFinalInterval.Mem p := by
      intro t ht p hp
      rw [(hs t ht).good.tracks.final.1]
      exact reported_mem (hs t ht).good hp
    refine ⟨fun t ht => ⟨?_, ?_, ?_, fun p hp => ⟨List.mem_flatMap.2 ⟨t, ht, hp⟩, h1 t ht p hp⟩⟩, ?_⟩
    · rw [(hs t ht).good.tracks.final.1]; exact (hs t ht).good.tracks.comb_ordered
    · rw [(hs t ht).good.tracks.final.1]; exact (hs t ht).within
    · unfold reportedRoots
      split_ifs with hl
      · intro hnil; rw [hnil] at hl; simp at hl
      · simp
    · intro p hp
      obtain ⟨t, ht, hpt⟩ := List.mem_flatMap.1 hp
      exact ⟨t, ht, h1 t ht p hpt⟩

end YRoots
