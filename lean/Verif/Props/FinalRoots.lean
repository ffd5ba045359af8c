import Verif.Props.Interior

/-!
# Property C47: the roots reported for one box

When the final step subdivides, the results of the halves are merged: of all results with the same lower corner one is kept,
and the box reports the roots of those that are kept.
-/

set_option linter.unusedSectionVars false
set_option linter.unusedVariables false

namespace YRoots

variable {n : ℕ} {K : Type*} [Field K] [LinearOrder K] [IsStrictOrderedRing K] [FloorSemiring K]

/-- `S` is a selection from `L` with one member for each lower corner that occurs in `L`, in the order of `L`. -/
structure OnePerCorner (L S : List (TrackedInterval n K)) : Prop where
  sub : S.Sublist L
  distinct : S.Pairwise fun s t => s.interval.lo ≠ t.interval.lo
  all : ∀ t ∈ L, ∃ s ∈ S, s.interval.lo = t.interval.lo

private theorem dedupe_aux (l acc pre : List (TrackedInterval n K)) (h : OnePerCorner pre acc) :
    OnePerCorner (pre ++ l)
      (l.foldl (fun acc t => if ∃ s ∈ acc, s.interval.lo = t.interval.lo then acc else acc ++ [t]) acc) := by
  induction l generalizing acc pre with
  | nil => simpa using h
  | cons a l ih =>
    rw [List.foldl_cons, show pre ++ a :: l = (pre ++ [a]) ++ l by simp]
    apply ih
    split_ifs with hc
    · refine ⟨h.sub.trans (List.sublist_append_left _ _), h.distinct, fun t ht => ?_⟩
      rcases List.mem_append.1 ht with ht | ht
      · exact h.all t ht
      · rw [List.mem_singleton] at ht
        subst ht
        exact hc
    · push Not at hc
      refine ⟨h.sub.append_right _, ?_, fun t ht => ?_⟩
      · rw [List.pairwise_append]
        refine ⟨h.distinct, by simp, fun s hs t ht => ?_⟩
        rw [List.mem_singleton] at ht
        subst ht
        exact hc s hs
      · rcases List.mem_append.1 ht with ht | ht
        · obtain ⟨s, hs, e⟩ := h.all t ht
          exact ⟨s, List.mem_append_left _ hs, e⟩
        · rw [List.mem_singleton] at ht
          subst ht
          exact ⟨t, by simp, rfl⟩

/-- **C47, duplicates.**  The removal of duplicates keeps exactly one result for each lower corner. -/
theorem C47_dedupe (l : List (TrackedInterval n K)) : OnePerCorner l (dedupe l) := by
  have := dedupe_aux l [] [] ⟨List.Sublist.refl _, List.Pairwise.nil, by simp⟩
  rw [List.nil_append] at this
  exact this

/-- What the final step reports once the zooming has left the interval `z` and decided not to stop: `z` is subdivided
(from now on boxes may be thrown out), the halves are solved, and
* if no half gives a result, the interval is marked as a possible extra root and reports its own final point,
* otherwise it reports, in order, the roots reported by a selection with one result of the halves for each lower corner. -/
def ReportsHalves (env : Env n K) (fuel : ℕ) (opts : Opts) (z : ZoomResult n K) (t : TrackedInterval n K) : Prop :=
  ∃ (t' : TrackedInterval n K) (cs : List (Child n K)) (rs : List (Boxes n K)),
    t'.interval = z.ti.interval ∧ t'.canThrowOutFinalStep = true ∧
    getSubdivisionIntervals env.argsort env.setIter z.Ms z.errors t' opts.exact opts.level = .ok cs ∧
    (cs.mapM fun c => solvePolyRecursive env fuel opts c.Ms c.ti c.errors) = .ok rs ∧
    ((rs.flatMap fun r => r.1 ++ r.2) = [] → t.possibleExtraRoot = true ∧ reportedRoots t = [t.getFinalPoint]) ∧
    ((rs.flatMap fun r => r.1 ++ r.2) ≠ [] → ∃ S, OnePerCorner (rs.flatMap fun r => r.1 ++ r.2) S ∧
      reportedRoots t = S.flatMap reportedRoots)

/-- **C47, reported roots.**  Let a call return whose interval is in its final step and has not collected any roots yet.
What it returns is the interval itself, if that is a point; otherwise the interval left by the zooming.  In the second case
it reports its own final point if the zooming decided to stop, and else the roots of the halves. -/
theorem C47_reported (env : Env n K) (fuel : ℕ) (opts : Opts) (Ms : Fin n → Tensor n K) (ti : TrackedInterval n K)
    (errors : Fin n → K) (b : Boxes n K) (hti : InRun ti) (hf : ti.finalStep = true)
    (hd : ti.possibleDuplicateRoots = [])
    (h : solvePolyRecursive env (fuel + 1) opts Ms ti errors = .ok b) :
    ∀ t ∈ b.1 ++ b.2,
      (ti.isPoint = true ∧ t = ti ∧ reportedRoots t = [ti.getFinalPoint]) ∨
      ∃ z, zoomLoop env.svd opts.exact opts.maxZoomCount fuel (trimMs Ms errors (1 / 10 ^ 3) 0).1
          (trimMs Ms errors (1 / 10 ^ 3) 0).2 ti.copy ti.copy.dimSize 0 = .ok z ∧
        t.interval = z.ti.interval ∧
        (z.shouldStop = true → reportedRoots t = [t.getFinalPoint]) ∧
        (z.shouldStop = false → ReportsHalves env fuel { opts with level := opts.level + 1 } z t) := by
  have hone : ∀ t : TrackedInterval n K, t.possibleDuplicateRoots = [] → reportedRoots t = [t.getFinalPoint] := by
    intro t ht
    unfold reportedRoots
    rw [ht]
    rfl
  intro t ht
  cases solve_cases h with
  | point hp hb =>
    subst hb
    simp only [List.nil_append, List.mem_singleton] at ht
    subst ht
    exact .inl ⟨hp, rfl, hone _ hd⟩
  | const _ _ _ hb => subst hb; simp at ht
  | quad _ _ hb => subst hb; simp at ht
  | zoomed hp hc hq z hz hh =>
    have hg : Good ti := ⟨hti.tracks, hti.mids, hti.dup⟩
    have hi := Inherits.copy ti
    obtain ⟨zs, -⟩ := zoomLoop_struct _ _ _ _ _ _ _ _ _ (hg.inherits hi).tracks hz
    rcases hh with ⟨he, hb⟩ | ⟨he, hst, hf', hb⟩ | ⟨he, hf', hb⟩ | ⟨he, hst, hf', cs, rs, hcs, hrs, hb⟩ |
      ⟨he, hf', cs, rs, ext, rs', hcs, hrs, hext, hrs', hb⟩
    · subst hb; simp at ht
    · subst hb
      rw [returnOne_list, List.mem_singleton] at ht
      subst ht
      refine .inr ⟨z, hz, rfl, fun _ => hone _ ((zs he).1.dup' (hi.dup' hd)), fun h0 => ?_⟩
      rw [hst] at h0; cases h0
    · rw [(zs he).1.finalStep, hi.finalStep, hf] at hf'; cases hf'
    · have hzd := (zs he).1.dup' (hi.dup' hd)
      have htI : t.interval = z.ti.interval := by
        rcases hb with ⟨-, rfl⟩ | ⟨-, rfl⟩ <;>
        · rw [returnOne_list, List.mem_singleton] at ht
          subst ht
          rfl
      refine .inr ⟨z, hz, htI, (fun h0 => by rw [hst] at h0; cases h0), fun _ =>
        ⟨{ z.ti with canThrowOutFinalStep := true }, cs, rs, rfl, rfl, hcs, hrs, fun h0 => ?_, fun h0 => ?_⟩⟩
      · rcases hb with ⟨-, rfl⟩ | ⟨h1, -⟩
        · rw [returnOne_list, List.mem_singleton] at ht
          subst ht
          exact ⟨rfl, hone _ hzd⟩
        · exact absurd h0 h1
      · rcases hb with ⟨h1, -⟩ | ⟨-, rfl⟩
        · exact absurd h1 h0
        · rw [returnOne_list, List.mem_singleton] at ht
          refine ⟨_, C47_dedupe _, ?_⟩
          set L := rs.flatMap fun r => r.1 ++ r.2 with hL
          have hr : duplicateRoots (dedupe L) = (dedupe L).flatMap reportedRoots := rfl
          have hne : (dedupe L).flatMap reportedRoots ≠ [] := by
            intro h1
            obtain ⟨x, hx⟩ := List.exists_mem_of_ne_nil _ h0
            obtain ⟨s, hs, -⟩ := (C47_dedupe L).all x hx
            have := List.flatMap_eq_nil_iff.1 h1 s hs
            unfold reportedRoots at this
            split_ifs at this with h2
            rw [this] at h2
            simp at h2
          subst ht
          rw [hr, hzd, List.nil_append]
          conv_lhs => unfold reportedRoots
          exact if_pos (List.length_pos_iff.2 hne)
    · rw [(zs he).1.finalStep, hi.finalStep, hf] at hf'; cases hf'

/-- The hypotheses of `C47_reported` are met by the final step of the example run. -/
example (exact : Bool) : ∃ b, let ti := (TrackedInterval.new (Box.unit 1 ℚ)).copy.startFinalStep
    InRun ti ∧ ti.finalStep = true ∧ ti.possibleDuplicateRoots = [] ∧ ti.isPoint = false ∧
    solvePolyRecursive exEnv 9 ⟨exact, true, true, false, 25, 1, true⟩ (fun _ => lin1 0 1) ti (fun _ => 2) = .ok b := by
  obtain ⟨b, hb⟩ := exRun_final exact ⟨exact, true, true, false, 25, 1, true⟩
    (TrackedInterval.new (Box.unit 1 ℚ)).copy.startFinalStep rfl rfl rfl rfl rfl
  have hg : Good (TrackedInterval.new (Box.unit 1 ℚ)).copy.startFinalStep :=
    (Good.new.inherits (Inherits.copy _)).startFinalStep rfl
  exact ⟨b, ⟨hg.tracks, hg.mids, hg.dup⟩, rfl, rfl, by decide +kernel, hb⟩

end YRoots
