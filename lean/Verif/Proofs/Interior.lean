import Verif.Proofs.Solver

/-!
# Helper lemmas: interior and exterior boxes
-/

set_option linter.unusedSectionVars false
set_option linter.unusedVariables false

namespace YRoots

variable {n : ℕ} {K : Type*} [Field K] [LinearOrder K] [IsStrictOrderedRing K] [FloorSemiring K]

/-- `A` lies in `B` and touches no face of it. -/
def Box.StrictlyWithin (A B : Box n K) : Prop := ∀ i, B.lo i < A.lo i ∧ A.hi i < B.hi i

theorem StrictlyWithin.trans_within {A B C : Box n K} (h : A.StrictlyWithin B) (h' : B.Within C) : A.StrictlyWithin C :=
  fun i => ⟨lt_of_le_of_lt (h' i).1 (h i).1, lt_of_lt_of_le (h i).2 (h' i).2⟩

/-- What is returned as interior touches no face of the original box. -/
theorem returnOne_interior {orig t r : TrackedInterval n K}
    (hw : t.getIntervalForCombining.Within orig.getIntervalForCombining) (hr : r ∈ (returnOne orig t).1) :
    r.getIntervalForCombining.StrictlyWithin orig.getIntervalForCombining := by
  unfold returnOne at hr
  split_ifs at hr with h
  · simp at hr
  · rw [List.mem_singleton] at hr
    subst hr
    unfold isExteriorInterval at h
    rw [decide_eq_true_eq] at h
    push Not at h
    exact fun i => ⟨lt_of_le_of_ne (hw i).1 (Ne.symm (h i).1), lt_of_le_of_ne (hw i).2 (h i).2⟩

theorem copy_comb {t : TrackedInterval n K} : t.copy.getIntervalForCombining = t.getIntervalForCombining := by
  cases hf : t.finalStep
  · rw [comb_of_not_final hf, comb_of_not_final ((Inherits.copy t).finalStep.trans hf), copy_interval]
  · rw [comb_of_final hf, comb_of_final ((Inherits.copy t).finalStep.trans hf), (Inherits.copy t).preI hf]

/-- Interior results of a call touch no face of the box of the call. -/
theorem solve_interior (env : Env n K) (fuel : ℕ) (opts : Opts) (Ms : Fin n → Tensor n K)
    (ti : TrackedInterval n K) (errors : Fin n → K) {b : Boxes n K} (hti : Good ti)
    (h : solvePolyRecursive env fuel opts Ms ti errors = .ok b) :
    ∀ r ∈ b.1, r.getIntervalForCombining.StrictlyWithin ti.getIntervalForCombining := by
  induction fuel generalizing opts Ms ti errors b with
  | zero => cases h
  | succ fuel ih =>
    have horig : ti.copy.copy.getIntervalForCombining = ti.getIntervalForCombining := by rw [copy_comb, copy_comb]
    have hone : ∀ t : TrackedInterval n K, t.getIntervalForCombining.Within ti.getIntervalForCombining →
        ∀ r ∈ (returnOne ti.copy.copy t).1, r.getIntervalForCombining.StrictlyWithin ti.getIntervalForCombining := by
      intro t ht r hr
      have := returnOne_interior (by rw [horig]; exact ht) hr
      rwa [horig] at this
    cases solve_cases h with
    | point _ hb => subst hb; intro r hr; simp at hr
    | const _ _ _ hb => subst hb; intro r hr; simp at hr
    | quad _ _ hb => subst hb; intro r hr; simp at hr
    | zoomed hp hc hq z hz hh =>
      have hcopy : Good ti.copy := hti.inherits (Inherits.copy ti)
      have rcopy : Ret ti ti.copy := Ret.of_inherits hti (Inherits.copy ti) (Inherits.interval_copy ti)
      obtain ⟨zs, -⟩ := zoomLoop_struct _ _ _ _ _ _ _ _ _ hcopy.tracks hz
      have ret1 : z.ti.empty = false → Ret ti z.ti := fun he =>
        rcopy.trans (Ret.of_inherits hcopy (zs he).1 (zs he).2)
      have hfin : z.ti.empty = false → z.ti.finalStep = ti.finalStep := fun he =>
        (zs he).1.finalStep.trans (Inherits.copy ti).finalStep
      rcases hh with ⟨he, hb⟩ | ⟨he, -, hf, hb⟩ | ⟨he, hf, hb⟩ | ⟨he, -, hf, cs, rs, hcs, hrs, hb⟩ |
        ⟨he, hf, cs, rs, ext, rs', hcs, hrs, hext, hrs', hb⟩
      · subst hb; intro r hr; simp at hr
      · subst hb
        exact hone _ (ret1 he).within
      · have g := (ret1 he).good.startFinalStep hf
        intro r hr
        have h1 := ih _ _ _ _ g hb r hr
        have h2 := (ret1 he).within
        rw [comb_of_not_final hf] at h2
        exact StrictlyWithin.trans_within h1 h2
      · rcases hb with ⟨-, hb⟩ | ⟨-, hb⟩ <;> subst hb
        · exact hone _ (ret1 he).within
        · exact hone _ (ret1 he).within
      · have gz := (ret1 he).good
        have hst := getSubdivisionIntervals_struct hcs gz.mids gz.tracks.ordered
        have gorig : Good ti.copy.copy := hcopy.inherits (Inherits.copy _)
        have tif : ti.finalStep = false := (hfin he).symm.trans hf
        have hof : ti.copy.copy.finalStep = false :=
          (Inherits.copy _).finalStep.trans ((Inherits.copy _).finalStep.trans tif)
        have hoI : ti.copy.copy.interval = ti.interval := by rw [copy_interval, copy_interval]
        have hextOK : ∀ t ∈ ext, ExtOK ti.copy.copy t := by
          refine combineExterior_ok gorig hof ?_ hext
          intro t ht
          obtain ⟨q, hq, htq⟩ := List.mem_flatMap.1 ht
          obtain ⟨c, hc, hsol⟩ := mapM_mem hrs hq
          obtain ⟨c1, c2⟩ := hst c hc
          have r1 := Ret.of_inherits gz c1 c2
          have r2 := (ret1 he).trans (r1.trans (solve_struct _ _ _ _ _ _ r1.good hsol t (List.mem_append_right _ htq)))
          refine ⟨r2.good, ?_⟩
          rw [hoI, ← comb_of_not_final tif]
          exact r2.within
        have hextw : ∀ t ∈ ext, t.getIntervalForCombining.Within ti.getIntervalForCombining := fun t ht => by
          have := (hextOK t ht).within
          rwa [hoI, ← comb_of_not_final tif] at this
        subst hb
        intro r hr
        rcases List.mem_append.1 hr with hr | hr
        · obtain ⟨q, hq, hrq⟩ := List.mem_flatMap.1 hr
          obtain ⟨c, hc, hsol⟩ := mapM_mem hrs hq
          obtain ⟨c1, c2⟩ := hst c hc
          have r1 := Ret.of_inherits gz c1 c2
          exact StrictlyWithin.trans_within (ih _ _ _ _ r1.good hsol r hrq) ((ret1 he).trans r1).within
        · obtain ⟨q, hq, hrq⟩ := List.mem_flatMap.1 hr
          obtain ⟨t, ht, hrun⟩ := mapM_mem hrs' hq
          unfold rerunOne at hrun
          split_ifs at hrun with h1 h2
          · cases hrun
            simp at hrq
          · split at hrun
            · cases hrun
            · exact StrictlyWithin.trans_within (ih _ _ _ _ (hextOK t ht).good hrun r hrq) (hextw t ht)
          · cases hrun
            exact hone t (hextw t ht) r hrq

end YRoots
