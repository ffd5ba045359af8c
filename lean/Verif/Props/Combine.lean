import Verif.Proofs.Combine
import Mathlib.Data.Rat.Defs
import Mathlib.Tactic.NormNum

/-!
# Properties C26, C27: combining touching boxes

Specification: `Box.Mem` membership in a box.  Two boxes are disjoint if no point lies in both.
-/

namespace YRoots

variable {n : ℕ} {K : Type*} [Field K] [LinearOrder K] [IsStrictOrderedRing K]

/-- **C26**: for every list of exterior boxes (in the branch where combining happens the original interval is not in
its final step) the combine loop terminates; the result covers every point covered before; it has at most as many
boxes; every box not marked for a rerun is one of the given boxes, unchanged. -/
theorem C26_combine (orig : TrackedInterval n K) (hf : orig.finalStep = false) (l : List (TrackedInterval n K)) :
    ∃ r, combineExterior orig l = .ok r ∧
      (∀ t ∈ l, ∀ x, t.getIntervalForCombining.Mem x → ∃ u ∈ r, u.getIntervalForCombining.Mem x) ∧
      r.length ≤ l.length ∧
      (∀ u ∈ r, u.reRun = false → ∃ t ∈ l, u = { t with reRun := false }) := by
  obtain ⟨r, hr⟩ := combineAll_terminates (touch := TrackedInterval.overlapsWith)
    (merge := combineIntervals orig) (l.map fun t => { t with reRun := false })
  obtain ⟨h1, h2⟩ := combineAll_cover (fun (t : TrackedInterval n K) x => t.getIntervalForCombining.Mem x)
    (l.map fun t => { t with reRun := false }) (by
      intro a b x h
      rw [combineIntervals_box orig a b hf]
      exact hull_mem h) hr
  refine ⟨r, hr, ?_, by simpa using h2, ?_⟩
  · intro t ht x hx
    exact h1 _ (List.mem_map_of_mem ht) x hx
  · refine combineAll_forall (fun u => u.reRun = false → ∃ t ∈ l, u = { t with reRun := false }) _ ?_ ?_ hr
    · intro u hu _
      obtain ⟨t, ht, rfl⟩ := List.mem_map.1 hu
      exact ⟨t, ht, rfl⟩
    · intro a b _ _ _ h
      rw [combineIntervals_reRun] at h
      cases h

/-- Boxes obtained from those of `l` by repeatedly replacing two boxes that share a point (or touch) by the smallest box
containing both. -/
inductive Grown (l : List (TrackedInterval n K)) : Box n K → Prop
  | given (t : TrackedInterval n K) (ht : t ∈ l) : Grown l t.getIntervalForCombining
  | merged (A B : Box n K) (hA : Grown l A) (hB : Grown l B) (touch : ∀ i, A.lo i ≤ B.hi i ∧ B.lo i ≤ A.hi i) :
      Grown l ⟨fun i => min (A.lo i) (B.lo i), fun i => max (A.hi i) (B.hi i)⟩

/-- **C26, nothing is added.**  Every box after the combine loop is one of the given boxes or has grown from given boxes by
merging boxes that touch. -/
theorem C26_grown (orig : TrackedInterval n K) (hf : orig.finalStep = false) (l : List (TrackedInterval n K))
    {r : List (TrackedInterval n K)} (hr : combineExterior orig l = .ok r) :
    ∀ u ∈ r, Grown l u.getIntervalForCombining := by
  refine combineAll_forall (fun u => Grown l u.getIntervalForCombining) _ ?_ ?_ hr
  · intro u hu
    obtain ⟨t, ht, rfl⟩ := List.mem_map.1 hu
    exact .given t ht
  · intro a b ha hb hab
    rw [combineIntervals_box orig a b hf]
    refine .merged _ _ ha hb fun i => ?_
    unfold TrackedInterval.overlapsWith at hab
    simp only [decide_eq_true_eq, not_or, not_lt] at hab
    exact hab i

/-- `overlapsWith` is the sharing of a point, for boxes with lower ≤ upper. -/
theorem overlapsWith_iff (s t : TrackedInterval n K) (hs : s.getIntervalForCombining.Ordered)
    (ht : t.getIntervalForCombining.Ordered) :
    s.overlapsWith t = true ↔ ∃ x, s.getIntervalForCombining.Mem x ∧ t.getIntervalForCombining.Mem x := by
  unfold TrackedInterval.overlapsWith
  simp only [decide_eq_true_eq, not_or, not_lt]
  constructor
  · intro h
    refine ⟨fun i => max (s.getIntervalForCombining.lo i) (t.getIntervalForCombining.lo i), ?_, ?_⟩
    · exact fun i => ⟨le_max_left _ _, max_le (hs i) (h i).2⟩
    · exact fun i => ⟨le_max_right _ _, max_le (h i).1 (ht i)⟩
  · rintro ⟨x, h1, h2⟩ i
    exact ⟨(h1 i).1.trans (h2 i).2, (h2 i).1.trans (h1 i).2⟩

/-- **C27 in one variable**: after the combine loop no point lies in two different boxes of the list.
`_partial`: false in two variables, `C27_disjoint_false`. -/
theorem C27_disjoint_partial (orig : TrackedInterval 1 K) (hf : orig.finalStep = false)
    (l : List (TrackedInterval 1 K)) (hl : ∀ t ∈ l, t.getIntervalForCombining.Ordered) {r : List (TrackedInterval 1 K)}
    (hr : combineExterior orig l = .ok r) :
    r.Pairwise fun s t => ∀ x, ¬ (s.getIntervalForCombining.Mem x ∧ t.getIntervalForCombining.Mem x) := by
  have hmerge : ∀ a b : TrackedInterval 1 K, a.getIntervalForCombining.Ordered →
      b.getIntervalForCombining.Ordered → a.overlapsWith b = true →
      (combineIntervals orig a b).getIntervalForCombining.Ordered := by
    intro a b ha _ _
    rw [combineIntervals_box orig a b hf]
    exact hull_ordered ha
  have hl' : ∀ t ∈ l.map (fun t : TrackedInterval 1 K => { t with reRun := false }),
      t.getIntervalForCombining.Ordered := by
    intro u hu
    obtain ⟨t, ht, rfl⟩ := List.mem_map.1 hu
    exact hl t ht
  have h := combineAll_pairwise (fun t : TrackedInterval 1 K => t.getIntervalForCombining.Ordered) _ hl' hmerge (by
    intro a b c ha hb hc hab hca hcb
    simp only [TrackedInterval.overlapsWith, combineIntervals_box orig a b hf, Box.hull, decide_eq_true_eq,
      decide_eq_false_iff_not, Fin.forall_fin_one, not_or, not_lt, not_and_or, not_le] at hab hca hcb ⊢
    have := ha 0; have := hb 0; have := hc 0
    rcases hca with h1 | h1 <;> rcases hcb with h2 | h2
    · left; exact max_lt h1 h2
    · exfalso; linarith [hab.2]
    · exfalso; linarith [hab.1]
    · right; exact lt_min h1 h2) hr
  have hP := combineAll_forall (fun t : TrackedInterval 1 K => t.getIntervalForCombining.Ordered) _ hl' hmerge hr
  rw [List.pairwise_iff_getElem] at h ⊢
  intro i j hi hj hij x hx
  have := h i j hi hj hij
  rw [Bool.eq_false_iff] at this
  exact this ((overlapsWith_iff _ _ (hP _ (List.getElem_mem hi)) (hP _ (List.getElem_mem hj))).2 ⟨x, hx⟩)

/-- A tracked interval for a box in the unit square. -/
def exAt (lo hi : Fin 2 → ℚ) : TrackedInterval 2 ℚ := (TrackedInterval.new (Box.unit 2 ℚ)).addTransform ⟨lo, hi⟩

/-- Three boxes on the boundary of the unit square: a corner, and the two arms of an "L" that avoids it. -/
def exThree : List (TrackedInterval 2 ℚ) :=
  [exAt ![1 / 2, 1 / 2] ![1, 1], exAt ![-1, -1] ![1, -1 / 2], exAt ![-1, -1] ![-1 / 2, 1]]

/-- **C27 is false** in two variables: the first box touches neither of the other two, which are merged into the
whole square; the two boxes left overlap. -/
theorem C27_disjoint_false :
    (∀ t ∈ exThree, Tracks (Box.unit 2 ℚ) t) ∧
    ∃ s t, combineExterior (TrackedInterval.new (Box.unit 2 ℚ)) exThree = .ok [s, t] ∧
      s.getIntervalForCombining.Mem ![1, 1] ∧ t.getIntervalForCombining.Mem ![1, 1] := by
  constructor
  · have h0 : Tracks (Box.unit 2 ℚ) (TrackedInterval.new (Box.unit 2 ℚ)) :=
      Tracks.new (fun i => by norm_num [Box.unit])
    have key : ∀ lo hi : Fin 2 → ℚ, (Box.Within ⟨lo, hi⟩ (Box.unit 2 ℚ)) → Tracks (Box.unit 2 ℚ) (exAt lo hi) :=
      fun lo hi h => h0.step (.add ⟨lo, hi⟩) h
    intro t ht
    simp only [exThree, List.mem_cons, List.not_mem_nil, or_false] at ht
    rcases ht with rfl | rfl | rfl
    · exact key _ _ (by unfold Box.Within; decide +kernel)
    · exact key _ _ (by unfold Box.Within; decide +kernel)
    · exact key _ _ (by unfold Box.Within; decide +kernel)
  · obtain ⟨r, hr, -⟩ := C26_combine (TrackedInterval.new (Box.unit 2 ℚ)) rfl exThree
    have h : ((combineExterior (TrackedInterval.new (Box.unit 2 ℚ)) exThree).toOption.map fun r =>
        decide (r.length = 2 ∧ ∀ t ∈ r, ∀ i, t.getIntervalForCombining.lo i ≤ ![1, 1] i ∧
          ![1, 1] i ≤ t.getIntervalForCombining.hi i)) = some true := by decide +kernel
    rw [hr] at h
    simp only [Except.toOption, Option.map_some, Option.some.injEq, decide_eq_true_eq] at h
    obtain ⟨h1, h2⟩ := h
    match r, h1 with
    | [s, t], _ => exact ⟨s, t, hr, h2 s (by simp), h2 t (by simp)⟩

/-- `C27_disjoint_partial` applied to three boxes of which two touch. -/
example : ∃ r, combineExterior (TrackedInterval.new (Box.unit 1 ℚ))
    [(TrackedInterval.new (Box.unit 1 ℚ)).addTransform ⟨![1 / 2], ![1]⟩,
     (TrackedInterval.new (Box.unit 1 ℚ)).addTransform ⟨![-1], ![-1 / 2]⟩,
     (TrackedInterval.new (Box.unit 1 ℚ)).addTransform ⟨![-1 / 2], ![0]⟩] = .ok r ∧ r.length = 2 := by
  obtain ⟨r, hr, -⟩ := C26_combine (TrackedInterval.new (Box.unit 1 ℚ)) rfl
    [(TrackedInterval.new (Box.unit 1 ℚ)).addTransform ⟨![1 / 2], ![1]⟩,
     (TrackedInterval.new (Box.unit 1 ℚ)).addTransform ⟨![-1], ![-1 / 2]⟩,
     (TrackedInterval.new (Box.unit 1 ℚ)).addTransform ⟨![-1 / 2], ![0]⟩]
  refine ⟨r, hr, ?_⟩
  have h : ((combineExterior (TrackedInterval.new (Box.unit 1 ℚ))
    [(TrackedInterval.new (Box.unit 1 ℚ)).addTransform ⟨![1 / 2], ![1]⟩,
     (TrackedInterval.new (Box.unit 1 ℚ)).addTransform ⟨![-1], ![-1 / 2]⟩,
     (TrackedInterval.new (Box.unit 1 ℚ)).addTransform ⟨![-1 / 2], ![0]⟩]).toOption.map
      fun r => r.length) = some 2 := by decide +kernel
  rw [hr] at h
  simpa [Except.toOption] using h

end YRoots
