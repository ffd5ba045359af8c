import Verif.Proofs.FloatCombine
import Verif.Props.Combine
import Mathlib.Data.Rat.Floor

/-!
# Property C113: combining touching boxes in floating-point arithmetic

Specification: `Box.Mem`, `Grown` (Props/Combine); a point `y` of a box `[a, b]` has the local coordinate `(2 * y - a - b) / (b - a)`, in `[-1, 1]`.
-/

namespace YRoots

variable {n : ℕ} {K : Type*} [Field K] [LinearOrder K] [IsStrictOrderedRing K]

/-- **C113, the tracked boxes**: whatever the rounding, the combine loop terminates, the tracked boxes of the result cover every point covered before, their
number does not grow, boxes not marked for a rerun are unchanged, and every box has grown from the given ones by merging boxes that touch: minima and maxima
are exact. -/
theorem C113_tracked (fl : K → K) (orig : TrackedInterval n K) (hf : orig.finalStep = false) (l : List (TrackedInterval n K)) :
    ∃ r, combineExteriorF fl orig l = .ok r ∧
      (∀ t ∈ l, ∀ x, t.getIntervalForCombining.Mem x → ∃ u ∈ r, u.getIntervalForCombining.Mem x) ∧ r.length ≤ l.length ∧
      (∀ u ∈ r, u.reRun = false → ∃ t ∈ l, u = { t with reRun := false }) ∧ ∀ u ∈ r, Grown l u.getIntervalForCombining := by
  obtain ⟨r, hr⟩ := combineAll_terminates (touch := TrackedInterval.overlapsWith)
    (merge := combineIntervalsF fl orig) (l.map fun t => { t with reRun := false })
  obtain ⟨h1, h2⟩ := combineAll_cover (fun (t : TrackedInterval n K) x => t.getIntervalForCombining.Mem x)
    (l.map fun t => { t with reRun := false }) (by
      intro a b x h
      rw [combineIntervalsF_box fl orig a b hf]
      exact hull_mem h) hr
  refine ⟨r, hr, ?_, by simpa using h2, ?_, ?_⟩
  · intro t ht x hx
    exact h1 _ (List.mem_map_of_mem ht) x hx
  · refine combineAll_forall (fun u => u.reRun = false → ∃ t ∈ l, u = { t with reRun := false }) _ ?_ ?_ hr
    · intro u hu _
      obtain ⟨t, ht, rfl⟩ := List.mem_map.1 hu
      exact ⟨t, ht, rfl⟩
    · intro a b _ _ _ h
      cases h
  · refine combineAll_forall (fun u => Grown l u.getIntervalForCombining) _ ?_ ?_ hr
    · intro u hu
      obtain ⟨t, ht, rfl⟩ := List.mem_map.1 hu
      exact .given t ht
    · intro a b ha hb hab
      rw [combineIntervalsF_box fl orig a b hf]
      refine .merged _ _ ha hb fun i => ?_
      unfold TrackedInterval.overlapsWith at hab
      simp only [decide_eq_true_eq, not_or, not_lt] at hab
      exact hab i

/-- **C113, the box for the polynomials.**  The original final box has bounds `a < b` with `max |a| |b| ≤ 2 ^ 40 * (b - a)`, and it contains the two final
boxes.  The box recorded for the polynomials then contains the local coordinate of every point of the two boxes, up to
`(max |a| |b| / (b - a) + 1) / 2 ^ 50`. -/
theorem C113_sub_partial [FloorRing K] {fl : K → K} (hfl : RoundsToNearest 53 fl) (orig r1 r2 : TrackedInterval n K) (i : Fin n) {a b m : K}
    (ha : (orig.getFinalIntervalF fl).lo i = a) (hb : (orig.getFinalIntervalF fl).hi i = b) (hab : a < b) (hm : m = max |a| |b|)
    (hw : m ≤ 2 ^ 40 * (b - a)) (h1 : a ≤ (r1.getFinalIntervalF fl).lo i ∧ (r1.getFinalIntervalF fl).lo i ≤ (r1.getFinalIntervalF fl).hi i ∧
      (r1.getFinalIntervalF fl).hi i ≤ b) (h2 : a ≤ (r2.getFinalIntervalF fl).lo i ∧ (r2.getFinalIntervalF fl).lo i ≤ (r2.getFinalIntervalF fl).hi i ∧
      (r2.getFinalIntervalF fl).hi i ≤ b) (newI : Box n K) (y : K)
    (hy : ((r1.getFinalIntervalF fl).lo i ≤ y ∧ y ≤ (r1.getFinalIntervalF fl).hi i) ∨ ((r2.getFinalIntervalF fl).lo i ≤ y ∧ y ≤ (r2.getFinalIntervalF fl).hi i)) :
    let sub := combinedSubF fl orig.interval (orig.getFinalIntervalF fl) newI (Box.hull (r1.getFinalIntervalF fl) (r2.getFinalIntervalF fl))
    sub.lo i - (m / (b - a) + 1) / 2 ^ 50 ≤ (2 * y - a - b) / (b - a) ∧ (2 * y - a - b) / (b - a) ≤ sub.hi i + (m / (b - a) + 1) / 2 ^ 50 := by
  intro sub
  have hw0 : 0 < b - a := sub_pos.2 hab
  have hm0 : 0 ≤ m := by rw [hm]; exact (abs_nonneg a).trans (le_max_left _ _)
  have hδ : 0 ≤ (m / (b - a) + 1) / 2 ^ 50 := by positivity
  have hF : ∀ t : TrackedInterval n K, IsFloat 53 ((t.getFinalIntervalF fl).lo i) ∧ IsFloat 53 ((t.getFinalIntervalF fl).hi i) :=
    fun t => ⟨hfl.isFloat _, hfl.isFloat _⟩
  obtain ⟨l1, e1⟩ : ∃ l, l = (r1.getFinalIntervalF fl).lo i := ⟨_, rfl⟩
  obtain ⟨l2, e2⟩ : ∃ l, l = (r2.getFinalIntervalF fl).lo i := ⟨_, rfl⟩
  obtain ⟨u1, e3⟩ : ∃ l, l = (r1.getFinalIntervalF fl).hi i := ⟨_, rfl⟩
  obtain ⟨u2, e4⟩ : ∃ l, l = (r2.getFinalIntervalF fl).hi i := ⟨_, rfl⟩
  have f1 : IsFloat 53 (min l1 l2) := by rcases min_choice l1 l2 with h | h <;> rw [h] <;> [rw [e1]; rw [e2]] <;> [exact (hF r1).1; exact (hF r2).1]
  have f2 : IsFloat 53 (max u1 u2) := by rcases max_choice u1 u2 with h | h <;> rw [h] <;> [rw [e3]; rw [e4]] <;> [exact (hF r1).2; exact (hF r2).2]
  rw [← e1, ← e3] at h1 hy
  rw [← e2, ← e4] at h2 hy
  have hlo : min l1 l2 ≤ y := by rcases hy with h | h; exacts [(min_le_left _ _).trans h.1, (min_le_right _ _).trans h.1]
  have hhi : y ≤ max u1 u2 := by rcases hy with h | h; exacts [h.2.trans (le_max_left _ _), h.2.trans (le_max_right _ _)]
  have ga : a ≤ min l1 l2 := le_min h1.1 h2.1
  have gb : max u1 u2 ≤ b := max_le h1.2.2 h2.2.2
  have gy : a ≤ y ∧ y ≤ b := ⟨ga.trans hlo, hhi.trans gb⟩
  have mono : ∀ {s t : K}, s ≤ t → (2 * s - a - b) / (b - a) ≤ (2 * t - a - b) / (b - a) := fun h => div_le_div_of_nonneg_right (by linarith) hw0.le
  constructor
  · have hs : sub.lo i = if orig.interval.lo i = newI.lo i then -1 else localCoordF fl a b (min l1 l2) := by
      simp only [sub, combinedSubF, Box.hull, ha, hb, hab.ne', if_false, ← e1, ← e2]
    rw [hs]
    split_ifs
    · have : -1 ≤ (2 * y - a - b) / (b - a) := by rw [le_div_iff₀ hw0]; linarith [gy.1]
      linarith
    · have h := localCoordF_close hfl hab f1 ga (hlo.trans gy.2) (m := m) (hm ▸ le_max_left _ _) (hm ▸ le_max_right _ _) hw
      have := (abs_le.1 h).2
      have := mono hlo
      linarith
  · have hs : sub.hi i = if orig.interval.hi i = newI.hi i then 1 else localCoordF fl a b (max u1 u2) := by
      simp only [sub, combinedSubF, Box.hull, ha, hb, hab.ne', if_false, ← e3, ← e4]
    rw [hs]
    split_ifs
    · have : (2 * y - a - b) / (b - a) ≤ 1 := by rw [div_le_iff₀ hw0]; linarith [gy.2]
      linarith
    · have h := localCoordF_close hfl hab f2 (gy.1.trans hhi) gb (m := m) (hm ▸ le_max_left _ _) (hm ▸ le_max_right _ _) hw
      have := (abs_le.1 h).1
      have := mono hhi
      linarith

/-- The box for the polynomials is ordered where both bounds are computed from the quotient. -/
theorem C113_ordered [FloorRing K] {fl : K → K} (hfl : RoundsToNearest 53 fl) (oldI oldFinal newI newFinal : Box n K) (i : Fin n)
    (hold : oldFinal.lo i < oldFinal.hi i) (hnew : newFinal.lo i ≤ newFinal.hi i) (h1 : oldI.lo i ≠ newI.lo i) (h2 : oldI.hi i ≠ newI.hi i) :
    (combinedSubF fl oldI oldFinal newI newFinal).lo i ≤ (combinedSubF fl oldI oldFinal newI newFinal).hi i := by
  simp only [combinedSubF, if_neg h1, if_neg h2, hold.ne', if_false]
  exact localCoordF_mono hfl hold hnew

example : (combinedSubF (roundFloat 53) ⟨fun _ => -1 / 2, fun _ => 1 / 3⟩ ⟨fun _ => -1 / 2, fun _ => 1 / 3⟩ ⟨fun _ => 1 / 4, fun _ => 3 / 4⟩
      (⟨fun _ => 1 / 4, fun _ => 3 / 4⟩ : Box 1 ℚ)).lo 0 ≤
    (combinedSubF (roundFloat 53) ⟨fun _ => -1 / 2, fun _ => 1 / 3⟩ ⟨fun _ => -1 / 2, fun _ => 1 / 3⟩ ⟨fun _ => 1 / 4, fun _ => 3 / 4⟩
      (⟨fun _ => 1 / 4, fun _ => 3 / 4⟩ : Box 1 ℚ)).hi 0 :=
  C113_ordered (roundFloat_nearest (by norm_num)) _ _ _ _ 0 (by norm_num) (by norm_num) (by norm_num) (by norm_num)

/-- Children of the interval `[-1, 1]` on both sides of zero. -/
def exCombF (lo hi : ℚ) : TrackedInterval 1 ℚ := (TrackedInterval.new (Box.unit 1 ℚ)).addTransformF (roundFloat 53) ⟨fun _ => lo, fun _ => hi⟩

/-- **C113 is false** without the tolerance: two boxes of length `2 ^ -60` that touch in zero are combined to a tracked box of length `2 ^ -59`, while the
transform recorded for the polynomials takes the whole cube to the point zero; `2 ^ -61` is a point of the second box and of the tracked box. -/
theorem C113_false : ∃ fl : ℚ → ℚ, RoundsToNearest 53 fl ∧ ∃ (r1 r2 c : TrackedInterval 1 ℚ) (ab : AffTr 1 ℚ),
    combineExteriorF fl (TrackedInterval.new (Box.unit 1 ℚ)) [r1, r2] = .ok [c] ∧
      (r2.getFinalIntervalF fl).lo 0 = 0 ∧ (r2.getFinalIntervalF fl).hi 0 = 1 / 2 ^ 60 ∧
      c.interval.lo 0 = -(1 / 2 ^ 60) ∧ c.interval.hi 0 = 1 / 2 ^ 60 ∧ c.reRun = true ∧ c.getLastTransform = some ab ∧ ∀ t, ab.1 0 * t + ab.2 0 = 0 := by
  have hr := roundFloat_nearest (K := ℚ) (p := 53) (by norm_num)
  obtain ⟨r, hr', -⟩ := C113_tracked (roundFloat 53) (TrackedInterval.new (Box.unit 1 ℚ)) rfl [exCombF (-(1 / 2 ^ 60)) 0, exCombF 0 (1 / 2 ^ 60)]
  have h : ((combineExteriorF (roundFloat 53) (TrackedInterval.new (Box.unit 1 ℚ)) [exCombF (-(1 / 2 ^ 60)) 0, exCombF 0 (1 / 2 ^ 60)]).toOption.map fun r =>
      decide (r.length = 1) && r.all fun c => decide (c.interval.lo 0 = -(1 / 2 ^ 60)) && decide (c.interval.hi 0 = 1 / 2 ^ 60) && c.reRun &&
        match c.getLastTransform with
        | some ab => decide (ab.1 0 = 0) && decide (ab.2 0 = 0)
        | none => false) = some true := by decide +kernel
  rw [hr'] at h
  simp only [Except.toOption, Option.map_some, Option.some.injEq, Bool.and_eq_true, decide_eq_true_eq] at h
  obtain ⟨h1, h2⟩ := h
  match r, h1 with
  | [c], _ =>
    simp only [List.all_cons, List.all_nil, Bool.and_true, Bool.and_eq_true, decide_eq_true_eq] at h2
    obtain ⟨⟨⟨h3, h4⟩, h5⟩, h6⟩ := h2
    split at h6
    · next ab hab =>
      rw [Bool.and_eq_true, decide_eq_true_eq, decide_eq_true_eq] at h6
      refine ⟨roundFloat 53, hr, _, _, c, ab, hr', by decide +kernel, by decide +kernel, h3, h4, h5, hab, fun t => ?_⟩
      rw [h6.1, h6.2]
      ring
    · cases h6

/-- `C113_sub_partial` on two children of `[-1, 1]`: the tolerance is `2 ^ -49 * 3 / 4`. -/
example (y : ℚ) (hy : (-1 / 2 ≤ y ∧ y ≤ 1 / 4) ∨ (1 / 4 ≤ y ∧ y ≤ 3 / 4)) :
    let sub := combinedSubF (roundFloat 53) (Box.unit 1 ℚ) ((TrackedInterval.new (Box.unit 1 ℚ)).getFinalIntervalF (roundFloat 53)) ⟨fun _ => -1 / 2, fun _ => 3 / 4⟩
      (Box.hull ((exCombF (-1 / 2) (1 / 4)).getFinalIntervalF (roundFloat 53)) ((exCombF (1 / 4) (3 / 4)).getFinalIntervalF (roundFloat 53)))
    sub.lo 0 - (1 / 2 + 1) / 2 ^ 50 ≤ y ∧ y ≤ sub.hi 0 + (1 / 2 + 1) / 2 ^ 50 := by
  have e1 : ((exCombF (-1 / 2) (1 / 4)).getFinalIntervalF (roundFloat 53)).lo 0 = -1 / 2 := by decide +kernel
  have e2 : ((exCombF (-1 / 2) (1 / 4)).getFinalIntervalF (roundFloat 53)).hi 0 = 1 / 4 := by decide +kernel
  have e3 : ((exCombF (1 / 4) (3 / 4)).getFinalIntervalF (roundFloat 53)).lo 0 = 1 / 4 := by decide +kernel
  have e4 : ((exCombF (1 / 4) (3 / 4)).getFinalIntervalF (roundFloat 53)).hi 0 = 3 / 4 := by decide +kernel
  have h := C113_sub_partial (roundFloat_nearest (K := ℚ) (p := 53) (by norm_num)) (TrackedInterval.new (Box.unit 1 ℚ)) (exCombF (-1 / 2) (1 / 4))
    (exCombF (1 / 4) (3 / 4)) 0 (a := -1) (b := 1) (m := 1) (by decide +kernel) (by decide +kernel) (by norm_num) (by norm_num) (by norm_num)
    (by rw [e1, e2]; norm_num) (by rw [e3, e4]; norm_num) ⟨fun _ => -1 / 2, fun _ => 3 / 4⟩ y (by rw [e1, e2, e3, e4]; exact hy)
  intro sub
  have h5 : (2 * y - -1 - 1) / (1 - -1) = y := by ring
  have h6 : (1 : ℚ) / (1 - -1) = 1 / 2 := by norm_num
  rw [h5, h6] at h
  exact h

/-- `C113_tracked` on three boxes: two of them touch and are combined. -/
example : ∃ r, combineExteriorF (roundFloat 53) (TrackedInterval.new (Box.unit 1 ℚ)) [exCombF (-1 / 2) (1 / 4), exCombF (7 / 8) 1, exCombF (1 / 4) (3 / 4)] = .ok r ∧
    r.length = 2 ∧ ∃ u ∈ r, u.getIntervalForCombining.Mem fun _ => 1 / 3 := by
  obtain ⟨r, hr, h, -⟩ := C113_tracked (roundFloat 53) (TrackedInterval.new (Box.unit 1 ℚ)) rfl
    [exCombF (-1 / 2) (1 / 4), exCombF (7 / 8) 1, exCombF (1 / 4) (3 / 4)]
  refine ⟨r, hr, ?_, h (exCombF (1 / 4) (3 / 4)) (by simp) _ ?_⟩
  · have h' : ((combineExteriorF (roundFloat 53) (TrackedInterval.new (Box.unit 1 ℚ)) [exCombF (-1 / 2) (1 / 4), exCombF (7 / 8) 1, exCombF (1 / 4) (3 / 4)]).toOption.map
      fun r => r.length) = some 2 := by decide +kernel
    rw [hr] at h'
    simpa [Except.toOption] using h'
  · unfold Box.Mem
    decide +kernel

end YRoots
