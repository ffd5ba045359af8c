import Verif.Model.Interval
import Verif.Proofs.TransformEF
import Mathlib.Tactic.Linarith
import Mathlib.Tactic.FieldSimp
import Mathlib.Tactic.Ring

/-!
# Helper lemmas on tracked intervals
-/

set_option linter.unusedSectionVars false
set_option linter.unusedSimpArgs false

namespace YRoots

variable {n : ℕ} {K : Type*} [Field K] [LinearOrder K]

/-- Composition of recorded transforms: the first one is outermost. -/
def applyAll (tr : List (AffTr n K)) (x : Fin n → K) : Fin n → K :=
  tr.foldr (fun ab y i => ab.1 i * y i + ab.2 i) x

@[simp] theorem applyAll_nil (x : Fin n → K) : applyAll [] x = x := rfl

@[simp] theorem applyAll_append (a b : List (AffTr n K)) (x : Fin n → K) :
    applyAll (a ++ b) x = applyAll a (applyAll b x) := by
  simp [applyAll, List.foldr_append]

theorem applyAll_singleton (t : AffTr n K) (x : Fin n → K) :
    applyAll [t] x = fun i => t.1 i * x i + t.2 i := rfl

namespace TrackedInterval

theorem replay_eq (tr : List (AffTr n K)) (i : Fin n) (x : Fin n → K) :
    replay tr i (x i) = applyAll tr x i := by
  have h : ∀ tr : List (AffTr n K), tr.foldr (fun ab p => replayStep (ab.1 i) (ab.2 i) p) (x i, 0)
      = (applyAll tr x i, 0) := by
    intro tr
    induction tr with
    | nil => rfl
    | cons a tr ih =>
      rw [List.foldr_cons, ih]
      simp [replayStep, twoProd_eq, twoSum_eq, applyAll, mul_comm]
  unfold replay
  simp only [h]
  simp

theorem replay_eq_const (tr : List (AffTr n K)) (i : Fin n) (v : K) :
    replay tr i v = applyAll tr (fun _ => v) i := replay_eq tr i (fun _ => v)

variable [IsStrictOrderedRing K]

theorem stepBounds_eq (lo hi x0 x1 : K) (h0 : -1 ≤ x0) (h01 : x0 ≤ x1) :
    stepBounds lo hi x0 x1
      = ((hi - lo) / 2 * x0 + (hi + lo) / 2, (hi - lo) / 2 * x1 + (hi + lo) / 2) := by
  unfold stepBounds
  simp only []
  congr 1
  · split
    · rename_i h; rw [h]; ring
    · split
      · rename_i h; rw [h]; ring
      · rfl
  · by_cases h1 : x1 = -1
    · have h2 : x0 = -1 := by linarith [le_antisymm (h01.trans h1.le) h0]
      rw [if_pos h1, if_pos h2, h1]; ring
    · rw [if_neg h1]
      split
      · rename_i h; rw [h]; ring
      · rfl

/-- The interval after `applySub`, for ordered sub-intervals of the cube. -/
theorem applySub_interval (t : TrackedInterval n K) (sub : Box n K) (ho : sub.Ordered)
    (hw : sub.Within (Box.unit n K)) :
    (t.applySub sub).interval = ⟨t.interval.map sub.lo, t.interval.map sub.hi⟩ := by
  unfold applySub Box.map
  simp only []
  congr 1 <;> funext i <;> rw [stepBounds_eq _ _ _ _ (hw i).1 (ho i)]

theorem applySub_map (t : TrackedInterval n K) (sub : Box n K) (ho : sub.Ordered)
    (hw : sub.Within (Box.unit n K)) (x : Fin n → K) :
    (t.applySub sub).interval.map x = t.interval.map (sub.map x) := by
  rw [applySub_interval t sub ho hw]
  funext i
  simp only [Box.map]
  ring

theorem clampSub_ordered (sub : Box n K) : (clampSub sub).Ordered := fun i => le_max_right _ _

theorem clampSub_within (sub : Box n K) : (clampSub sub).Within (Box.unit n K) := by
  intro i
  have h : (-1 : K) ≤ 1 := by linarith [zero_lt_one (α := K)]
  refine ⟨le_max_right _ _, ?_⟩
  exact max_le (min_le_right _ _) (max_le (min_le_right _ _) h)

/-- What `addTransform` does on sub-intervals of the cube. -/
theorem addTransform_cases (t : TrackedInterval n K) (sub : Box n K)
    (hw : sub.Within (Box.unit n K)) :
    ((∃ i, sub.hi i < sub.lo i) ∧ t.canThrowOut = true ∧ t.addTransform sub = { t with empty := true }) ∨
    ∃ s : Box n K, s.Ordered ∧ s.Within (Box.unit n K) ∧ (sub.Ordered → s = sub) ∧
      t.addTransform sub = t.applySub s := by
  unfold addTransform
  by_cases h : ∃ i, sub.lo i > sub.hi i
  · by_cases hc : t.canThrowOut = true
    · left; simp [h, hc]
    · right
      refine ⟨clampSub sub, clampSub_ordered sub, clampSub_within sub, ?_, by simp [h, hc]⟩
      intro ho; obtain ⟨i, hi⟩ := h; exact absurd (ho i) (not_le.2 hi)
  · right
    refine ⟨sub, fun i => ?_, hw, fun _ => rfl, by simp [h]⟩
    exact not_lt.1 fun hi => h ⟨i, hi⟩

theorem map_within (B : Box n K) (hB : B.Ordered) {x : Fin n → K} (hx : InCube x) :
    Box.Mem (B.map x) B := by
  intro i
  have h := abs_le.1 (hx i)
  have hB := hB i
  simp only [Box.map]
  constructor <;> nlinarith [h.1, h.2]

theorem map_lo (B : Box n K) : B.map (fun _ => -1) = B.lo := by
  funext i; simp only [Box.map]; ring

theorem map_hi (B : Box n K) : B.map (fun _ => 1) = B.hi := by
  funext i; simp only [Box.map]; ring

theorem unit_map (x : Fin n → K) : (Box.unit n K).map x = x := by
  funext i; simp [Box.map, Box.unit]

theorem box_eq_of_map {B C : Box n K} (h : ∀ x, B.map x = C.map x) : B = C := by
  ext i
  · rw [← map_lo B, h, map_lo]
  · rw [← map_hi B, h, map_hi]

/-- Every point of an ordered box is the image of a point of the cube. -/
theorem exists_map_eq (B : Box n K) {y : Fin n → K} (hy : Box.Mem y B) :
    ∃ x, InCube x ∧ B.map x = y := by
  have : ∀ i, ∃ t : K, |t| ≤ 1 ∧ (B.hi i - B.lo i) / 2 * t + (B.hi i + B.lo i) / 2 = y i := by
    intro i
    obtain ⟨h1, h2⟩ := hy i
    rcases eq_or_lt_of_le (h1.trans h2) with h | h
    · exact ⟨0, by simp, by rw [← h] at h2 ⊢; rw [← le_antisymm h1 h2]; ring⟩
    · have hd : (0 : K) < B.hi i - B.lo i := by linarith
      refine ⟨(2 * y i - B.hi i - B.lo i) / (B.hi i - B.lo i), ?_, ?_⟩
      · rw [abs_le, le_div_iff₀ hd, div_le_iff₀ hd]
        constructor <;> linarith
      · field_simp; ring
  choose x hx using this
  exact ⟨x, fun i => (hx i).1, funext fun i => (hx i).2⟩

/-- Where the point with local coordinates in the sub-box goes. -/
theorem mem_sub_map (B sub : Box n K) (hB : B.Ordered) {x : Fin n → K}
    (hx : Box.Mem x sub) : Box.Mem (B.map x) ⟨B.map sub.lo, B.map sub.hi⟩ := by
  intro i
  have := hB i
  obtain ⟨h1, h2⟩ := hx i
  simp only [Box.map]
  constructor <;> nlinarith

end TrackedInterval

end YRoots
