import Verif.Proofs.Interval
import Mathlib.Data.Rat.Defs
import Mathlib.Tactic.NormNum
import Mathlib.Tactic.FinCases

/-!
# Property C15: interval tracking

Specification: `Box.map B` is the affine map of `[-1,1]^n` onto the box `B`, `applyAll tr` the
composition of the recorded transforms (first recorded = outermost), `Box.Within` inclusion.
-/

namespace YRoots

variable {n : ℕ} {K : Type*} [Field K] [LinearOrder K] [IsStrictOrderedRing K]

/-- An operation on a tracked interval. -/
inductive TOp (n : ℕ) (K : Type*) where
  | add (sub : Box n K)
  | copy
  | startFinal

/-- Effect of an operation. -/
def TOp.run (t : TrackedInterval n K) : TOp n K → TrackedInterval n K
  | .add sub => t.addTransform sub
  | .copy => t.copy
  | .startFinal => t.startFinalStep

/-- All sub-intervals handed to `addTransform` lie in `[-1,1]^n`. -/
def TOp.InUnit : TOp n K → Prop
  | .add sub => sub.Within (Box.unit n K)
  | _ => True

/-- The invariant. -/
structure Tracks (B : Box n K) (t : TrackedInterval n K) : Prop where
  top : t.topInterval = B
  ordered : t.interval.Ordered
  image : ∀ x, t.interval.map x = B.map (applyAll t.transforms x)
  within : t.interval.Within B
  pre : t.finalStep = true →
    t.preFinalInterval.Ordered ∧ t.preFinalInterval.Within B ∧ t.interval.Within t.preFinalInterval ∧
      ∀ x, t.preFinalInterval.map x = B.map (applyAll t.preFinalTransforms x)

theorem within_trans {A B C : Box n K} (h : A.Within B) (h' : B.Within C) : A.Within C :=
  fun i => ⟨(h' i).1.trans (h i).1, (h i).2.trans (h' i).2⟩

theorem applySub_within (t : TrackedInterval n K) (s : Box n K) (ht : t.interval.Ordered)
    (ho : s.Ordered) (hw : s.Within (Box.unit n K)) :
    (t.applySub s).interval.Ordered ∧ (t.applySub s).interval.Within t.interval := by
  rw [TrackedInterval.applySub_interval t s ho hw]
  constructor
  · intro i
    have := ht i; have := ho i
    simp only [Box.map]
    nlinarith
  · intro i
    have h1 := ht i
    have h2 := (hw i).1
    have h3 := (hw i).2
    simp only [Box.unit] at h2 h3
    simp only [Box.map]
    constructor <;> nlinarith

theorem Tracks.step {B : Box n K} {t : TrackedInterval n K} (h : Tracks B t) (op : TOp n K)
    (hop : op.InUnit) : Tracks B (op.run t) := by
  cases op with
  | copy =>
    simp only [TOp.run, TrackedInterval.copy]
    split
    · rename_i hf
      exact ⟨h.top, h.ordered, h.image, h.within, fun _ => h.pre hf⟩
    · exact ⟨h.top, h.ordered, h.image, h.within, fun hf => by simp [TrackedInterval.new] at hf⟩
  | startFinal =>
    exact ⟨h.top, h.ordered, h.image, h.within,
      fun _ => ⟨h.ordered, h.within, fun i => ⟨le_rfl, le_rfl⟩, h.image⟩⟩
  | add sub =>
    simp only [TOp.run]
    rcases t.addTransform_cases sub hop with ⟨-, -, e⟩ | ⟨s, ho, hw, -, e⟩
    · rw [e]; exact ⟨h.top, h.ordered, h.image, h.within, h.pre⟩
    · rw [e]
      obtain ⟨h1, h2⟩ := applySub_within t s h.ordered ho hw
      refine ⟨h.top, h1, ?_, within_trans h2 h.within, ?_⟩
      · intro x
        rw [TrackedInterval.applySub_map t s ho hw, h.image]
        simp only [TrackedInterval.applySub, applyAll_append, applyAll_singleton]
        rfl
      · intro hf
        obtain ⟨p1, p2, p3, p4⟩ := h.pre hf
        exact ⟨p1, p2, within_trans h2 p3, p4⟩

theorem Tracks.new {B : Box n K} (hB : B.Ordered) : Tracks B (TrackedInterval.new B) :=
  ⟨rfl, hB, fun _ => rfl, fun _ => ⟨le_rfl, le_rfl⟩, fun h => by simp [TrackedInterval.new] at h⟩

theorem Tracks.run {B : Box n K} (ops : List (TOp n K)) {t : TrackedInterval n K} (h : Tracks B t)
    (hops : ∀ op ∈ ops, op.InUnit) : Tracks B (ops.foldl TOp.run t) := by
  induction ops generalizing t with
  | nil => exact h
  | cons a l ih =>
    exact ih (h.step a (hops a List.mem_cons_self)) fun op ho => hops op (List.mem_cons_of_mem _ ho)

/-- **C15**, tracked interval: after any sequence of operations whose sub-intervals lie in `[-1,1]^n`, on
a tracked interval created from any box `B` with lower ≤ upper, the tracked interval is the
image of `[-1,1]^n` under (the map onto `B`) ∘ (composed recorded transforms), has lower ≤ upper, and
lies in `B`; in the final step the same holds of the saved pre-final interval, which contains the
current one. -/
theorem C15_tracking (B : Box n K) (hB : B.Ordered) (ops : List (TOp n K))
    (hops : ∀ op ∈ ops, op.InUnit) :
    let t := ops.foldl TOp.run (TrackedInterval.new B)
    (∀ x, t.interval.map x = B.map (applyAll t.transforms x)) ∧ t.interval.Ordered ∧
      t.interval.Within B ∧
      (t.finalStep = true → (∀ x, t.preFinalInterval.map x = B.map (applyAll t.preFinalTransforms x)) ∧
        t.preFinalInterval.Ordered ∧ t.interval.Within t.preFinalInterval) := by
  have h := Tracks.run ops (Tracks.new hB) hops
  exact ⟨h.image, h.ordered, h.within, fun hf => ⟨(h.pre hf).2.2.2, (h.pre hf).1, (h.pre hf).2.2.1⟩⟩

/-- Instance: from `[0,2]` the upper half, then its lower quarter. -/
example : let t := ([.add ⟨![0], ![1]⟩, .add ⟨![-1], ![-1 / 2]⟩] : List (TOp 1 ℚ)).foldl TOp.run (TrackedInterval.new ⟨![0], ![2]⟩)
    t.interval.Ordered ∧ t.interval.Within ⟨![0], ![2]⟩ := by
  have h := C15_tracking (⟨![0], ![2]⟩ : Box 1 ℚ) (fun i => by fin_cases i; norm_num) [.add ⟨![0], ![1]⟩, .add ⟨![-1], ![-1 / 2]⟩] (by
    intro op hop
    simp only [List.mem_cons, List.not_mem_nil, or_false] at hop
    rcases hop with rfl | rfl <;> simp only [TOp.InUnit] <;> intro i <;> fin_cases i <;> norm_num [Box.unit])
  exact ⟨h.2.1, h.2.2.1⟩

/-- **C15**, nesting: each single step shrinks the interval. -/
theorem C15_nested (B : Box n K) (hB : B.Ordered) (ops : List (TOp n K))
    (hops : ∀ op ∈ ops, op.InUnit) (op : TOp n K) (hop : op.InUnit) :
    let t := ops.foldl TOp.run (TrackedInterval.new B)
    (op.run t).interval.Within t.interval := by
  intro t
  have h := Tracks.run ops (Tracks.new hB) hops
  cases op with
  | copy =>
    simp only [TOp.run, TrackedInterval.copy]
    split <;> exact fun i => ⟨le_rfl, le_rfl⟩
  | startFinal => exact fun i => ⟨le_rfl, le_rfl⟩
  | add sub =>
    simp only [TOp.run]
    rcases t.addTransform_cases sub hop with ⟨-, -, e⟩ | ⟨s, ho, hw, -, e⟩
    · rw [e]; exact fun i => ⟨le_rfl, le_rfl⟩
    · rw [e]; exact (applySub_within t s h.ordered ho hw).2

/-- Instance: one more half after the final step has begun. -/
example : let t := ([.add ⟨![0], ![1]⟩, .startFinal] : List (TOp 1 ℚ)).foldl TOp.run (TrackedInterval.new ⟨![0], ![2]⟩)
    ((TOp.add ⟨![0], ![1]⟩).run t).interval.Within t.interval :=
  C15_nested (⟨![0], ![2]⟩ : Box 1 ℚ) (fun i => by fin_cases i; norm_num) [.add ⟨![0], ![1]⟩, .startFinal] (by
    intro op hop
    simp only [List.mem_cons, List.not_mem_nil, or_false] at hop
    rcases hop with rfl | rfl <;> simp only [TOp.InUnit]
    intro i; fin_cases i; norm_num [Box.unit]) _ (by
    simp only [TOp.InUnit]; intro i; fin_cases i; norm_num [Box.unit])

theorem Tracks.final {t : TrackedInterval n K} (h : Tracks (Box.unit n K) t) :
    t.getFinalInterval = t.getIntervalForCombining ∧
      t.getFinalPoint = fun i => (t.interval.lo i + t.interval.hi i) / 2 := by
  have e : ∀ tr (I : Box n K), (∀ x, I.map x = (Box.unit n K).map (applyAll tr x)) →
      (∀ i, TrackedInterval.replay tr i (t.topInterval.lo i) = I.lo i) ∧
      (∀ i, TrackedInterval.replay tr i (t.topInterval.hi i) = I.hi i) := by
    intro tr I hI
    constructor
    · intro i
      rw [h.top, ← TrackedInterval.map_lo I, hI, TrackedInterval.unit_map,
        TrackedInterval.replay_eq_const]
      rfl
    · intro i
      rw [h.top, ← TrackedInterval.map_hi I, hI, TrackedInterval.unit_map,
        TrackedInterval.replay_eq_const]
      rfl
  have hI : t.getFinalInterval = t.getIntervalForCombining := by
    unfold TrackedInterval.getFinalInterval TrackedInterval.getIntervalForCombining
    split
    · rename_i hf
      have := e _ _ (h.pre hf).2.2.2
      ext i
      · exact this.1 i
      · exact this.2 i
    · have := e _ _ h.image
      ext i
      · exact this.1 i
      · exact this.2 i
  refine ⟨hI, ?_⟩
  unfold TrackedInterval.getFinalPoint
  split
  · rename_i hf
    rw [hI]
    simp only [TrackedInterval.getIntervalForCombining]
    simp at hf
    simp [hf]
  · funext i
    have := e _ _ h.image
    rw [this.1, this.2]

/-- **C15**, reported interval: for tracked intervals created on `[-1,1]^n` (the only ones the solver
creates, line 1423) `getFinalInterval` is the tracked interval (the pre-final one in the final step)
and `getFinalPoint` its midpoint (that of the current interval in the final step).
`_partial`: for other top intervals it is false, see `C15_final_interval_false`. -/
theorem C15_final_interval_partial (ops : List (TOp n K)) (hops : ∀ op ∈ ops, op.InUnit) :
    let t := ops.foldl TOp.run (TrackedInterval.new (Box.unit n K))
    (t.finalStep = false → t.getFinalInterval = t.interval) ∧
      (t.finalStep = true → t.getFinalInterval = t.preFinalInterval) ∧
      t.getFinalPoint = fun i => (t.interval.lo i + t.interval.hi i) / 2 := by
  intro t
  have hB : (Box.unit n K).Ordered := fun i => by simp only [Box.unit]; linarith [zero_lt_one (α := K)]
  have h := (Tracks.run ops (Tracks.new hB) hops).final
  refine ⟨fun hf => ?_, fun hf => ?_, h.2⟩
  · rw [h.1]; simp only [TrackedInterval.getIntervalForCombining, t, hf]; simp
  · rw [h.1]; simp only [TrackedInterval.getIntervalForCombining, t, hf]; simp

/-- Instance: the upper half of `[-1,1]`, then the final step with another half. -/
example : let t := ([.add ⟨![0], ![1]⟩, .startFinal, .add ⟨![0], ![1]⟩] : List (TOp 1 ℚ)).foldl TOp.run (TrackedInterval.new (Box.unit 1 ℚ))
    t.finalStep = true ∧ t.getFinalInterval = t.preFinalInterval := by
  refine ⟨by decide +kernel, (C15_final_interval_partial [.add ⟨![0], ![1]⟩, .startFinal, .add ⟨![0], ![1]⟩] ?_).2.1 (by decide +kernel)⟩
  intro op hop
  simp only [List.mem_cons, List.not_mem_nil, or_false] at hop
  rcases hop with rfl | rfl | rfl <;> simp only [TOp.InUnit] <;> intro i <;> fin_cases i <;> norm_num [Box.unit]

/-- **C15 is false** for other starting intervals: `TrackedInterval([[0,2]])` after
`addTransform([[0,1]])` tracks `[1,2]`, but `getFinalInterval` returns `[0.5,1.5]`: it
applies the recorded transforms to the top interval instead of to `[-1,1]`. -/
theorem C15_final_interval_false :
    let t := (TrackedInterval.new (⟨![0], ![2]⟩ : Box 1 ℚ)).addTransform ⟨![0], ![1]⟩
    t.finalStep = false ∧ t.interval = ⟨![1], ![2]⟩ ∧ t.getFinalInterval = ⟨![1 / 2], ![3 / 2]⟩ := by
  have e : (TrackedInterval.new (⟨![0], ![2]⟩ : Box 1 ℚ)).addTransform ⟨![0], ![1]⟩
      = (TrackedInterval.new (⟨![0], ![2]⟩ : Box 1 ℚ)).applySub ⟨![0], ![1]⟩ := by
    norm_num [TrackedInterval.addTransform]
  simp only [e]
  refine ⟨rfl, ?_, ?_⟩
  · ext i <;> fin_cases i <;> norm_num [TrackedInterval.applySub, TrackedInterval.stepBounds, TrackedInterval.new]
  · ext i <;> fin_cases i <;> norm_num [TrackedInterval.applySub, TrackedInterval.getFinalInterval,
      TrackedInterval.new, TrackedInterval.replay_eq_const, applyAll]

/-- The hypotheses are met by: halve twice, start the final step, copy, zoom. -/
example : ∀ op ∈ ([.add ⟨![0, -1], ![1, 1]⟩, .add ⟨![-1, -1], ![1, 0]⟩, .startFinal, .copy,
    .add ⟨![0, 1], ![1 / 3, 1]⟩] : List (TOp 2 ℚ)), op.InUnit := by
  intro op hop
  simp only [List.mem_cons, List.not_mem_nil, or_false] at hop
  rcases hop with rfl | rfl | rfl | rfl | rfl <;> simp only [TOp.InUnit] <;> intro i <;> fin_cases i <;>
    norm_num [Box.unit]

/-- ... and the tracked interval then is the expected `[1/2,2/3] × [0,0]`, inside the pre-final
`[0,1] × [-1,0]`. -/
example :
    let t := ([.add ⟨![0, -1], ![1, 1]⟩, .add ⟨![-1, -1], ![1, 0]⟩, .startFinal, .copy,
      .add ⟨![0, 1], ![1 / 3, 1]⟩] : List (TOp 2 ℚ)).foldl TOp.run (TrackedInterval.new (Box.unit 2 ℚ))
    t.interval.lo = ![1 / 2, 0] ∧ t.interval.hi = ![2 / 3, 0] ∧ t.preFinalInterval.lo = ![0, -1] := by
  decide +kernel

end YRoots
