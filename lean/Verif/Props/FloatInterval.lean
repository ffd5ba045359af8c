import Verif.Proofs.FloatInterval
import Verif.Model.Solve

/-!
# Properties C103, C104 and C105: interval tracking in floating-point arithmetic

Specification: in exact arithmetic the tracked interval is ordered, inside the previous one, and the reported interval is the tracked one (C15).
Here the same operations are carried out with every arithmetic operation rounded to nearest with 53 bits (`RoundsToNearest 53`; overflow
and underflow left out).
-/

set_option linter.unusedSectionVars false

namespace YRoots

variable {n : ℕ} {K : Type*} [Field K] [LinearOrder K] [IsStrictOrderedRing K]

/-! ### C103 -/

/-- First sub-interval of the witness. -/
def w103a : Box 1 ℚ := ⟨![-5310211665428477 / 2 ^ 53], ![-1866296 / 2 ^ 22]⟩

/-- Second sub-interval of the witness, `[1 - 2⁻⁵³, 1]`. -/
def w103b : Box 1 ℚ := ⟨![1 - 1 / 2 ^ 53], ![1]⟩

/-- Another second sub-interval, `[-1, 1 - 2⁻⁵³]`. -/
def w103c : Box 1 ℚ := ⟨![-1], ![1 - 1 / 2 ^ 53]⟩

/-- **C103 is false** as ordering and nesting: from `[-1,1]` two calls of `addTransform`, with ordered sub-intervals in `[-1,1]` whose bounds
are doubles, give a tracked interval whose lower bound is above its upper bound although it is not marked empty; with another second
sub-interval the new interval sticks out of the one before. -/
theorem C103_nested_false :
    ∃ (fl : ℚ → ℚ) (a b c : Box 1 ℚ), RoundsToNearest 53 fl ∧
      (∀ s ∈ [a, b, c], s.Ordered ∧ s.Within (Box.unit 1 ℚ) ∧ ∀ i, IsFloat 53 (s.lo i) ∧ IsFloat 53 (s.hi i)) ∧
      let t₁ := (TrackedInterval.new (Box.unit 1 ℚ)).addTransformF fl a
      let t₂ := t₁.addTransformF fl b
      let t₃ := t₁.addTransformF fl c
      t₁.interval.Ordered ∧ t₂.empty = false ∧ ¬ t₂.interval.Ordered ∧ t₃.empty = false ∧ ¬ t₃.interval.Within t₁.interval := by
  refine ⟨roundFloat 53, w103a, w103b, w103c, roundFloat_nearest (by norm_num), ?_, ?_⟩
  · intro s hs
    simp only [List.mem_cons, List.not_mem_nil, or_false] at hs
    rcases hs with rfl | rfl | rfl
    · refine ⟨fun i => ?_, fun i => ?_, fun i => ?_⟩
      · fin_cases i; norm_num [w103a]
      · fin_cases i; norm_num [w103a, Box.unit]
      · fin_cases i
        exact ⟨⟨-5310211665428477, -53, by norm_num, by norm_num [w103a]⟩, ⟨-1866296 * 2 ^ 32, -54, by norm_num, by norm_num [w103a]⟩⟩
    · refine ⟨fun i => ?_, fun i => ?_, fun i => ?_⟩
      · fin_cases i; norm_num [w103b]
      · fin_cases i; norm_num [w103b, Box.unit]
      · fin_cases i
        exact ⟨⟨2 ^ 53 - 1, -53, by norm_num, by norm_num [w103b]⟩, ⟨2 ^ 52, -52, by norm_num, by norm_num [w103b]⟩⟩
    · refine ⟨fun i => ?_, fun i => ?_, fun i => ?_⟩
      · fin_cases i; norm_num [w103c]
      · fin_cases i; norm_num [w103c, Box.unit]
      · fin_cases i
        exact ⟨⟨-2 ^ 52, -52, by norm_num, by norm_num [w103c]⟩, ⟨2 ^ 53 - 1, -53, by norm_num, by norm_num [w103c]⟩⟩
  · refine ⟨?_, ?_, ?_, ?_, ?_⟩
    · intro i; fin_cases i
      decide +kernel
    · decide +kernel
    · intro h
      exact absurd (h 0) (by decide +kernel)
    · decide +kernel
    · intro h
      exact absurd (h 0).2 (by decide +kernel)

/-- **C103**, distance: after any sequence of operations with sub-intervals in `[-1,1]^n`, `k` of them calls of `addTransform`, the rounded run
takes the same decisions as the exact one (empty, final step) and every bound of its interval, and of the saved pre-final interval, is
within `(1 + 4·2⁻⁵³)^k - 1` of the exact one.
`_partial`: ordering and nesting themselves fail, `C103_nested_false`. -/
theorem C103_tracking_float_partial [FloorRing K] {fl : K → K} (hfl : RoundsToNearest 53 fl) (ops : List (TOp n K))
    (hops : ∀ op ∈ ops, op.InUnit) :
    let s := ops.foldl (TOp.runF fl) (TrackedInterval.new (Box.unit n K))
    let t := ops.foldl TOp.run (TrackedInterval.new (Box.unit n K))
    let D : K := (1 + 4 / 2 ^ 53) ^ TOp.adds ops - 1
    s.empty = t.empty ∧ s.finalStep = t.finalStep ∧
      (∀ i, |s.interval.lo i - t.interval.lo i| ≤ D ∧ |s.interval.hi i - t.interval.hi i| ≤ D) ∧
      (t.finalStep = true → ∀ i, |s.preFinalInterval.lo i - t.preFinalInterval.lo i| ≤ D ∧
        |s.preFinalInterval.hi i - t.preFinalInterval.hi i| ≤ D) := by
  intro s t D
  have h := Sim.run hfl ops (Sim.new (n := n) (K := K)) hops
  have e : (1 + 4 * uu K) ^ (0 + TOp.adds ops) - 1 = D := by simp only [D, uu, zero_add, mul_one_div]
  refine ⟨h.empty, h.finalStep, fun i => ?_, fun hf i => ?_⟩
  · have := h.interval i
    rwa [e] at this
  · have := (h.pre hf).1 i
    rwa [e] at this

theorem pow4_le {k : ℕ} (hk : k ≤ 2 ^ 48) : (1 + 4 / 2 ^ 53 : K) ^ k - 1 ≤ 8 * k / 2 ^ 53 := by
  have hu := uu_nonneg (K := K)
  have h1 : (1 + 4 / 2 ^ 53 : K) ≤ (1 + uu K) ^ 4 := by
    have : (1 + uu K) ^ 4 = 1 + 4 * uu K + (6 * uu K ^ 2 + 4 * uu K ^ 3 + uu K ^ 4) := by ring
    rw [this]
    have h2 : (4 : K) / 2 ^ 53 = 4 * uu K := by unfold uu; ring
    have h3 : 0 ≤ 6 * uu K ^ 2 + 4 * uu K ^ 3 + uu K ^ 4 := by positivity
    linarith
  have h2 := pow_le_pow_left₀ (by positivity) h1 k
  rw [← pow_mul] at h2
  have h3 := uu_pow_le (K := K) (4 * k) (by omega)
  have h4 : 2 * ((4 * k : ℕ) : K) * uu K = 8 * k / 2 ^ 53 := by unfold uu; push_cast; ring
  linarith

/-- **C103**, the same with a bound in units: for at most `2^48` calls the bounds are off by at most `8 k · 2⁻⁵³`; so the rounded interval is
ordered, and inside `[-1,1]^n`, up to that much. -/
theorem C103_tracking_units_partial [FloorRing K] {fl : K → K} (hfl : RoundsToNearest 53 fl) (ops : List (TOp n K))
    (hops : ∀ op ∈ ops, op.InUnit) (hk : TOp.adds ops ≤ 2 ^ 48) :
    let s := ops.foldl (TOp.runF fl) (TrackedInterval.new (Box.unit n K))
    let t := ops.foldl TOp.run (TrackedInterval.new (Box.unit n K))
    ∀ i, |s.interval.lo i - t.interval.lo i| ≤ 8 * (TOp.adds ops : K) / 2 ^ 53 ∧
      |s.interval.hi i - t.interval.hi i| ≤ 8 * (TOp.adds ops : K) / 2 ^ 53 ∧
      s.interval.lo i ≤ s.interval.hi i + 16 * (TOp.adds ops : K) / 2 ^ 53 ∧
      -1 - 8 * (TOp.adds ops : K) / 2 ^ 53 ≤ s.interval.lo i ∧ s.interval.hi i ≤ 1 + 8 * (TOp.adds ops : K) / 2 ^ 53 := by
  intro s t i
  obtain ⟨-, -, h, -⟩ := C103_tracking_float_partial hfl ops hops
  have hD := pow4_le (K := K) hk
  have h1 := (h i).1.trans hD
  have h2 := (h i).2.trans hD
  have hu : (Box.unit n K).Ordered := fun i => by simp only [Box.unit]; linarith [zero_lt_one (α := K)]
  obtain ⟨-, ho, hw, -⟩ := C15_tracking (Box.unit n K) hu ops hops
  have h3 := ho i
  have h4 : -1 ≤ t.interval.lo i ∧ t.interval.hi i ≤ 1 := hw i
  refine ⟨h1, h2, ?_, ?_, ?_⟩
  · rw [abs_le] at h1 h2
    have : 16 * (TOp.adds ops : K) / 2 ^ 53 = 8 * (TOp.adds ops : K) / 2 ^ 53 + 8 * (TOp.adds ops : K) / 2 ^ 53 := by ring
    simp only [s, t] at *
    linarith [h1.1, h1.2, h2.1, h2.2]
  · rw [abs_le] at h1
    simp only [s, t] at *
    linarith [h1.1, h4.1]
  · rw [abs_le] at h2
    simp only [s, t] at *
    linarith [h2.2, h4.2]

/-- The two halves of an interval share the bound between them, whatever the rounding. -/
theorem split_bounds (fl : K → K) (mid : Fin n → K) (hmid : ∀ i, -1 ≤ mid i ∧ mid i ≤ 1) (d : Fin n) (t : TrackedInterval n K) :
    ∃ c : K, (t.splitIntervalF fl mid d false).interval = ⟨t.interval.lo, Function.update t.interval.hi d c⟩ ∧
      (t.splitIntervalF fl mid d true).interval = ⟨Function.update t.interval.lo d c, t.interval.hi⟩ ∧
      (t.splitIntervalF fl mid d false).empty = t.empty ∧ (t.splitIntervalF fl mid d true).empty = t.empty := by
  have hc : t.copy.interval = t.interval ∧ t.copy.empty = t.empty := by
    unfold TrackedInterval.copy; split <;> exact ⟨rfl, rfl⟩
  have h01 : (-1 : K) ≤ 1 := by linarith [zero_lt_one (α := K)]
  have hne : (1 : K) ≠ -1 := by
    intro h; linarith [zero_lt_one (α := K)]
  have o1 : ¬ ∃ i, (fun _ : Fin n => (-1 : K)) i > Function.update (fun _ : Fin n => (1 : K)) d (mid d) i := by
    rintro ⟨i, hi⟩
    by_cases e : i = d
    · subst e; simp only [Function.update_self] at hi; exact absurd (hmid i).1 (not_le.2 hi)
    · simp only [Function.update_of_ne e] at hi; exact absurd h01 (not_le.2 hi)
  have o2 : ¬ ∃ i, Function.update (fun _ : Fin n => (-1 : K)) d (mid d) i > (fun _ : Fin n => (1 : K)) i := by
    rintro ⟨i, hi⟩
    by_cases e : i = d
    · subst e; simp only [Function.update_self] at hi; exact absurd (hmid i).2 (not_le.2 hi)
    · simp only [Function.update_of_ne e] at hi; exact absurd h01 (not_le.2 hi)
  refine ⟨(TrackedInterval.stepBoundsF fl (t.interval.lo d) (t.interval.hi d) (mid d) 1).1, ?_, ?_, ?_, ?_⟩
  · simp only [TrackedInterval.splitIntervalF, TrackedInterval.addTransformF, Bool.false_eq_true, if_false]
    rw [if_neg (fun h => o1 h.1), if_neg o1]
    simp only [TrackedInterval.applySubF, hc.1]
    ext i
    · simp [TrackedInterval.stepBoundsF]
    · by_cases e : i = d
      · subst e
        simp only [TrackedInterval.stepBoundsF, Function.update_self, if_true]
      · simp only [TrackedInterval.stepBoundsF, Function.update_of_ne e, if_neg hne, if_true]
  · simp only [TrackedInterval.splitIntervalF, TrackedInterval.addTransformF, if_true]
    rw [if_neg (fun h => o2 h.1), if_neg o2]
    simp only [TrackedInterval.applySubF, hc.1]
    ext i
    · by_cases e : i = d
      · subst e
        simp only [TrackedInterval.stepBoundsF, Function.update_self]
      · simp only [TrackedInterval.stepBoundsF, Function.update_of_ne e, if_true]
    · simp [TrackedInterval.stepBoundsF, hne]
  · simp only [TrackedInterval.splitIntervalF, TrackedInterval.addTransformF, Bool.false_eq_true, if_false]
    rw [if_neg (fun h => o1 h.1), if_neg o1]
    exact hc.2
  · simp only [TrackedInterval.splitIntervalF, TrackedInterval.addTransformF, if_true]
    rw [if_neg (fun h => o2 h.1), if_neg o2]
    exact hc.2

/-- **C103**, subdivision: whatever the rounding, every point of an interval lies in one of the intervals it is subdivided into (along any
list of dimensions, split points in `[-1,1]`): the halves share their common bound exactly and keep the outer ones. -/
theorem C103_split_cover (fl : K → K) (mid : Fin n → K) (hmid : ∀ i, -1 ≤ mid i ∧ mid i ≤ 1) (dims : List (Fin n))
    (t : TrackedInterval n K) (x : Fin n → K) (hx : ∀ i, t.interval.lo i ≤ x i ∧ x i ≤ t.interval.hi i) :
    ∃ c ∈ splitAll (TrackedInterval.splitIntervalF fl mid) dims [t],
      c.empty = t.empty ∧ ∀ i, c.interval.lo i ≤ x i ∧ x i ≤ c.interval.hi i := by
  have key : ∀ (dims : List (Fin n)) (l : List (TrackedInterval n K)),
      (∃ c ∈ l, c.empty = t.empty ∧ ∀ i, c.interval.lo i ≤ x i ∧ x i ≤ c.interval.hi i) →
      ∃ c ∈ splitAll (TrackedInterval.splitIntervalF fl mid) dims l, c.empty = t.empty ∧ ∀ i, c.interval.lo i ≤ x i ∧ x i ≤ c.interval.hi i := by
    intro dims
    induction dims with
    | nil => exact fun l h => h
    | cons d ds ih =>
      rintro l ⟨c, hc, he, hm⟩
      refine ih _ ?_
      obtain ⟨m, h1, h2, h3, h4⟩ := split_bounds fl mid hmid d c
      by_cases hd : x d ≤ m
      · refine ⟨c.splitIntervalF fl mid d false, List.mem_flatMap.2 ⟨c, hc, by simp⟩, h3.trans he, fun i => ?_⟩
        rw [h1]
        refine ⟨(hm i).1, ?_⟩
        by_cases e : i = d
        · subst e; simpa using hd
        · simpa [Function.update_of_ne e] using (hm i).2
      · refine ⟨c.splitIntervalF fl mid d true, List.mem_flatMap.2 ⟨c, hc, by simp⟩, h4.trans he, fun i => ?_⟩
        rw [h2]
        refine ⟨?_, (hm i).2⟩
        by_cases e : i = d
        · subst e; simpa using (not_le.1 hd).le
        · simpa [Function.update_of_ne e] using (hm i).1
  exact key dims [t] ⟨t, List.mem_singleton_self t, rfl, hx⟩

/-- Concrete data for `C103_tracking_float_partial`: three calls, a copy and the final step; the rounded interval differs from the exact one. -/
example :
    let ops : List (TOp 1 ℚ) := [.add w103a, .copy, .startFinal, .add w103b]
    (∀ op ∈ ops, op.InUnit) ∧ TOp.adds ops = 2 ∧
      (ops.foldl (TOp.runF (roundFloat 53)) (TrackedInterval.new (Box.unit 1 ℚ))).interval.lo 0 ≠
        (ops.foldl TOp.run (TrackedInterval.new (Box.unit 1 ℚ))).interval.lo 0 := by
  refine ⟨?_, rfl, by decide +kernel⟩
  intro op hop
  simp only [List.mem_cons, List.not_mem_nil, or_false] at hop
  rcases hop with rfl | rfl | rfl | rfl <;> simp only [TOp.InUnit] <;> intro i <;> fin_cases i <;> norm_num [Box.unit, w103a, w103b]

/-- Concrete data for `C103_split_cover`: the split point of the code, in two dimensions. -/
example : ∀ i, -1 ≤ (![394555475981047 / 10000000000000000, 0] : Fin 2 → ℚ) i ∧ (![394555475981047 / 10000000000000000, 0] : Fin 2 → ℚ) i ≤ 1 := by
  intro i; fin_cases i <;> norm_num

/-! ### C104 -/

/-- The sub-interval of the witness. -/
def w104 : Box 1 ℚ := ⟨![-6755399441055747 / 2 ^ 53], ![1]⟩

/-- **C104 is false** as "the reported interval stays inside the starting one": from `[-1,1]`, the same ordered sub-interval with double bounds
three times; every upper bound is exactly 1, but the reported upper bound is above 1. -/
theorem C104_final_within_false :
    ∃ (fl : ℚ → ℚ) (a : Box 1 ℚ), RoundsToNearest 53 fl ∧ a.Ordered ∧ a.Within (Box.unit 1 ℚ) ∧
      (∀ i, IsFloat 53 (a.lo i) ∧ IsFloat 53 (a.hi i)) ∧
      let t := [TOp.add a, .add a, .add a].foldl (TOp.runF fl) (TrackedInterval.new (Box.unit 1 ℚ))
      t.interval.hi 0 = 1 ∧ (t.getFinalIntervalF fl).hi 0 = 1 + 1 / 2 ^ 52 := by
  refine ⟨roundFloat 53, w104, roundFloat_nearest (by norm_num), ?_, ?_, ?_, ?_⟩
  · intro i; fin_cases i; norm_num [w104]
  · intro i; fin_cases i; norm_num [w104, Box.unit]
  · intro i; fin_cases i
    exact ⟨⟨-6755399441055747, -53, by norm_num, by norm_num [w104]⟩, ⟨2 ^ 52, -52, by norm_num, by norm_num [w104]⟩⟩
  · exact ⟨by decide +kernel, by decide +kernel⟩

/-- **C104**, the replay: for at most `2^20` recorded transforms with double entries, `|α| + |β| ≤ 1 + 2⁻⁵³`, the bound computed by
`getFinalInterval` from a double `v` with `|v| ≤ 1` is the exact value `y` of the recorded transforms at `v`, off by no more than
one rounding of `y` and `100 k² 2⁻¹⁰⁶`. -/
theorem C104_replay [FloorRing K] {fl : K → K} (hfl : RoundsToNearest 53 fl) (l : List (AffTr n K)) (i : Fin n)
    (hl : ∀ a ∈ l, IsFloat 53 (a.1 i) ∧ IsFloat 53 (a.2 i) ∧ |a.1 i| + |a.2 i| ≤ 1 + 1 / 2 ^ 53)
    {v : K} (hv : IsFloat 53 v) (hv1 : |v| ≤ 1) (hk : l.length ≤ 2 ^ 20) :
    |TrackedInterval.replayF fl l i v - applyAll l (fun _ => v) i| ≤
      |applyAll l (fun _ => v) i| / 2 ^ 53 + 100 * (l.length : K) ^ 2 / 2 ^ 106 := by
  have h := replayF_close hfl l i hl hv hv1 hk
  have e : uu K * |applyAll l (fun _ => v) i| + 100 * (l.length : K) ^ 2 * uu K ^ 2 =
      |applyAll l (fun _ => v) i| / 2 ^ 53 + 100 * (l.length : K) ^ 2 / 2 ^ 106 := by
    unfold uu; ring
  rwa [e] at h

theorem TrClose.abs_le {a b : AffTr n K} (h : TrClose a b) (i : Fin n) : |a.1 i| + |a.2 i| ≤ 1 + uu K := by
  have h1 := abs_add_le (a.1 i - b.1 i) (b.1 i)
  have h2 := abs_add_le (a.2 i - b.2 i) (b.2 i)
  rw [sub_add_cancel] at h1 h2
  have h3 := h.alpha i
  have h4 := h.beta i
  have h5 := h.unit i
  have hu := uu_nonneg (K := K)
  nlinarith

/-- The reported bound against the exact value of the exact transforms. -/
theorem final_close [FloorRing K] {fl : K → K} (hfl : RoundsToNearest 53 fl) {l l' : List (AffTr n K)} (h : List.Forall₂ TrClose l l')
    {k : ℕ} (hlk : l.length ≤ k) (hk : k ≤ 2 ^ 20) {v : K} (hv : IsFloat 53 v) (hv1 : |v| ≤ 1) (i : Fin n) :
    |TrackedInterval.replayF fl l i v - applyAll l' (fun _ => v) i| ≤ (2 * k + 2) / 2 ^ 53 := by
  have hu := uu_nonneg (K := K)
  have hl : ∀ a ∈ l, IsFloat 53 (a.1 i) ∧ IsFloat 53 (a.2 i) ∧ |a.1 i| + |a.2 i| ≤ 1 + uu K := by
    clear hlk
    induction h with
    | nil => simp
    | cons hab _ ih =>
      intro c hc
      rcases List.mem_cons.1 hc with rfl | hc
      · exact ⟨hab.float1 i, hab.float2 i, hab.abs_le i⟩
      · exact ih c hc
  have h1 := replayF_close hfl l i hl hv hv1 (hlk.trans hk)
  obtain ⟨h2, h3⟩ := applyAll_close h hv1 i
  have h4 := uu_pow_le (K := K) l.length (hlk.trans (hk.trans (by norm_num)))
  have hlk' : (l.length : K) ≤ k := by exact_mod_cast hlk
  have hk' : (k : K) ≤ 2 ^ 20 := by exact_mod_cast hk
  have hl0 : (0 : K) ≤ l.length := Nat.cast_nonneg _
  generalize (l.length : K) = L at *
  generalize TrackedInterval.replayF fl l i v = r at *
  generalize applyAll l (fun _ => v) i = y at *
  generalize applyAll l' (fun _ => v) i = z at *
  have h5 := abs_add_le (r - y) (y - z)
  rw [sub_add_sub_cancel] at h5
  have h6 := abs_add_le (y - z) z
  rw [sub_add_cancel] at h6
  have h7 : |y - z| ≤ 2 * k * uu K := by
    have := mul_le_mul_of_nonneg_right hlk' hu
    linarith
  have h8 : uu K * k ≤ 1 / 2 ^ 33 := by
    calc uu K * k ≤ uu K * 2 ^ 20 := mul_le_mul_of_nonneg_left hk' hu
      _ = 1 / 2 ^ 33 := by unfold uu; norm_num
  have h9 : uu K * |y| ≤ uu K * (1 + 1 / 4) := mul_le_mul_of_nonneg_left (by
    have : (1 : K) / 2 ^ 33 ≤ 1 / 8 := by norm_num
    linarith) hu
  have h10 : 100 * L ^ 2 * uu K ^ 2 ≤ uu K * (1 / 4) := by
    have g1 : L ^ 2 ≤ (2 ^ 20) ^ 2 := pow_le_pow_left₀ hl0 (hlk'.trans hk') 2
    have g2 : 100 * L ^ 2 * uu K ≤ 100 * (2 ^ 20) ^ 2 * uu K := mul_le_mul_of_nonneg_right (by linarith) hu
    have g3 : 100 * (2 ^ 20) ^ 2 * uu K ≤ 1 / 4 := by unfold uu; norm_num
    have g4 := mul_le_mul_of_nonneg_left (g2.trans g3) hu
    have e : 100 * L ^ 2 * uu K ^ 2 = uu K * (100 * L ^ 2 * uu K) := by ring
    rw [e]; exact g4
  have e : (2 * (k : K) + 2) / 2 ^ 53 = 2 * k * uu K + 2 * uu K := by unfold uu; ring
  rw [e]
  linarith

/-- **C104**, the reported interval: after any sequence of operations on `[-1,1]^n` with sub-intervals in `[-1,1]^n`, `k ≤ 2^20` of them calls of
`addTransform`, the interval reported by the rounded run is within `(2k + 2)·2⁻⁵³` of the interval of the exact run (the pre-final one in
the final step).
`_partial`: it need not stay inside `[-1,1]`, `C104_final_within_false`. -/
theorem C104_final_interval_partial [FloorRing K] {fl : K → K} (hfl : RoundsToNearest 53 fl) (ops : List (TOp n K))
    (hops : ∀ op ∈ ops, op.InUnit) (hk : TOp.adds ops ≤ 2 ^ 20) :
    let s := ops.foldl (TOp.runF fl) (TrackedInterval.new (Box.unit n K))
    let t := ops.foldl TOp.run (TrackedInterval.new (Box.unit n K))
    let B := if t.finalStep then t.preFinalInterval else t.interval
    ∀ i, |(s.getFinalIntervalF fl).lo i - B.lo i| ≤ (2 * (TOp.adds ops : K) + 2) / 2 ^ 53 ∧
      |(s.getFinalIntervalF fl).hi i - B.hi i| ≤ (2 * (TOp.adds ops : K) + 2) / 2 ^ 53 := by
  intro s t B i
  have h := Sim.run hfl ops (Sim.new (n := n) (K := K)) hops
  rw [zero_add] at h
  change Sim (TOp.adds ops) s t at h
  have hone : IsFloat 53 (1 : K) := ⟨2 ^ 52, -52, by norm_num, by norm_num⟩
  have hmone : IsFloat 53 (-1 : K) := hone.neg
  have gen : ∀ (l l' : List (AffTr n K)) (I : Box n K), List.Forall₂ TrClose l l' → l.length ≤ TOp.adds ops →
      (∀ x, I.map x = (Box.unit n K).map (applyAll l' x)) →
      |TrackedInterval.replayF fl l i (s.topInterval.lo i) - I.lo i| ≤ (2 * (TOp.adds ops : K) + 2) / 2 ^ 53 ∧
        |TrackedInterval.replayF fl l i (s.topInterval.hi i) - I.hi i| ≤ (2 * (TOp.adds ops : K) + 2) / 2 ^ 53 := by
    intro l l' I hl hlen hI
    rw [h.top]
    have e1 : I.lo i = applyAll l' (fun _ => -1) i := by
      rw [← TrackedInterval.map_lo I, hI, TrackedInterval.unit_map]
    have e2 : I.hi i = applyAll l' (fun _ => 1) i := by
      rw [← TrackedInterval.map_hi I, hI, TrackedInterval.unit_map]
    rw [e1, e2]
    exact ⟨final_close hfl hl hlen hk hmone (by simp) i, final_close hfl hl hlen hk hone (by simp) i⟩
  simp only [TrackedInterval.getFinalIntervalF, h.finalStep, B]
  by_cases hf : t.finalStep = true
  · obtain ⟨-, p2, p3⟩ := h.pre hf
    simp only [hf, if_true]
    exact gen _ _ _ p2 p3 (h.tracks.pre hf).2.2.2
  · simp only [hf]
    exact gen _ _ _ h.transforms h.length h.tracks.image

/-- Concrete data for `C104_final_interval_partial`; the reported bound is not the exact one. -/
example :
    let ops : List (TOp 1 ℚ) := [.add w104, .add w104, .copy, .add w104]
    (∀ op ∈ ops, op.InUnit) ∧ TOp.adds ops = 3 ∧
      ((ops.foldl (TOp.runF (roundFloat 53)) (TrackedInterval.new (Box.unit 1 ℚ))).getFinalIntervalF (roundFloat 53)).hi 0 ≠
        (ops.foldl TOp.run (TrackedInterval.new (Box.unit 1 ℚ))).interval.hi 0 := by
  refine ⟨?_, rfl, by decide +kernel⟩
  intro op hop
  simp only [List.mem_cons, List.not_mem_nil, or_false] at hop
  rcases hop with rfl | rfl | rfl | rfl <;> simp only [TOp.InUnit] <;> intro i <;> fin_cases i <;> norm_num [Box.unit, w104]

/-- Concrete data for `C104_replay`: two transforms with double entries. -/
example : ∀ a ∈ ([(fun _ => 1 / 2, fun _ => 1 / 2), (fun _ => 1 / 4, fun _ => -3 / 4)] : List (AffTr 1 ℚ)),
    IsFloat 53 (a.1 0) ∧ IsFloat 53 (a.2 0) ∧ |a.1 0| + |a.2 0| ≤ 1 + 1 / 2 ^ 53 := by
  intro a ha
  simp only [List.mem_cons, List.not_mem_nil, or_false] at ha
  rcases ha with rfl | rfl
  · exact ⟨⟨2 ^ 52, -53, by norm_num, by norm_num⟩, ⟨2 ^ 52, -53, by norm_num, by norm_num⟩, by norm_num [abs_of_pos]⟩
  · refine ⟨⟨2 ^ 52, -54, by norm_num, by norm_num⟩, ⟨-(3 * 2 ^ 51), -53, by norm_num, by norm_num⟩, ?_⟩
    rw [abs_of_pos (by norm_num), abs_of_neg (by norm_num)]
    norm_num

/-- Sub-intervals of the second witness. -/
def w104s : List (Box 1 ℚ) :=
  [⟨![-7765838734760944 / 2 ^ 54], ![6089689074540466 / 2 ^ 56]⟩, ⟨![-7533568951864873 / 2 ^ 53], ![8652006265436608 / 2 ^ 53]⟩,
   ⟨![-8300753190207107 / 2 ^ 53], ![8897450003506394 / 2 ^ 53]⟩, ⟨![6093944396844898 / 2 ^ 53], ![6093944396844900 / 2 ^ 53]⟩,
   ⟨![9007199254740991 / 2 ^ 54], ![4503599627370497 / 2 ^ 53]⟩]

/-- **C104 is false** as "the reported interval is ordered": five ordered sub-intervals with double bounds; the reported lower bound is above the
reported upper bound. -/
theorem C104_final_ordered_false :
    ∃ (fl : ℚ → ℚ) (subs : List (Box 1 ℚ)), RoundsToNearest 53 fl ∧
      (∀ s ∈ subs, s.Ordered ∧ s.Within (Box.unit 1 ℚ) ∧ ∀ i, IsFloat 53 (s.lo i) ∧ IsFloat 53 (s.hi i)) ∧
      let t := (subs.map TOp.add).foldl (TOp.runF fl) (TrackedInterval.new (Box.unit 1 ℚ))
      t.empty = false ∧ ¬ (t.getFinalIntervalF fl).Ordered := by
  refine ⟨roundFloat 53, w104s, roundFloat_nearest (by norm_num), ?_, by decide +kernel, fun h => absurd (h 0) (by decide +kernel)⟩
  intro s hs
  simp only [w104s, List.mem_cons, List.not_mem_nil, or_false] at hs
  rcases hs with rfl | rfl | rfl | rfl | rfl <;> refine ⟨fun i => ?_, fun i => ?_, fun i => ?_⟩ <;> fin_cases i
  · norm_num
  · norm_num [Box.unit]
  · exact ⟨⟨-7765838734760944, -54, by norm_num, by norm_num⟩, ⟨6089689074540466, -56, by norm_num, by norm_num⟩⟩
  · norm_num
  · norm_num [Box.unit]
  · exact ⟨⟨-7533568951864873, -53, by norm_num, by norm_num⟩, ⟨8652006265436608, -53, by norm_num, by norm_num⟩⟩
  · norm_num
  · norm_num [Box.unit]
  · exact ⟨⟨-8300753190207107, -53, by norm_num, by norm_num⟩, ⟨8897450003506394, -53, by norm_num, by norm_num⟩⟩
  · norm_num
  · norm_num [Box.unit]
  · exact ⟨⟨6093944396844898, -53, by norm_num, by norm_num⟩, ⟨6093944396844900, -53, by norm_num, by norm_num⟩⟩
  · norm_num
  · norm_num [Box.unit]
  · exact ⟨⟨9007199254740991, -54, by norm_num, by norm_num⟩, ⟨4503599627370497, -53, by norm_num, by norm_num⟩⟩

/-- Rounded midpoint of two numbers close to `l` and `h`. -/
theorem midF_close [FloorRing K] {fl : K → K} (hfl : RoundsToNearest 53 fl) {k : ℕ} (hk : k ≤ 2 ^ 20) {p q l h : K} (hl : |l| ≤ 1) (hh : |h| ≤ 1)
    (hp : |p - l| ≤ (2 * k + 2) / 2 ^ 53) (hq : |q - h| ≤ (2 * k + 2) / 2 ^ 53) :
    |fl (fl (p + q) / 2) - (l + h) / 2| ≤ (2 * k + 4) / 2 ^ 53 := by
  have hu := uu_nonneg (K := K)
  have e : (2 * (k : K) + 2) / 2 ^ 53 = (2 * k + 2) * uu K := by unfold uu; ring
  have e' : (2 * (k : K) + 4) / 2 ^ 53 = (2 * k + 2) * uu K + 2 * uu K := by unfold uu; ring
  rw [e] at hp hq
  rw [e']
  have h1 := half_close hfl (p + q)
  have h2 : (p + q) / 2 - (l + h) / 2 = ((p - l) + (q - h)) / 2 := by ring
  have h3 : |(p + q) / 2 - (l + h) / 2| ≤ (2 * k + 2) * uu K := by
    rw [h2, abs_div, abs_of_pos (show (0 : K) < 2 by norm_num)]
    have := abs_add_le (p - l) (q - h)
    linarith
  have h4 : |(l + h) / 2| ≤ 1 := by
    rw [abs_div, abs_of_pos (show (0 : K) < 2 by norm_num)]
    have := abs_add_le l h
    linarith
  have h5 := abs_add_le ((p + q) / 2 - (l + h) / 2) ((l + h) / 2)
  rw [sub_add_cancel] at h5
  have h6 := abs_add_le (fl (fl (p + q) / 2) - (p + q) / 2) ((p + q) / 2 - (l + h) / 2)
  rw [sub_add_sub_cancel] at h6
  have hk' : (k : K) ≤ 2 ^ 20 := by exact_mod_cast hk
  have h7 : (2 * (k : K) + 2) * uu K ≤ 1 := by
    calc (2 * (k : K) + 2) * uu K ≤ (2 * 2 ^ 20 + 2) * uu K := mul_le_mul_of_nonneg_right (by linarith) hu
      _ ≤ 1 := by unfold uu; norm_num
  have h8 : uu K * |(p + q) / 2| ≤ uu K * 2 := mul_le_mul_of_nonneg_left (by linarith) hu
  linarith

/-- **C104**, the reported root: under the same hypotheses the point returned by `getFinalPoint` in the rounded run is within `(2k + 4)·2⁻⁵³` of the
midpoint of the interval of the exact run. -/
theorem C104_final_point_partial [FloorRing K] {fl : K → K} (hfl : RoundsToNearest 53 fl) (ops : List (TOp n K))
    (hops : ∀ op ∈ ops, op.InUnit) (hk : TOp.adds ops ≤ 2 ^ 20) :
    let s := ops.foldl (TOp.runF fl) (TrackedInterval.new (Box.unit n K))
    let t := ops.foldl TOp.run (TrackedInterval.new (Box.unit n K))
    ∀ i, |s.getFinalPointF fl i - (t.interval.lo i + t.interval.hi i) / 2| ≤ (2 * (TOp.adds ops : K) + 4) / 2 ^ 53 := by
  intro s t i
  have h := Sim.run hfl ops (Sim.new (n := n) (K := K)) hops
  rw [zero_add] at h
  change Sim (TOp.adds ops) s t at h
  have hone : IsFloat 53 (1 : K) := ⟨2 ^ 52, -52, by norm_num, by norm_num⟩
  have hlo : |t.interval.lo i| ≤ 1 := abs_le.2 ⟨(h.tracks.within i).1, (h.tracks.ordered i).trans (h.tracks.within i).2⟩
  have hhi : |t.interval.hi i| ≤ 1 := abs_le.2 ⟨(h.tracks.within i).1.trans (h.tracks.ordered i), (h.tracks.within i).2⟩
  have e1 : t.interval.lo i = applyAll t.transforms (fun _ => -1) i := by
    rw [← TrackedInterval.map_lo t.interval, h.tracks.image, TrackedInterval.unit_map]
  have e2 : t.interval.hi i = applyAll t.transforms (fun _ => 1) i := by
    rw [← TrackedInterval.map_hi t.interval, h.tracks.image, TrackedInterval.unit_map]
  have g1 := final_close hfl h.transforms h.length hk hone.neg (by simp) i
  have g2 := final_close hfl h.transforms h.length hk hone (by simp) i
  rw [← e1] at g1
  rw [← e2] at g2
  have h1 : s.topInterval.lo i = -1 := by rw [h.top]; rfl
  have h2 : s.topInterval.hi i = 1 := by rw [h.top]; rfl
  unfold TrackedInterval.getFinalPointF
  split
  · rename_i hf
    have hf' : s.finalStep = false := by simpa using hf
    simp only [TrackedInterval.getFinalIntervalF, hf', Bool.false_eq_true, if_false, h1, h2]
    exact midF_close hfl hk hlo hhi g1 g2
  · simp only [h1, h2]
    exact midF_close hfl hk hlo hhi g1 g2

/-! ### C105 -/

/-- The double nearest to 0.1. -/
def d01 : ℚ := 3602879701896397 / 2 ^ 55

/-- The double nearest to 0.3. -/
def d03 : ℚ := 5404319552844595 / 2 ^ 54

/-- The double nearest to 0.7. -/
def d07 : ℚ := 3152519739159347 / 2 ^ 52

/-- **C105 is false** as "points of the search interval are reported inside it, and its ends are its ends": for the search interval `[0.1, 0.7]` (as
doubles) the point -1 of `[-1,1]` is taken to a number below 0.1, so a root at the lower end is reported outside; for `[0.1, 0.3]` it is taken to
a number above 0.1, so the box `[-1,1]`, when it is solved again, no longer contains the lower end. -/
theorem C105_ends_false :
    ∃ fl : ℚ → ℚ, RoundsToNearest 53 fl ∧ IsFloat 53 d01 ∧ IsFloat 53 d03 ∧ IsFloat 53 d07 ∧
      transformPtF fl (fun _ : Fin 1 => -1) (fun _ => d01) (fun _ => d07) 0 < d01 ∧
      d01 < transformPtF fl (fun _ : Fin 1 => -1) (fun _ => d01) (fun _ => d03) 0 := by
  refine ⟨roundFloat 53, roundFloat_nearest (by norm_num), ⟨3602879701896397, -55, by norm_num, by norm_num [d01]⟩,
    ⟨5404319552844595, -54, by norm_num, by norm_num [d03]⟩, ⟨3152519739159347, -52, by norm_num, by norm_num [d07]⟩, ?_, ?_⟩
  · decide +kernel
  · decide +kernel

/-- **C105**, order: the rounded map to the search interval keeps order, so ordered boxes are reported as ordered boxes. -/
theorem C105_monotone [FloorRing K] {fl : K → K} (hfl : RoundsToNearest 53 fl) (a b x y : Fin n → K) (i : Fin n) (hab : a i ≤ b i) (hxy : x i ≤ y i) :
    transformPtF fl x a b i ≤ transformPtF fl y a b i := by
  have h0 : 0 ≤ fl (b i - a i) := fl_nonneg hfl (sub_nonneg.2 hab)
  have h1 := fl_mono hfl (mul_le_mul_of_nonneg_left hxy h0)
  have h2 := fl_mono hfl (add_le_add_left h1 (fl (b i + a i)))
  refine fl_mono hfl (div_le_div_of_nonneg_right ?_ (by norm_num))
  simpa only [add_comm] using h2

/-- The rounded map to the search interval, at a point close to `y` in `[-1,1]`. -/
theorem transformPtF_close [FloorRing K] {fl : K → K} (hfl : RoundsToNearest 53 fl) (a b x : Fin n → K) (i : Fin n) {y M D : K}
    (ha : |a i| ≤ M) (hb : |b i| ≤ M) (hy : |y| ≤ 1) (hx : |x i - y| ≤ D) (hD : D ≤ 1 / 4) :
    |transformPtF fl x a b i - ((b i - a i) * y + (b i + a i)) / 2| ≤ 5 * uu K * M + M * D := by
  have hu := uu_nonneg (K := K)
  have hM : 0 ≤ M := (abs_nonneg _).trans ha
  have hX : |x i| ≤ 5 / 4 := by
    have := abs_add_le (x i - y) y
    rw [sub_add_cancel] at this
    linarith
  have hm : |b i - a i| + |b i + a i| ≤ 2 * M := by
    have h := half_abs_add (a i) (b i) ha hb
    rw [abs_div, abs_div, abs_of_pos (show (0 : K) < 2 by norm_num)] at h
    linarith
  have e1 : fl (b i - a i) * (5 / 4) * (x i / (5 / 4)) = fl (b i - a i) * x i := by field_simp
  have e2 : (b i - a i) * (5 / 4) * (x i / (5 / 4)) = (b i - a i) * x i := by field_simp
  have h1 := aff_close hfl (α := (b i - a i) * (5 / 4)) (β := b i + a i) (α' := fl (b i - a i) * (5 / 4)) (β' := fl (b i + a i))
    (x := x i / (5 / 4)) (m := 5 / 4 * (2 * M)) (by
      rw [← sub_mul, abs_mul, abs_mul, ← mul_assoc]
      exact mul_le_mul_of_nonneg_right (flu hfl _) (abs_nonneg _)) (flu hfl _) (by
      rw [abs_mul, abs_of_pos (show (0 : K) < 5 / 4 by norm_num)]
      have := abs_nonneg (b i + a i)
      linarith) (by
      rw [abs_div, abs_of_pos (show (0 : K) < 5 / 4 by norm_num)]
      rw [div_le_one (by norm_num)]
      exact hX)
  rw [e1, e2] at h1
  have h2 : |transformPtF fl x a b i - ((b i - a i) * x i + (b i + a i)) / 2| ≤ 5 * uu K * M := by
    unfold transformPtF
    rw [fl_half hfl, ← sub_div, abs_div, abs_of_pos (show (0 : K) < 2 by norm_num), div_le_iff₀ (by norm_num)]
    refine h1.trans (le_of_eq ?_)
    ring
  have h3 : |((b i - a i) * x i + (b i + a i)) / 2 - ((b i - a i) * y + (b i + a i)) / 2| ≤ M * D := by
    have e : ((b i - a i) * x i + (b i + a i)) / 2 - ((b i - a i) * y + (b i + a i)) / 2 = (b i - a i) / 2 * (x i - y) := by ring
    rw [e, abs_mul]
    refine mul_le_mul ?_ hx (abs_nonneg _) hM
    have h := half_abs_add (a i) (b i) ha hb
    have := abs_nonneg ((b i + a i) / 2)
    linarith
  have h4 := abs_add_le (transformPtF fl x a b i - ((b i - a i) * x i + (b i + a i)) / 2)
    (((b i - a i) * x i + (b i + a i)) / 2 - ((b i - a i) * y + (b i + a i)) / 2)
  rw [sub_add_sub_cancel] at h4
  linarith

/-- **C105**, what the user gets: after any sequence of operations as in C104 on the search interval `[a, b]`, with `M` a bound of `|a|` and `|b|`, the
reported root and the bounds of the reported box, all in rounded arithmetic, are within `(2k + 9) M·2⁻⁵³` of the images (`transformPt`) of the
midpoint and the bounds of the exact run.
`_partial`: they need not be inside `[a, b]`, `C105_ends_false`. -/
theorem C105_reported_partial [FloorRing K] {fl : K → K} (hfl : RoundsToNearest 53 fl) (ops : List (TOp n K))
    (hops : ∀ op ∈ ops, op.InUnit) (hk : TOp.adds ops ≤ 2 ^ 20) (a b : Fin n → K) (M : K) (i : Fin n) (ha : |a i| ≤ M) (hb : |b i| ≤ M) :
    let s := ops.foldl (TOp.runF fl) (TrackedInterval.new (Box.unit n K))
    let t := ops.foldl TOp.run (TrackedInterval.new (Box.unit n K))
    let B := if t.finalStep then t.preFinalInterval else t.interval
    |transformPtF fl (s.getFinalPointF fl) a b i - transformPt (fun j => (t.interval.lo j + t.interval.hi j) / 2) a b i| ≤
        (2 * (TOp.adds ops : K) + 9) * M / 2 ^ 53 ∧
      |transformPtF fl (s.getFinalIntervalF fl).lo a b i - transformPt B.lo a b i| ≤ (2 * (TOp.adds ops : K) + 9) * M / 2 ^ 53 ∧
      |transformPtF fl (s.getFinalIntervalF fl).hi a b i - transformPt B.hi a b i| ≤ (2 * (TOp.adds ops : K) + 9) * M / 2 ^ 53 := by
  intro s t B
  have hu := uu_nonneg (K := K)
  have hM : 0 ≤ M := (abs_nonneg _).trans ha
  have hT : Tracks (Box.unit n K) t := Tracks.run ops (Tracks.new fun i => by simp only [Box.unit]; linarith [zero_lt_one (α := K)]) hops
  have hI := C104_final_interval_partial hfl ops hops hk i
  have hP := C104_final_point_partial hfl ops hops hk i
  have hB : |B.lo i| ≤ 1 ∧ |B.hi i| ≤ 1 := by
    have key : ∀ C : Box n K, C.Ordered → C.Within (Box.unit n K) → |C.lo i| ≤ 1 ∧ |C.hi i| ≤ 1 := fun C ho hw =>
      ⟨abs_le.2 ⟨(hw i).1, (ho i).trans (hw i).2⟩, abs_le.2 ⟨(hw i).1.trans (ho i), (hw i).2⟩⟩
    simp only [B]
    split
    · rename_i hf
      exact key _ (hT.pre hf).1 (hT.pre hf).2.1
    · exact key _ hT.ordered hT.within
  have hlo : |t.interval.lo i| ≤ 1 := abs_le.2 ⟨(hT.within i).1, (hT.ordered i).trans (hT.within i).2⟩
  have hhi : |t.interval.hi i| ≤ 1 := abs_le.2 ⟨(hT.within i).1.trans (hT.ordered i), (hT.within i).2⟩
  have hmid : |(t.interval.lo i + t.interval.hi i) / 2| ≤ 1 := by
    rw [abs_div, abs_of_pos (show (0 : K) < 2 by norm_num)]
    have := abs_add_le (t.interval.lo i) (t.interval.hi i)
    linarith
  have hk' : (TOp.adds ops : K) ≤ 2 ^ 20 := by exact_mod_cast hk
  have hk0 : (0 : K) ≤ TOp.adds ops := Nat.cast_nonneg _
  have hD : (2 * (TOp.adds ops : K) + 4) / 2 ^ 53 ≤ 1 / 4 := by
    rw [div_le_iff₀ (by positivity)]
    refine le_trans (b := 2 * 2 ^ 20 + 4) (by linarith) (by norm_num)
  have hD' : (2 * (TOp.adds ops : K) + 2) / 2 ^ 53 ≤ (2 * (TOp.adds ops : K) + 4) / 2 ^ 53 :=
    div_le_div_of_nonneg_right (by linarith) (by positivity)
  have e : 5 * uu K * M + M * ((2 * (TOp.adds ops : K) + 4) / 2 ^ 53) = (2 * (TOp.adds ops : K) + 9) * M / 2 ^ 53 := by
    unfold uu; ring
  rw [← e]
  exact ⟨transformPtF_close hfl a b _ i ha hb hmid hP hD,
    transformPtF_close hfl a b _ i ha hb hB.1 (hI.1.trans hD') hD,
    transformPtF_close hfl a b _ i ha hb hB.2 (hI.2.trans hD') hD⟩

/-- Concrete data for `C105_reported_partial`: the search interval `[0.1, 0.7]` and three calls; the reported root is not the exact one. -/
example :
    let ops : List (TOp 1 ℚ) := [.add w104, .add w103a, .startFinal, .add w104]
    (∀ op ∈ ops, op.InUnit) ∧ TOp.adds ops = 3 ∧ |d01| ≤ 1 ∧ |d07| ≤ 1 ∧
      let t := ops.foldl TOp.run (TrackedInterval.new (Box.unit 1 ℚ))
      transformPtF (roundFloat 53) ((ops.foldl (TOp.runF (roundFloat 53)) (TrackedInterval.new (Box.unit 1 ℚ))).getFinalPointF (roundFloat 53))
        (fun _ => d01) (fun _ => d07) 0 ≠ transformPt (fun j => (t.interval.lo j + t.interval.hi j) / 2) (fun _ => d01) (fun _ => d07) 0 := by
  refine ⟨?_, rfl, by decide +kernel, by decide +kernel, by decide +kernel⟩
  intro op hop
  simp only [List.mem_cons, List.not_mem_nil, or_false] at hop
  rcases hop with rfl | rfl | rfl | rfl <;> simp only [TOp.InUnit] <;> intro i <;> fin_cases i <;> norm_num [Box.unit, w104, w103a]

/-- Concrete data for `C105_monotone`. -/
example : (fun _ : Fin 1 => d01) 0 ≤ (fun _ : Fin 1 => d07) 0 ∧ (fun _ : Fin 1 => (-1 : ℚ)) 0 ≤ (fun _ : Fin 1 => (1 / 3 : ℚ)) 0 := by
  norm_num [d01, d07]

end YRoots
