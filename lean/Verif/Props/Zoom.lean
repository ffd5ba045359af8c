import Verif.Proofs.Trim

/-!
# Properties C14, C17, C21: zooming, constant-term check, trimming

Specification side: `StrictApprox F Ms errors B` says that on the box `B` the series `Ms`, in local
coordinates, are strictly within `errors` of the functions `F`.
-/

set_option linter.unusedVariables false

namespace YRoots

open Finset

variable {n : ℕ} {K : Type*} [Field K] [LinearOrder K] [IsStrictOrderedRing K]

/-! ### C17 -/

/-- C17.  If the constant-term check discards the box, then one of the functions has no zero in the cube,
for any functions within the (non-strict) errors. -/
theorem C17_constantCheck_sound (Ms : Fin n → Tensor n K) (hM : ∀ i, (Ms i).Nonempty) (errors : Fin n → K)
    (F : Fin n → (Fin n → K) → K) (hF : ∀ i x, InCube x → |F i x - (Ms i).eval x| ≤ errors i)
    (h : constantCheck Ms errors = true) : ∃ i, ∀ x, InCube x → F i x ≠ 0 := by
  unfold constantCheck at h
  rw [decide_eq_true_eq] at h
  obtain ⟨i, hi⟩ := h
  refine ⟨i, fun x hx h0 => ?_⟩
  rw [ravel_zero] at hi
  have h1 := eval_const_bound (Ms i) (hM i) hx
  have h2 := hF i x hx
  rw [h0] at h2
  have h3 := abs_add_le (0 - (Ms i).eval x) ((Ms i).eval x - (Ms i).const)
  rw [sub_add_sub_cancel, zero_sub, abs_neg] at h3
  linarith

/-- The check is not vacuous: it fires on the constant tensor `1` with error `1/2` ... -/
example : constantCheck (n := 1) (fun _ => (⟨fun _ => 1, fun _ => 1⟩ : Tensor 1 ℚ)) (fun _ => 1 / 2) = true := by
  decide +kernel

/-- ... and does not fire at equality. -/
example : constantCheck (n := 1) (fun _ => (⟨fun _ => 1, fun _ => 1⟩ : Tensor 1 ℚ)) (fun _ => 1) = false := by
  decide +kernel

/-- Completeness of the check on its own terms: it fires whenever some constant term dominates strictly. -/
theorem C17_constantCheck_iff (Ms : Fin n → Tensor n K) (errors : Fin n → K) :
    constantCheck Ms errors = true ↔
      ∃ i, (Ms i).absSum - |(Ms i).const| + errors i < |(Ms i).const| := by
  unfold constantCheck
  simp only [decide_eq_true_eq, ravel_zero, gt_iff_lt]

/-- `5 + T_1(x) - 2 T_2(y)` with error `1`. -/
example : constantCheck (n := 2) (fun _ => (⟨![2, 3], fun k => if k = ![0, 0] then 5 else if k = ![1, 0] then 1 else
    if k = ![0, 2] then -2 else 0⟩ : Tensor 2 ℚ)) (fun _ => 1) = true :=
  (C17_constantCheck_iff _ _).2 ⟨0, by decide +kernel⟩

/-! ### C21 -/

/-- C21.  `trimMs(Ms, errors)` (default tolerances `1e-3`, `0`): coefficients are untouched and only top-degree
slices disappear, no axis is trimmed below 3 entries, the change of the polynomial on the cube is at
most the increase of the error, and that increase is zero (with nothing trimmed) or strictly below
`errors * 1e-3`. -/
theorem C21_trimMs (Ms : Fin n → Tensor n K) (hM : ∀ i, (Ms i).Nonempty) (errors : Fin n → K) (i : Fin n) :
    let Ms' := (trimMs Ms errors (1 / 10 ^ 3) 0).1
    let errors' := (trimMs Ms errors (1 / 10 ^ 3) 0).2
    (Ms' i).coef = (Ms i).coef ∧
    (∀ j, (Ms' i).shape j ≤ (Ms i).shape j ∧ ((Ms' i).shape j = (Ms i).shape j ∨ 3 ≤ (Ms' i).shape j)) ∧
    (∀ x, InCube x → |(Ms i).eval x - (Ms' i).eval x| ≤ errors' i - errors i) ∧
    0 ≤ errors' i - errors i ∧
    ((Ms' i = Ms i ∧ errors' i = errors i) ∨ errors' i - errors i < errors i * (1 / 10 ^ 3)) := by
  intro Ms' errors'
  have h := trimPoly_trimmed (Ms i) (errors i) (1 / 10 ^ 3) 0
  refine ⟨h.coef, fun j => ⟨h.shape_le j, h.three j⟩, h.bound (hM i), sub_nonneg.2 h.mono, ?_⟩
  rcases h.strict with h1 | h1
  · left
    constructor
    · show (trimPoly (Ms i) (errors i) (1 / 10 ^ 3) 0).M = _
      rw [h1]
    · show (trimPoly (Ms i) (errors i) (1 / 10 ^ 3) 0).err = _
      rw [h1]
  · right
    have hb := h.budget
    simp only at hb
    show (trimPoly (Ms i) (errors i) (1 / 10 ^ 3) 0).err - _ < _
    linarith

/-- Instance: `1 + 10^-5 T_4(x)` with error `1`, as below. -/
example (x : Fin 1 → ℚ) (hx : InCube x) :
    let M : Fin 1 → Tensor 1 ℚ := fun _ => ⟨fun _ => 5, fun k => if k 0 = 4 then 1 / 10 ^ 5 else if k 0 = 0 then 1 else 0⟩
    |(M 0).eval x - ((trimMs M (fun _ => 1) (1 / 10 ^ 3) 0).1 0).eval x| ≤ (trimMs M (fun _ => 1) (1 / 10 ^ 3) 0).2 0 - 1 := by
  intro M
  have hM : ∀ i, (M i).Nonempty := fun _ _ => by simp [M]
  generalize M = M at hM ⊢
  exact (C21_trimMs M hM (fun _ => 1) 0).2.2.1 x hx

/-- C21 for any tolerances, and the loop runs until it has to stop: if the last axis is still longer
than 3, its last slice does not fit into what is left of the allowance. -/
theorem C21_trimAxis_maximal (d : Fin n) (s : TrimState n K) :
    (trimAxis d s).allowed ≤ (trimAxis d s).M.lastSum d ∨ (trimAxis d s).M.shape d ≤ 3 := by
  refine trimAxis_induct (P := fun s => (trimAxis d s).allowed ≤ (trimAxis d s).M.lastSum d ∨
    (trimAxis d s).M.shape d ≤ 3) d ?_ ?_ s
  · intro s h ih
    rw [trimAxis, dif_pos h]; exact ih
  · intro s h
    rw [trimAxis, dif_neg h]
    by_contra hc
    push Not at hc
    exact h hc

/-- Something is really trimmed: `1 + 10^-5 T_4` with error `1` loses its two top entries. -/
example : (trimMs (n := 1) (fun _ => (⟨fun _ => 5, fun k => if k 0 = 4 then 1 / 10 ^ 5 else
    if k 0 = 0 then 1 else 0⟩ : Tensor 1 ℚ)) (fun _ => 1) (1 / 10 ^ 3) 0).2 0 = 1 + 1 / 10 ^ 5 := by
  decide +kernel

/-! ### C14 -/

variable [FloorSemiring K]

/-- C14, conditional on the transformation error claim C09 for arrays with axes up to `N`.  One zoom
iteration outside the final step always returns.  If there is a common root of the functions in the box, the
box is not declared empty and the root lies in the new box; and the new arrays with the new errors are
strictly valid on the new box. -/
theorem C14_zoom_of_transformOK (svd : SVD n K) (hv : svd.Valid) (exact : Bool) (N : ℕ)
    (hT : TransformOK K n exact N) (F : Fin n → (Fin n → K) → K) (Ms : Fin n → Tensor n K) (errors : Fin n → K)
    (ti : TrackedInterval n K) (hM : Fits N Ms) (h : StrictApprox F Ms errors ti.interval)
    (ho : ti.interval.Ordered) (hfs : ti.finalStep = false) (hempty : ti.empty = false) :
    ∃ r, zoomInOnIntervalIter svd Ms errors ti exact = .ok r ∧
      (r.ti.empty = true → ¬ ∃ y, ti.interval.Mem y ∧ ∀ i, F i y = 0) ∧
      (∀ y, ti.interval.Mem y → (∀ i, F i y = 0) → r.ti.interval.Mem y) ∧
      StrictApprox F r.Ms r.errors r.ti.interval ∧ r.ti.interval.Within ti.interval := by
  obtain ⟨r, hr, he⟩ := zoom_effect svd Ms errors ti exact
  have hk := fun y hy hroot => zoom_keeps_root hv (fun i j => (hM i j).1) h ho hfs (y := y) hy hroot hr
  refine ⟨r, hr, ?_, fun y hy hroot => (hk y hy hroot).2, (zoom_approx hT hM h hr).2, ?_⟩
  · rintro h1 ⟨y, hy, hroot⟩
    rw [(hk y hy hroot).1, hempty] at h1
    exact Bool.false_ne_true h1
  · cases he with
    | thrown _ hti => rw [hti]; exact fun i => ⟨le_rfl, le_rfl⟩
    | same hti => rw [hti]; exact fun i => ⟨le_rfl, le_rfl⟩
    | sub s hso hsw hti => rw [hti]; exact (applySub_within ti s ho hso hsw).2

/-- Instance: `F(x) = x - 1/5`, within `1/10` of `x - 1/4`, on `[-1,1]`, in the default setting. -/
example (svd : SVD 1 ℝ) (hv : svd.Valid) :
    ∃ r, zoomInOnIntervalIter svd (fun _ => exLin) (fun _ => 1 / 10) (TrackedInterval.new (Box.unit 1 ℝ)) false = .ok r ∧
      r.ti.interval.Mem (fun _ => 1 / 5) ∧ r.ti.empty = false := by
  obtain ⟨r, hr, he, h, -⟩ := C14_zoom_of_transformOK svd hv false 7 (transformOK_default 1) (fun _ x => x 0 - 1 / 5) (fun _ => exLin)
    (fun _ => 1 / 10) (TrackedInterval.new (Box.unit 1 ℝ)) (fun _ _ => by simp [exLin])
    (fun _ x _ => by
      show |(Box.unit 1 ℝ).map x 0 - 1 / 5 - _| < _
      rw [TrackedInterval.unit_map, exLin_eval, show x 0 - 1 / 5 - (x 0 - 1 / 4) = (1 / 20 : ℝ) by ring]
      norm_num)
    (fun _ => by simp [TrackedInterval.new, Box.unit]) rfl rfl
  have hm : (TrackedInterval.new (Box.unit 1 ℝ)).interval.Mem (fun _ => 1 / 5) := fun _ => by
    simp [TrackedInterval.new, Box.unit]; norm_num
  exact ⟨r, hr, h _ hm (fun _ => by norm_num), by
    by_contra hc
    exact he (by simpa using hc) ⟨_, hm, fun _ => by norm_num⟩⟩

/-- **C14** for `exact=True`.  `_partial` only in that axes are assumed to have at most `10^16` entries. -/
theorem C14_zoom_exact_partial (svd : SVD n K) (hv : svd.Valid) (F : Fin n → (Fin n → K) → K)
    (Ms : Fin n → Tensor n K) (errors : Fin n → K) (ti : TrackedInterval n K) (hM : Fits (10 ^ 16) Ms)
    (h : StrictApprox F Ms errors ti.interval) (ho : ti.interval.Ordered) (hfs : ti.finalStep = false)
    (hempty : ti.empty = false) :
    ∃ r, zoomInOnIntervalIter svd Ms errors ti true = .ok r ∧
      (r.ti.empty = true → ¬ ∃ y, ti.interval.Mem y ∧ ∀ i, F i y = 0) ∧
      (∀ y, ti.interval.Mem y → (∀ i, F i y = 0) → r.ti.interval.Mem y) ∧
      StrictApprox F r.Ms r.errors r.ti.interval ∧ r.ti.interval.Within ti.interval :=
  C14_zoom_of_transformOK svd hv true _ (transformOK_exact n) F Ms errors ti hM h ho hfs hempty

/-- **C14** for the default setting.  `_partial`: axes of length at most 7, because the transformation
error bound it relies on is false for longer ones (`C09_transformError_default_false`).  The root-keeping half
does not depend on the transformation and holds for all lengths: `C14_zoom_keeps_roots`. -/
theorem C14_zoom_default_partial (svd : SVD n K) (hv : svd.Valid) (F : Fin n → (Fin n → K) → K)
    (Ms : Fin n → Tensor n K) (errors : Fin n → K) (ti : TrackedInterval n K) (hM : Fits 7 Ms)
    (h : StrictApprox F Ms errors ti.interval) (ho : ti.interval.Ordered) (hfs : ti.finalStep = false)
    (hempty : ti.empty = false) :
    ∃ r, zoomInOnIntervalIter svd Ms errors ti false = .ok r ∧
      (r.ti.empty = true → ¬ ∃ y, ti.interval.Mem y ∧ ∀ i, F i y = 0) ∧
      (∀ y, ti.interval.Mem y → (∀ i, F i y = 0) → r.ti.interval.Mem y) ∧
      StrictApprox F r.Ms r.errors r.ti.interval ∧ r.ti.interval.Within ti.interval :=
  C14_zoom_of_transformOK svd hv false _ (transformOK_default n) F Ms errors ti hM h ho hfs hempty

/-- Instance: the same with the theorem for the default setting. -/
example (svd : SVD 1 ℝ) (hv : svd.Valid) :
    ∃ r, zoomInOnIntervalIter svd (fun _ => exLin) (fun _ => 1 / 10) (TrackedInterval.new (Box.unit 1 ℝ)) false = .ok r ∧
      StrictApprox (fun _ x => x 0 - 1 / 5) r.Ms r.errors r.ti.interval := by
  obtain ⟨r, hr, -, -, h, -⟩ := C14_zoom_default_partial svd hv (fun _ x => x 0 - 1 / 5) (fun _ => exLin)
    (fun _ => 1 / 10) (TrackedInterval.new (Box.unit 1 ℝ)) (fun _ _ => by simp [exLin])
    (fun _ x _ => by
      show |(Box.unit 1 ℝ).map x 0 - 1 / 5 - _| < _
      rw [TrackedInterval.unit_map, exLin_eval, show x 0 - 1 / 5 - (x 0 - 1 / 4) = (1 / 20 : ℝ) by ring]
      norm_num)
    (fun _ => by simp [TrackedInterval.new, Box.unit]) rfl rfl
  exact ⟨r, hr, h⟩

/-- C14, the roots half, for both settings and all array sizes. -/
theorem C14_zoom_keeps_roots (svd : SVD n K) (hv : svd.Valid) (exact : Bool) (F : Fin n → (Fin n → K) → K)
    (Ms : Fin n → Tensor n K) (errors : Fin n → K) (ti : TrackedInterval n K)
    (hM : ∀ i, (Ms i).Nonempty) (h : StrictApprox F Ms errors ti.interval) (ho : ti.interval.Ordered)
    (hfs : ti.finalStep = false) (hempty : ti.empty = false) :
    ∃ r, zoomInOnIntervalIter svd Ms errors ti exact = .ok r ∧
      (r.ti.empty = true → ¬ ∃ y, ti.interval.Mem y ∧ ∀ i, F i y = 0) ∧
      (∀ y, ti.interval.Mem y → (∀ i, F i y = 0) → r.ti.interval.Mem y) := by
  obtain ⟨r, hr, he⟩ := zoom_effect svd Ms errors ti exact
  have hk := fun y hy hroot => zoom_keeps_root hv hM h ho hfs (y := y) hy hroot hr
  refine ⟨r, hr, ?_, fun y hy hroot => (hk y hy hroot).2⟩
  rintro h1 ⟨y, hy, hroot⟩
  rw [(hk y hy hroot).1, hempty] at h1
  exact Bool.false_ne_true h1

/-- The hypotheses are met by `F(x) = x - 1/5`, within `1/10` of `x - 1/4`, on `[-1,1]`. -/
example (svd : SVD 1 ℝ) (hv : svd.Valid) :
    ∃ r, zoomInOnIntervalIter svd (fun _ => exLin) (fun _ => 1 / 10)
        (TrackedInterval.new (Box.unit 1 ℝ)) true = .ok r ∧
      r.ti.interval.Mem (fun _ => 1 / 5) := by
  obtain ⟨r, hr, -, h, -⟩ := C14_zoom_exact_partial svd hv (fun _ x => x 0 - 1 / 5) (fun _ => exLin)
    (fun _ => 1 / 10) (TrackedInterval.new (Box.unit 1 ℝ))
    (fun _ _ => by simp [exLin])
    (fun _ x _ => by
      show |(Box.unit 1 ℝ).map x 0 - 1 / 5 - _| < _
      rw [TrackedInterval.unit_map, exLin_eval, show x 0 - 1 / 5 - (x 0 - 1 / 4) = (1 / 20 : ℝ) by ring]
      norm_num)
    (fun _ => by simp [TrackedInterval.new, Box.unit]) rfl rfl
  exact ⟨r, hr, h _ (fun _ => by simp [TrackedInterval.new, Box.unit]; norm_num) (fun _ => by norm_num)⟩

end YRoots
