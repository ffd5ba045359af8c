import Verif.Model.Zoom
import Verif.Proofs.Bounding
import Verif.Props.Transform
import Verif.Props.Interval
import Verif.Props.Bounding

/-!
# Helper lemmas: validity of approximations under zooming and trimming
-/

set_option linter.unusedSectionVars false
set_option linter.unusedVariables false
set_option linter.unusedSimpArgs false

namespace YRoots

open Finset

variable {n : ℕ} {K : Type*} [Field K] [LinearOrder K] [IsStrictOrderedRing K]

/-- Specification: on the box `B`, `Ms` (in local coordinates) approximates `F` strictly within `errors`. -/
def StrictApprox (F : Fin n → (Fin n → K) → K) (Ms : Fin n → Tensor n K) (errors : Fin n → K)
    (B : Box n K) : Prop :=
  ∀ i x, InCube x → |F i (B.map x) - (Ms i).eval x| < errors i

/-- Shapes: no empty axis, every axis at most `N` long. -/
def Fits (N : ℕ) (Ms : Fin n → Tensor n K) : Prop :=
  ∀ i j, 0 < (Ms i).shape j ∧ (Ms i).shape j ≤ N

/-- The transformation error claim (C09) for all arrays with axes of length at most `N`. -/
def TransformOK (K : Type*) [Field K] [LinearOrder K] (n : ℕ) (exact : Bool) (N : ℕ) : Prop :=
  ∀ (M : Tensor n K), M.Nonempty → (∀ j, M.shape j ≤ N) → ∀ d, TransformErrorClaim exact M d

theorem transformOK_exact (n : ℕ) : TransformOK K n true (10 ^ 16) :=
  fun M hM hN d => C09_transformError_exact_partial M d (hM d) (hN d)

theorem transformOK_default (n : ℕ) : TransformOK K n false 7 :=
  fun M hM hN d => C09_transformError_default_partial M d (hM d) (hN d)

theorem chebFold_bound' {exact : Bool} {N : ℕ} (hT : TransformOK K n exact N) (α β : Fin n → K)
    (hαβ : ∀ i (t : K), |t| ≤ 1 → |α i * t + β i| ≤ 1) (l : List (Fin n)) (hl : l.Nodup)
    (p : Tensor n K × K) (h : p.1.Nonempty) (hN : ∀ j, p.1.shape j ≤ N)
    {x : Fin n → K} (hx : InCube x) :
    |p.1.eval (substOn l α β x) - (chebFold exact α β l p).1.eval x|
      ≤ (chebFold exact α β l p).2 - p.2 := by
  induction l generalizing p x with
  | nil =>
    have : substOn [] α β x = x := by funext i; simp [substOn]
    simp [chebFold, this]
  | cons d l ih =>
    rw [List.nodup_cons] at hl
    rw [chebFold_cons]
    have hs := transformND_shape_le exact p.1 d (α d) (β d) (h d)
    have ho := transformND_shape_other exact p.1 d (α d) (β d)
    set q : Tensor n K × K :=
      (transformND p.1 d (α d) (β d) exact, p.2 + getTransformationError p.1 d) with hq
    have hq1 : q.1.Nonempty := by
      intro i
      by_cases hi : i = d
      · subst hi; exact hs.1
      · rw [hq]; simp only; rw [ho i hi]; exact h i
    have hq2 : ∀ j, q.1.shape j ≤ N := by
      intro i
      by_cases hi : i = d
      · subst hi; exact hs.2.trans (hN i)
      · rw [hq]; simp only; rw [ho i hi]; exact hN i
    have h1 := ih hl.2 q hq1 hq2 hx
    have hsub : InCube (substOn l α β x) := by
      intro i
      unfold substOn
      split
      · exact hαβ i _ (hx i)
      · exact hx i
    have h2 := hT p.1 h hN d (α d) (β d) (hαβ d) (substOn l α β x) hsub
    rw [← substOn_cons d l hl.1] at h2
    have h3 := abs_sub_le (p.1.eval (substOn (d :: l) α β x)) (q.1.eval (substOn l α β x))
      ((chebFold exact α β l q).1.eval x)
    have : q.2 = p.2 + getTransformationError p.1 d := rfl
    linarith

theorem transformChebToInterval_fits {N : ℕ} {Ms : Fin n → Tensor n K} (hM : Fits N Ms) (α β : Fin n → K)
    (errors : Fin n → K) (exact : Bool) : Fits N (transformChebToInterval Ms α β errors exact).1 := by
  intro i j
  have h := chebFold_shape exact α β (List.finRange n) (Ms i, errors i) (fun j => (hM i j).1)
  exact ⟨h.1 j, (h.2 j).1.trans (hM i j).2⟩

/-- The `α, β` recorded for an ordered sub-box map the cube into the cube. -/
theorem sub_coeffs (s : Box n K) (ho : s.Ordered) (hw : s.Within (Box.unit n K)) (i : Fin n) (t : K)
    (ht : |t| ≤ 1) : |(s.hi i - s.lo i) / 2 * t + (s.hi i + s.lo i) / 2| ≤ 1 := by
  have h1 := (hw i).1
  have h2 := (hw i).2
  have h3 := ho i
  simp only [Box.unit] at h1 h2
  rw [abs_le] at ht ⊢
  constructor <;> nlinarith [ht.1, ht.2]

theorem sub_map_inCube (s : Box n K) (ho : s.Ordered) (hw : s.Within (Box.unit n K)) {x : Fin n → K}
    (hx : InCube x) : InCube (s.map x) := fun i => sub_coeffs s ho hw i (x i) (hx i)

/-- Validity is preserved when re-expanding on a sub-box. -/
theorem StrictApprox.transform {F : Fin n → (Fin n → K) → K} {Ms : Fin n → Tensor n K} {errors : Fin n → K}
    {B B' : Box n K} {exact : Bool} {N : ℕ} (hT : TransformOK K n exact N) (hM : Fits N Ms)
    (h : StrictApprox F Ms errors B) (s : Box n K) (ho : s.Ordered) (hw : s.Within (Box.unit n K))
    (hB : ∀ x, B'.map x = B.map (s.map x)) :
    StrictApprox F
      (transformChebToInterval Ms (fun i => (s.hi i - s.lo i) / 2) (fun i => (s.hi i + s.lo i) / 2)
        errors exact).1
      (transformChebToInterval Ms (fun i => (s.hi i - s.lo i) / 2) (fun i => (s.hi i + s.lo i) / 2)
        errors exact).2 B' := by
  intro i x hx
  have h1 := h i (s.map x) (sub_map_inCube s ho hw hx)
  have h2 := chebFold_bound' hT (fun i => (s.hi i - s.lo i) / 2) (fun i => (s.hi i + s.lo i) / 2)
    (fun i t ht => sub_coeffs s ho hw i t ht) (List.finRange n) (List.nodup_finRange n) (Ms i, errors i)
    (fun j => (hM i j).1) (fun j => (hM i j).2) hx
  rw [substOn_finRange] at h2
  have h3 := abs_sub_le (F i (B'.map x)) ((Ms i).eval (s.map x))
    ((transformCheb (Ms i) (fun i => (s.hi i - s.lo i) / 2) (fun i => (s.hi i + s.lo i) / 2)
      (errors i) exact).1.eval x)
  rw [hB x] at h3 ⊢
  have e : ∀ p q : Tensor n K × K, p = q → p.1.eval x = q.1.eval x := fun p q h => by rw [h]
  simp only [transformChebToInterval]
  have h4 : |(Ms i).eval (s.map x) - (transformCheb (Ms i) (fun i => (s.hi i - s.lo i) / 2)
      (fun i => (s.hi i + s.lo i) / 2) (errors i) exact).1.eval x|
      ≤ (transformCheb (Ms i) (fun i => (s.hi i - s.lo i) / 2)
      (fun i => (s.hi i + s.lo i) / 2) (errors i) exact).2 - errors i := h2
  linarith

/-- Validity on the whole box in non-strict local form. -/
theorem StrictApprox.local {F : Fin n → (Fin n → K) → K} {Ms : Fin n → Tensor n K} {errors : Fin n → K}
    {B : Box n K} (h : StrictApprox F Ms errors B) :
    ∀ i x, InCube x → |(fun i x => F i (B.map x)) i x - (Ms i).eval x| ≤ errors i :=
  fun i x hx => (h i x hx).le

theorem skipPointDims_within (B sub : Box n K) (h : sub.Within (Box.unit n K)) :
    (skipPointDims B sub).Within (Box.unit n K) := by
  intro i
  have := h i
  simp only [skipPointDims, Box.unit] at this ⊢
  split_ifs
  · simp
  · exact this

theorem skipPointDims_ordered (B sub : Box n K) (h : sub.Ordered) :
    (skipPointDims B sub).Ordered := by
  intro i
  have := h i
  simp only [skipPointDims] at this ⊢
  split_ifs
  · norm_num
  · exact this

theorem skipPointDims_mem (B sub : Box n K) {x : Fin n → K} (hx : InCube x) (h : sub.Mem x) :
    (skipPointDims B sub).Mem x := by
  intro i
  have := h i
  have h2 := abs_le.1 (hx i)
  simp only [skipPointDims] at this ⊢
  split_ifs
  · exact h2
  · exact this

/-- Everything one needs to know about a zoom iteration.  `Box`-level effect: the interval is replaced by its
image of a sub-box `s`, or left alone, or the object is declared empty. -/
inductive ZoomEffect (Ms : Fin n → Tensor n K) (errors : Fin n → K) (ti : TrackedInterval n K) (exact : Bool)
    (r : ZoomResult n K) : Prop
  | thrown (h : ti.canThrowOut = true) (hti : r.ti = { ti with empty := true }) (hM : r.Ms = Ms)
      (he : r.errors = errors)
  | same (hti : r.ti = ti) (hM : r.Ms = Ms) (he : r.errors = errors) (hc : r.changed = false)
  | sub (s : Box n K) (ho : s.Ordered) (hw : s.Within (Box.unit n K)) (hti : r.ti = ti.applySub s)
      (hM : r.Ms = (transformChebToInterval Ms (fun i => (s.hi i - s.lo i) / 2)
        (fun i => (s.hi i + s.lo i) / 2) errors exact).1)
      (he : r.errors = (transformChebToInterval Ms (fun i => (s.hi i - s.lo i) / 2)
        (fun i => (s.hi i + s.lo i) / 2) errors exact).2)

theorem applySub_last (ti : TrackedInterval n K) (s : Box n K) :
    (ti.applySub s).getLastTransform
      = some (fun i => (s.hi i - s.lo i) / 2, fun i => (s.hi i + s.lo i) / 2) := by
  simp [TrackedInterval.getLastTransform, TrackedInterval.applySub]

variable [FloorSemiring K]

/-- The zoom iteration always returns (no `IndexError`), with one of three effects. -/
theorem zoom_effect (svd : SVD n K) (Ms : Fin n → Tensor n K) (errors : Fin n → K)
    (ti : TrackedInterval n K) (exact : Bool) :
    ∃ r, zoomInOnIntervalIter svd Ms errors ti exact = .ok r ∧ ZoomEffect Ms errors ti exact r := by
  obtain ⟨hw, ho⟩ := C12_bounding_within svd Ms errors ti.finalStep
  unfold zoomInOnIntervalIter
  set r := boundingIntervalLinearSystem svd Ms errors ti.finalStep with hr
  have hw' := skipPointDims_within ti.interval _ hw
  simp only
  by_cases h1 : (r.throwOut && !(r.throwOut && !ti.canThrowOut)) = true
  · rw [if_pos h1]
    refine ⟨_, rfl, .thrown ?_ rfl rfl rfl⟩
    cases hh : ti.canThrowOut
    · rw [hh] at h1; cases ht : r.throwOut <;> simp [ht] at h1
    · rfl
  · rw [if_neg h1]
    by_cases h2 : (!(r.changed || r.throwOut && !ti.canThrowOut)) = true
    · rw [if_pos h2]
      exact ⟨_, rfl, .same rfl rfl rfl (by simpa only [Bool.not_eq_eq_eq_not, Bool.not_true] using h2)⟩
    · rw [if_neg h2]
      rcases TrackedInterval.addTransform_cases ti _ hw' with ⟨⟨i, hi⟩, hc, -⟩ | ⟨s, hso, hsw, -, hs⟩
      · -- the sub-interval cannot be inverted when throwing out is allowed
        exfalso
        have hT : r.throwOut = false := by
          rw [hc] at h1
          simpa using h1
        exact absurd (skipPointDims_ordered ti.interval _ (ho hT) i) (not_le.2 hi)
      · rw [hs, applySub_last]
        simp only
        split
        · exact ⟨_, rfl, .sub s hso hsw rfl rfl rfl⟩
        · exact ⟨_, rfl, .sub s hso hsw rfl rfl rfl⟩

/-- Outside the final step a root of functions within the errors is never lost: the box is not declared empty
and the sub-box contains the root. -/
theorem zoom_keeps_root {svd : SVD n K} (hv : svd.Valid) {F : Fin n → (Fin n → K) → K}
    {Ms : Fin n → Tensor n K} {errors : Fin n → K} {ti : TrackedInterval n K} {exact : Bool}
    (hM : ∀ i, (Ms i).Nonempty) (h : StrictApprox F Ms errors ti.interval) (ho : ti.interval.Ordered)
    (hfs : ti.finalStep = false) {y : Fin n → K} (hy : ti.interval.Mem y) (hroot : ∀ i, F i y = 0)
    {r : ZoomResult n K} (hr : zoomInOnIntervalIter svd Ms errors ti exact = .ok r) :
    r.ti.empty = ti.empty ∧ r.ti.interval.Mem y := by
  obtain ⟨x, hx, rfl⟩ := TrackedInterval.exists_map_eq ti.interval hy
  obtain ⟨ht, hmem⟩ := C12_bounding_sound svd hv Ms hM errors (fun i x => F i (ti.interval.map x))
    h.local x hx hroot
  obtain ⟨hw, hord⟩ := C12_bounding_within svd Ms errors false
  unfold zoomInOnIntervalIter at hr
  rw [hfs] at hr
  simp only [ht, Bool.false_and, Bool.or_false, Bool.false_eq_true, if_false] at hr
  split at hr
  · cases hr; exact ⟨rfl, hy⟩
  · have hw' := skipPointDims_within ti.interval _ hw
    have ho' := skipPointDims_ordered ti.interval _ (hord ht)
    have hm' := skipPointDims_mem ti.interval _ hx hmem
    rcases TrackedInterval.addTransform_cases ti _ hw' with ⟨⟨i, hi⟩, -⟩ | ⟨s, hso, hsw, hse, hs⟩
    · exact absurd (ho' i) (not_le.2 hi)
    · rw [hse ho'] at hs hso hsw
      rw [hs, applySub_last] at hr
      have key : (ti.applySub (skipPointDims ti.interval
          (boundingIntervalLinearSystem svd Ms errors false).interval)).interval.Mem
          (ti.interval.map x) := by
        rw [TrackedInterval.applySub_interval ti _ hso hsw]
        exact TrackedInterval.mem_sub_map ti.interval _ ho hm'
      simp only at hr
      split at hr
      · cases hr; exact ⟨rfl, key⟩
      · cases hr; exact ⟨rfl, key⟩

/-- Validity of the approximation after a zoom iteration that did not empty the box. -/
theorem zoom_approx {svd : SVD n K} {F : Fin n → (Fin n → K) → K}
    {Ms : Fin n → Tensor n K} {errors : Fin n → K} {ti : TrackedInterval n K} {exact : Bool} {N : ℕ}
    (hT : TransformOK K n exact N) (hM : Fits N Ms) (h : StrictApprox F Ms errors ti.interval)
    {r : ZoomResult n K} (hr : zoomInOnIntervalIter svd Ms errors ti exact = .ok r) :
    Fits N r.Ms ∧ StrictApprox F r.Ms r.errors r.ti.interval := by
  obtain ⟨r', hr', he⟩ := zoom_effect svd Ms errors ti exact
  rw [hr] at hr'
  cases hr'
  cases he with
  | thrown _ hti hM' he => rw [hM', he, hti]; exact ⟨hM, h⟩
  | same hti hM' he _ => rw [hM', he, hti]; exact ⟨hM, h⟩
  | sub s hso hsw hti hM' he =>
    rw [hM', he, hti]
    exact ⟨transformChebToInterval_fits hM _ _ _ _,
      h.transform hT hM s hso hsw (TrackedInterval.applySub_map ti s hso hsw)⟩

end YRoots
