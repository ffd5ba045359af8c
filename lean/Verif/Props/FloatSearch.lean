import Verif.Proofs.FloatSearch
import Verif.Props.FloatIter

/-!
# C112: the search in floating-point arithmetic does not lose a zero

Specification: `subPoint` (see C111) is the point that a point of the innermost of nested subintervals stands for; the transformations recorded in the
interval are the rounded half lengths and midpoints of these subintervals.
-/

set_option linter.unusedSectionVars false

namespace YRoots

open Finset

/-- The rounded half lengths and midpoints of a subinterval. -/
def roundedTr {n : ℕ} {K : Type*} [Field K] (fl : K → K) (B : Box n K) : AffTr n K :=
  (fun i => fl (fl (B.hi i - B.lo i) / 2), fun i => fl (fl (B.hi i + B.lo i) / 2))

/-- The claim of C112 for one box found: the zero `x` is in the box, which is not marked as empty; the polynomials and errors that go with it describe
the functions there. -/
def SearchKept {n : ℕ} {K : Type*} [Field K] [LinearOrder K] (fl : K → K) (F : Fin n → (Fin n → K) → K) (ti : TrackedInterval n K) (x : Fin n → K)
    (c : Child n K) : Prop :=
  c.ti.empty = false ∧ c.ti.topInterval = ti.topInterval ∧ ∃ subs : List (Box n K),
    (∀ B ∈ subs, ∀ j, -1 ≤ B.lo j ∧ B.lo j ≤ B.hi j ∧ B.hi j ≤ 1) ∧ c.ti.transforms = ti.transforms ++ subs.map (roundedTr fl) ∧
    (∃ y, InCube y ∧ subPoint subs y = x) ∧ ∀ i t, InCube t → |F i (subPoint subs t) - (c.Ms i).eval t| ≤ c.errors i

/-! ### Halves -/

section Halves

variable {n : ℕ}

theorem subPoint_inCube {subs : List (Box n ℝ)} (h : ∀ B ∈ subs, ∀ j, -1 ≤ B.lo j ∧ B.lo j ≤ B.hi j ∧ B.hi j ≤ 1) {t : Fin n → ℝ} (ht : InCube t) :
    InCube (subPoint subs t) := by
  induction subs with
  | nil => exact ht
  | cons B subs ih =>
    have h1 := ih fun B' hB' => h B' (List.mem_cons_of_mem _ hB')
    have h2 := h B List.mem_cons_self
    exact sub_inCube (a := B.lo) (b := B.hi) (fun j => abs_le.2 ⟨(h2 j).1, (h2 j).2.1.trans (h2 j).2.2⟩)
      (fun j => abs_le.2 ⟨(h2 j).1.trans (h2 j).2.1, (h2 j).2.2⟩) h1

theorem subPoint_append_list (s s' : List (Box n ℝ)) (t : Fin n → ℝ) : subPoint (s ++ s') t = subPoint s (subPoint s' t) := by
  unfold subPoint
  rw [List.foldr_append]

/-- The half of an interval that belongs to a sub-box. -/
structure SplitInterval (fl : ℝ → ℝ) (ti t' : TrackedInterval n ℝ) (S : Box n ℝ) : Prop where
  empty : t'.empty = ti.empty
  final : t'.finalStep = ti.finalStep
  top : t'.topInterval = ti.topInterval
  mids : ∀ j, t'.nextTransformPoints j = ti.nextTransformPoints j ∨ t'.nextTransformPoints j = 0
  subs : ∃ subs : List (Box n ℝ), (∀ B ∈ subs, ∀ j, -1 ≤ B.lo j ∧ B.lo j ≤ B.hi j ∧ B.hi j ≤ 1) ∧
    t'.transforms = ti.transforms ++ subs.map (roundedTr fl) ∧ ∀ t, S.map t = subPoint subs t

theorem SplitInterval.init (fl : ℝ → ℝ) (ti : TrackedInterval n ℝ) : SplitInterval fl ti ti (Box.unit n ℝ) := by
  refine ⟨rfl, rfl, rfl, fun _ => .inl rfl, [], by simp, by simp, fun t => ?_⟩
  rw [TrackedInterval.unit_map]
  rfl

theorem copy_fields (t : TrackedInterval n ℝ) : t.copy.empty = t.empty ∧ t.copy.finalStep = t.finalStep ∧ t.copy.topInterval = t.topInterval ∧
    t.copy.nextTransformPoints = t.nextTransformPoints ∧ t.copy.transforms = t.transforms := by
  unfold TrackedInterval.copy
  split_ifs with hf
  · exact ⟨rfl, hf.symm, rfl, rfl, rfl⟩
  · refine ⟨rfl, ?_, rfl, rfl, rfl⟩
    cases h : t.finalStep
    · rfl
    · exact absurd h hf

theorem SplitInterval.step {fl : ℝ → ℝ} {ti : TrackedInterval n ℝ} {mid : Fin n → ℝ} (hmid : InCube mid) (d : Fin n) (b : Bool)
    (t' : TrackedInterval n ℝ) (S : Box n ℝ) (h : SplitInterval fl ti t' S) :
    SplitInterval fl ti (t'.splitIntervalF fl mid d b) (halfBox mid d b S) := by
  have hm := abs_le.1 (hmid d)
  obtain ⟨sub, hsub⟩ : ∃ sub : Box n ℝ, sub = if b then ⟨Function.update (fun _ => -1) d (mid d), fun _ => 1⟩
    else ⟨fun _ => -1, Function.update (fun _ => 1) d (mid d)⟩ := ⟨_, rfl⟩
  have hb : ∀ i, -1 ≤ sub.lo i ∧ sub.lo i ≤ sub.hi i ∧ sub.hi i ≤ 1 := by
    intro i
    rw [hsub]
    by_cases hi : i = d
    · subst hi; cases b <;> simp [hm]
    · cases b <;> simp [hi]
  have ho : ¬ ∃ i, sub.lo i > sub.hi i := by
    rintro ⟨i, hi⟩
    exact absurd (hb i).2.1 (not_le.2 hi)
  have e : t'.copy.addTransformF fl sub = t'.copy.applySubF fl sub := by
    unfold TrackedInterval.addTransformF
    rw [if_neg (fun h => ho h.1), if_neg ho]
  have hs : t'.splitIntervalF fl mid d b = { t'.copy.applySubF fl sub with
      nextTransformPoints := Function.update (t'.copy.applySubF fl sub).nextTransformPoints d 0 } := by
    unfold TrackedInterval.splitIntervalF
    simp only [← hsub, e]
  obtain ⟨c1, c2, c3, c4, c5⟩ := copy_fields t'
  obtain ⟨subs, u1, u2, u3⟩ := h.subs
  rw [hs]
  refine ⟨c1.trans h.empty, c2.trans h.final, c3.trans h.top, fun j => ?_, subs ++ [sub], ?_, ?_, ?_⟩
  · show Function.update t'.copy.nextTransformPoints d 0 j = _ ∨ Function.update t'.copy.nextTransformPoints d 0 j = _
    by_cases hj : j = d
    · right; simp [hj]
    · rw [Function.update_of_ne hj, c4]; exact h.mids j
  · intro B hB
    rcases List.mem_append.1 hB with hB | hB
    · exact u1 B hB
    · rw [List.mem_singleton.1 hB]; exact hb
  · show t'.copy.transforms ++ [roundedTr fl sub] = _
    rw [c5, u2, List.map_append, List.append_assoc]
    rfl
  · intro t
    rw [halfBox_map, u3, subPoint_append]
    congr 1
    funext j
    rw [hsub]
    by_cases hj : j = d
    · subst hj
      cases b
      · simp; ring
      · simp
    · cases b <;> simp [hj]

variable {ar : FloatArith ℝ} (hfl : RoundsToNearest 53 ar.fl) (hs : ar.Sums)

/-- A polynomial on a sub-box, after `k` halvings of `M` with error `e`; `B` bounds `M`. -/
structure SplitPoly (M : Tensor n ℝ) (e B η : ℝ) (k : ℕ) (p : Tensor n ℝ × ℝ) (S : Box n ℝ) : Prop where
  nonempty : p.1.Nonempty
  shape : ∀ j, p.1.shape j ≤ M.shape j
  float : ∀ j ∈ p.1.idx, IsFloat 53 (p.1.coef j)
  nonneg : 0 ≤ p.2
  bound : ∃ D B' : ℝ, (∀ t, InCube t → |M.eval (S.map t) - p.1.eval t| ≤ D) ∧ (∀ t, InCube t → |p.1.eval t| ≤ B') ∧
    B' + p.2 ≤ (1 + η) ^ k * (B + e) ∧ e - ((1 + η) ^ k - 1) * (B + e) ≤ p.2 - D

theorem SplitPoly.init {M : Tensor n ℝ} (hM : M.Nonempty) (hFl : ∀ j ∈ M.idx, IsFloat 53 (M.coef j)) {e B η : ℝ} (he : 0 ≤ e)
    (hB : ∀ t, InCube t → |M.eval t| ≤ B) : SplitPoly M e B η 0 (M, e) (Box.unit n ℝ) := by
  refine ⟨hM, fun _ => le_rfl, hFl, he, 0, B, fun t _ => ?_, hB, by simp, by simp⟩
  rw [TrackedInterval.unit_map]
  simp

include hfl hs

theorem SplitPoly.step {mid : Fin n → ℝ} (hmid : InCube mid) (fmid : ∀ j, IsFloat 53 (mid j)) {M : Tensor n ℝ} (hsize : ∏ j, M.shape j ≤ 2 ^ 19)
    {N : ℕ} (hN : ∀ j, M.shape j ≤ N) {C : ℝ} (hC : 1 ≤ C) (hC2 : 2 ^ n * ((∏ j, M.shape j : ℕ) : ℝ) ≤ C ^ 2) {e B η : ℝ}
    (hη : 1 / 2 ^ 29 + 3 * (21 * √(N : ℝ) ^ 3 * (N * macheps * C)) ≤ η) (k : ℕ) (d : Fin n) (b : Bool) (p : Tensor n ℝ × ℝ) (S : Box n ℝ)
    (h : SplitPoly M e B η k p S) : SplitPoly M e B η (k + 1) (splitPolyF ar mid d b p) (halfBox mid d b S) := by
  have hprod : ∏ j, p.1.shape j ≤ ∏ j, M.shape j := prod_le_prod' fun j _ => h.shape j
  obtain ⟨D, B', h1, h2, h3, h4⟩ := h.bound
  have hsp := splitPolyF_bound hfl hs (fmid d) (hmid d) b p.1 h.nonempty h.float (hprod.trans hsize) (N := N)
    (fun j => (h.shape j).trans (hN j)) h.nonneg
  obtain ⟨s1, s2, s3, g, g0, g1, g2, g3⟩ := hsp
  have hB0 : 0 ≤ B' := (abs_nonneg _).trans (h2 (fun _ => 0) fun _ => by simp)
  have g4 := g3 B' C (by linarith) (le_trans (mul_le_mul_of_nonneg_left (by exact_mod_cast hprod) (by positivity)) hC2) h2
  obtain ⟨Q, hQ⟩ : ∃ Q, Q = 21 * √(N : ℝ) ^ 3 := ⟨_, rfl⟩
  rw [← hQ] at hη g2
  have hQ1 : 1 ≤ Q := by
    have : 1 ≤ √(N : ℝ) := Real.one_le_sqrt.2 (by exact_mod_cast (h.nonempty d).trans_le ((h.shape d).trans (hN d)))
    have := one_le_pow₀ (n := 3) this
    rw [hQ]
    linarith
  have hc0 : 0 ≤ N * macheps * C := by unfold macheps; positivity
  have g5 : Q * g ≤ Q * (N * macheps * C) * B' := by
    have := mul_le_mul_of_nonneg_left g4 (by linarith : 0 ≤ Q)
    linarith
  obtain ⟨a1, a2, a3⟩ := step_arith h.nonneg g0 hQ1 g1 g5 (by positivity) hB0 hη
  have hη0 : 0 ≤ η := le_trans (by positivity) hη
  refine ⟨s1, fun j => (s2 j).trans (h.shape j), s3, a1, D + Q * g, B' + Q * g, fun t ht => ?_, fun t ht => ?_, ?_, ?_⟩
  · rw [halfBox_map]
    refine (abs_sub_le _ _ _).trans (add_le_add (h1 _ ?_) (g2 t ht))
    intro j
    by_cases hj : j = d
    · subst hj
      rw [Function.update_self]
      have hm := abs_le.1 (hmid j)
      have ht := abs_le.1 (ht j)
      rw [abs_le]
      cases b
      · simp only [Bool.false_eq_true, if_false]; constructor <;> nlinarith
      · simp only [if_true]; constructor <;> nlinarith
    · rw [Function.update_of_ne hj]; exact ht j
  · have hcube : InCube (Function.update t d
        (if b then (1 - mid d) / 2 * t d + (1 + mid d) / 2 else (mid d + 1) / 2 * t d + (mid d - 1) / 2)) := by
      intro j
      by_cases hj : j = d
      · subst hj
        rw [Function.update_self]
        have hm := abs_le.1 (hmid j)
        have ht := abs_le.1 (ht j)
        rw [abs_le]
        cases b
        · simp only [Bool.false_eq_true, if_false]; constructor <;> nlinarith
        · simp only [if_true]; constructor <;> nlinarith
      · rw [Function.update_of_ne hj]; exact ht j
    have q1 := g2 t ht
    rw [abs_sub_comm] at q1
    have q2 := abs_sub_abs_le_abs_sub ((splitPolyF ar mid d b (p.1, p.2)).1.eval t) (p.1.eval (Function.update t d
        (if b then (1 - mid d) / 2 * t d + (1 + mid d) / 2 else (mid d + 1) / 2 * t d + (mid d - 1) / 2)))
    have q3 := h2 _ hcube
    show |(splitPolyF ar mid d b (p.1, p.2)).1.eval t| ≤ _
    linarith
  · refine a2.trans ?_
    rw [pow_succ]
    have := mul_le_mul_of_nonneg_left h3 (by linarith : 0 ≤ 1 + η)
    linarith
  · rw [pow_succ]
    have := mul_le_mul_of_nonneg_left h3 hη0
    have a3' : p.2 - η * (B' + p.2) ≤ (splitPolyF ar mid d b p).2 - Q * g := a3
    linarith

end Halves

/-! ### The search -/

/-- What the theorems need of the quadratic check: with a slack of `κ` it only discards systems without a zero. -/
def QuadSafe {n : ℕ} (quad : (Fin n → Tensor n ℝ) → (Fin n → ℝ) → Bool) (κ : ℝ) : Prop :=
  ∀ (Ms : Fin n → Tensor n ℝ) (errors : Fin n → ℝ) (F : Fin n → (Fin n → ℝ) → ℝ), (∀ i, (Ms i).Nonempty) →
    (∀ i, ∀ k ∈ (Ms i).idx, IsFloat 53 ((Ms i).coef k)) → (∀ i, ∏ j, (Ms i).shape j ≤ 2 ^ 20) → (∀ i, 0 ≤ errors i) →
    (∀ i x, InCube x → |F i x - (Ms i).eval x| < errors i - κ * ((Ms i).absSum + errors i)) → quad Ms errors = true →
    ∃ i, ∀ x, InCube x → F i x ≠ 0

section Search

variable {n : ℕ} {ar : FloatArith ℝ} (hfl : RoundsToNearest 53 ar.fl) (hs : ar.Sums)

/-- What holds after `k` zooms and halvings and `l` trimmings, starting with `Ms0` and `ti0`; `T` is the scale of each polynomial. -/
structure SearchInv (ar : FloatArith ℝ) (Ms0 : Fin n → Tensor n ℝ) (T : Fin n → ℝ) (ti0 : TrackedInterval n ℝ) (F : Fin n → (Fin n → ℝ) → ℝ)
    (x : Fin n → ℝ) (τ η : ℝ) (k l : ℕ) (Ms : Fin n → Tensor n ℝ) (errors : Fin n → ℝ) (ti : TrackedInterval n ℝ) (subs : List (Box n ℝ)) : Prop where
  empty : ti.empty = false
  final : ti.finalStep = false
  top : ti.topInterval = ti0.topInterval
  mids : ∀ j, IsFloat 53 (ti.nextTransformPoints j) ∧ |ti.nextTransformPoints j| ≤ 1
  unit : ∀ B ∈ subs, ∀ j, -1 ≤ B.lo j ∧ B.lo j ≤ B.hi j ∧ B.hi j ≤ 1
  transforms : ti.transforms = ti0.transforms ++ subs.map (roundedTr ar.fl)
  root : ∃ y, InCube y ∧ subPoint subs y = x
  nonempty : ∀ i, (Ms i).Nonempty
  float : ∀ i, ∀ j ∈ (Ms i).idx, IsFloat 53 ((Ms i).coef j)
  shape : ∀ i j, (Ms i).shape j ≤ (Ms0 i).shape j
  nonneg : ∀ i, 0 ≤ errors i
  bound : ∀ i, ∃ B : ℝ, (∀ t, InCube t → |(Ms i).eval t| ≤ B) ∧ B + errors i ≤ (1 + η) ^ k * (103 / 100) ^ l * T i ∧
    ∀ t, InCube t → |F i (subPoint subs t) - (Ms i).eval t| ≤ errors i - (τ - 12 * (k * η + l / 2 ^ 27)) * T i

theorem pow_103 {l : ℕ} (h : l ≤ 60) : ((103 : ℝ) / 100) ^ l ≤ 59 / 10 :=
  (pow_le_pow_right₀ (by norm_num) h).trans (by norm_num)

theorem pow_sub_one_le {η : ℝ} (hη : 0 ≤ η) (m : ℕ) : (1 + η) ^ m - 1 ≤ m * η * (1 + η) ^ m := by
  induction m with
  | zero => simp
  | succ m ih =>
    have h1 : 0 ≤ (1 + η) ^ m := by positivity
    have h2 : 0 ≤ m * η * (1 + η) ^ m * η := by positivity
    have h3 : 0 ≤ η * (1 + η) ^ m * η := by positivity
    push_cast
    rw [pow_succ]
    nlinarith

/-- The growth stays below `59/5`. -/
theorem growth_le {k l K : ℕ} {η : ℝ} (hη : 0 ≤ η) (hk : k ≤ K) (hl : l ≤ 60) (hK : K * η ≤ 1 / 2) : (1 + η) ^ k * (103 / 100 : ℝ) ^ l ≤ 59 / 5 := by
  have h1 : (k : ℝ) * η ≤ 1 / 2 := (mul_le_mul_of_nonneg_right (by exact_mod_cast hk) hη).trans hK
  have h2 : (1 + η) ^ k ≤ 2 := (pow_one_add_le hη k h1).trans (by linarith)
  calc _ ≤ 2 * (59 / 10 : ℝ) := mul_le_mul h2 (pow_103 hl) (by positivity) (by norm_num)
    _ = _ := by norm_num

include hfl hs

variable {Ms0 : Fin n → Tensor n ℝ} (hN0 : ∀ i, ∏ j, (Ms0 i).shape j ≤ 2 ^ 19) (hn0 : ∀ i, (∏ j, (Ms0 i).shape j + n + 10) * (2 * n + 1) ≤ 2 ^ 23)
  {N : ℕ} (hN : ∀ i j, (Ms0 i).shape j ≤ N) {C : ℝ} (hC : 1 ≤ C) (hC2 : ∀ i, 2 ^ n * ((∏ j, (Ms0 i).shape j : ℕ) : ℝ) ≤ C ^ 2)
  {T : Fin n → ℝ} (hT : ∀ i, 0 < T i) {ti0 : TrackedInterval n ℝ} {F : Fin n → (Fin n → ℝ) → ℝ} {x : Fin n → ℝ}
  {svd : SvdF n ℝ} {ρ γ κ τ q η : ℝ} (hsvd : svd.Accurate ρ γ) (hρ0 : 0 ≤ ρ) (hρ : ρ ≤ 1 / 2) (hγ0 : 0 ≤ γ) (hγ : γ ≤ 1)
  (hκ : 1 / 2 ^ 28 + 4 * ρ + 3 * γ ≤ κ) (hq : q = 21 * √(N : ℝ) ^ 3 * (N * macheps * C)) (hη : η = 1 / 2 ^ 29 + 6 * (n * q)) (hnq : n * q ≤ 1 / 2)
  {K : ℕ} (hK : K * η ≤ 1 / 2) (hτ : 12 * (κ * C + K * η + 60 / 2 ^ 27) ≤ τ)

include hN0 hn0 hN hC hC2 hT hsvd hρ0 hρ hγ0 hγ hκ hq hη hnq hK hτ

theorem SearchInv.slack {k l : ℕ} {Ms : Fin n → Tensor n ℝ} {errors : Fin n → ℝ} {ti : TrackedInterval n ℝ} {subs : List (Box n ℝ)}
    (h : SearchInv ar Ms0 T ti0 F x τ η k l Ms errors ti subs) (hk : k ≤ K) (hl : l ≤ 60) (i : Fin n) (t : Fin n → ℝ) (ht : InCube t) :
    |F i (subPoint subs t) - (Ms i).eval t| < errors i - κ * ((Ms i).absSum + errors i) := by
  obtain ⟨B, b1, b2, b3⟩ := h.bound i
  have hq0 : 0 ≤ q := by rw [hq]; unfold macheps; positivity
  have hη0 : 0 ≤ η := by rw [hη]; positivity
  have hκ0 : 0 < κ := by linarith
  have hTi := hT i
  have hA : (Ms i).absSum ≤ C * B := by
    refine absSum_le_of_bound (Ms i) (h.nonempty i) b1 (by linarith) (le_trans (mul_le_mul_of_nonneg_left ?_ (by positivity)) (hC2 i))
    exact_mod_cast prod_le_prod' fun j _ => h.shape i j
  have h1 : errors i ≤ C * errors i := le_mul_of_one_le_left (h.nonneg i) hC
  have h2 : (Ms i).absSum + errors i ≤ C * (59 / 5 * T i) := by
    have h3 := b2.trans (mul_le_mul_of_nonneg_right (growth_le hη0 hk hl hK) hTi.le)
    have h4 := mul_le_mul_of_nonneg_left h3 (by linarith : 0 ≤ C)
    linarith
  have h5 := mul_le_mul_of_nonneg_left h2 hκ0.le
  have h6 : 0 < κ * C * T i := by positivity
  have h7 : (k : ℝ) * η ≤ K * η := mul_le_mul_of_nonneg_right (by exact_mod_cast hk) hη0
  have h8 : (l : ℝ) ≤ 60 := by exact_mod_cast hl
  have h9 : 12 * (κ * C) ≤ τ - 12 * (k * η + l / 2 ^ 27) := by
    have : (l : ℝ) / 2 ^ 27 ≤ 60 / 2 ^ 27 := div_le_div_of_nonneg_right h8 (by norm_num)
    linarith
  have h10 := mul_le_mul_of_nonneg_right h9 hTi.le
  have := b3 t ht
  linarith

/-- Trimming. -/
theorem SearchInv.trim {k l : ℕ} {Ms : Fin n → Tensor n ℝ} {errors : Fin n → ℝ} {ti : TrackedInterval n ℝ} {subs : List (Box n ℝ)}
    (h : SearchInv ar Ms0 T ti0 F x τ η k l Ms errors ti subs) (hk : k ≤ K) (hl : l + 1 ≤ 60) :
    SearchInv ar Ms0 T ti0 F x τ η k (l + 1) (trimMsF ar Ms errors).1 (trimMsF ar Ms errors).2 ti.copy subs := by
  have hprod : ∀ i, ∏ j, (Ms i).shape j ≤ ∏ j, (Ms0 i).shape j := fun i => prod_le_prod' fun j _ => h.shape i j
  have htr := trim_slack hfl hs Ms h.nonempty h.float
    (fun i => le_trans (Nat.mul_le_mul_right _ (by have := hprod i; omega)) (hn0 i)) errors h.nonneg
  have hq0 : 0 ≤ q := by rw [hq]; unfold macheps; positivity
  have hη0 : 0 ≤ η := by rw [hη]; positivity
  obtain ⟨c1, c2, c3, c4, c5⟩ := copy_fields ti
  refine ⟨c1.trans h.empty, c2.trans h.final, c3.trans h.top, by rw [c4]; exact h.mids, h.unit, by rw [c5]; exact h.transforms, h.root,
    fun i => (htr i).2.2.1, fun i j hj => ?_, fun i j => ((htr i).2.1 j).trans (h.shape i j), fun i => (htr i).2.2.2.1, fun i => ?_⟩
  · rw [(htr i).1]
    refine h.float i j ?_
    have h1 := (mem_idx_iff _ _).1 hj
    exact (mem_idx_iff _ _).2 fun a => (h1 a).trans_le ((htr i).2.1 a)
  · obtain ⟨-, -, -, t1, t2, t3⟩ := htr i
    obtain ⟨B, b1, b2, b3⟩ := h.bound i
    obtain ⟨E', hE'⟩ : ∃ E', E' = (trimMsF ar Ms errors).2 i := ⟨_, rfl⟩
    rw [← hE'] at t1 t2 t3 ⊢
    have hB0 : 0 ≤ B := (abs_nonneg _).trans (b1 (fun _ => 0) fun _ => by simp)
    have he := h.nonneg i
    refine ⟨B + 11 / 1000 * errors i, fun t ht => ?_, ?_, fun t ht => ?_⟩
    · have q1 := t3 t ht
      rw [abs_sub_comm] at q1
      have q2 := abs_sub_abs_le_abs_sub (((trimMsF ar Ms errors).1 i).eval t) ((Ms i).eval t)
      have q3 := b1 t ht
      linarith
    · rw [pow_succ]
      have : B + 11 / 1000 * errors i + E' ≤ 103 / 100 * (B + errors i) := by linarith
      refine this.trans ?_
      have := mul_le_mul_of_nonneg_left b2 (by norm_num : (0 : ℝ) ≤ 103 / 100)
      linarith
    · have q1 := t3 t ht
      have q2 := b3 t ht
      have q3 := abs_sub_le (F i (subPoint subs t)) ((Ms i).eval t) (((trimMsF ar Ms errors).1 i).eval t)
      have q4 : E' ≤ 12 * T i * 2 := by
        have := b2.trans (mul_le_mul_of_nonneg_right (growth_le hη0 hk (by omega) hK) (hT i).le)
        have := hT i
        linarith
      push_cast
      have := hT i
      have q5 : (τ - 12 * (k * η + (l + 1) / 2 ^ 27)) * T i = (τ - 12 * (k * η + l / 2 ^ 27)) * T i - 12 / 2 ^ 27 * T i := by ring
      rw [q5]
      linarith

/-- One zoom. -/
theorem SearchInv.zoom (hroot : ∀ i, F i x = 0) {k l : ℕ} {Ms : Fin n → Tensor n ℝ} {errors : Fin n → ℝ} {ti : TrackedInterval n ℝ}
    {subs : List (Box n ℝ)} (h : SearchInv ar Ms0 T ti0 F x τ η k l Ms errors ti subs) (hk : k ≤ K) (hl : l ≤ 60) :
    (∃ st, zoomInOnIntervalIterF ar svd Ms errors ti = .ok ⟨Ms, errors, ti, false, st⟩) ∨
      ∃ z subs', zoomInOnIntervalIterF ar svd Ms errors ti = .ok z ∧ SearchInv ar Ms0 T ti0 F x τ η (k + 1) l z.Ms z.errors z.ti subs' := by
  have hprod : ∀ i, ∏ j, (Ms i).shape j ≤ ∏ j, (Ms0 i).shape j := fun i => prod_le_prod' fun j _ => h.shape i j
  have hn : n ≤ 2 ^ 20 := by
    rcases Nat.eq_zero_or_pos n with h0 | h0
    · omega
    · have := hn0 ⟨0, h0⟩
      have h1 : 1 * (2 * n + 1) ≤ (∏ j, (Ms0 ⟨0, h0⟩).shape j + n + 10) * (2 * n + 1) := Nat.mul_le_mul_right _ (by omega)
      by_contra hlt
      rw [not_le] at hlt
      have h2 : n * (2 * n + 1) ≤ 2 ^ 23 := le_trans (Nat.mul_le_mul_right _ (by omega)) this
      nlinarith
  obtain ⟨y, hy, hyx⟩ := h.root
  have hq0 : 0 ≤ q := by rw [hq]; unfold macheps; positivity
  have hη0 : 0 ≤ η := by rw [hη]; positivity
  rcases zoomIterF_cases hfl hs Ms h.nonempty h.float (fun i => (hprod i).trans ((hN0 i).trans (by norm_num)))
    (fun i => le_trans (Nat.mul_le_mul_right _ (by have := hprod i; omega)) (hn0 i)) errors h.nonneg svd hsvd hρ0 hρ hγ0 hγ hκ
    (fun i t => F i (subPoint subs t))
    (fun i t ht => (h.slack hfl hs hN0 hn0 hN hC hC2 hT hsvd hρ0 hρ hγ0 hγ hκ hq hη hnq hK hτ hk hl i t ht).le) y hy
    (fun i => by rw [hyx]; exact hroot i) ti h.final with h1 | ⟨a, b, st, hab, hz, hadd⟩
  · exact Or.inl h1
  refine Or.inr ⟨_, subs ++ [⟨a, b⟩], hz, ?_⟩
  have ha : InCube a := fun j => (hab j).1
  have hb : InCube b := fun j => (hab j).2.1
  have hstep : ∀ i, _ := fun i => zoom_array hfl hs hn (Ms i) (h.nonempty i) ((hprod i).trans (hN0 i)) (N := N) (fun j => (h.shape i j).trans (hN i j))
    (errors i) (h.nonneg i) a b (fun j => (hab j).2.2.2.2.1) (fun j => (hab j).2.2.2.2.2) ha hb
  have harith : ∀ i, ∃ B QG : ℝ, 0 ≤ (transformChebF ar (Ms i) (fun d => (getTransformPointsF ar.fl (a d) (b d)).1)
        (fun d => (getTransformPointsF ar.fl (a d) (b d)).2) (errors i)).2 ∧ (∀ t, InCube t → |(Ms i).eval t| ≤ B) ∧
      B + errors i ≤ (1 + η) ^ k * (103 / 100) ^ l * T i ∧
      (∀ t, InCube t → |F i (subPoint subs t) - (Ms i).eval t| ≤ errors i - (τ - 12 * (k * η + l / 2 ^ 27)) * T i) ∧
      (∀ t, InCube t → |(Ms i).eval (fun j => (b j - a j) / 2 * t j + (b j + a j) / 2) - (transformChebF ar (Ms i)
        (fun d => (getTransformPointsF ar.fl (a d) (b d)).1) (fun d => (getTransformPointsF ar.fl (a d) (b d)).2) (errors i)).1.eval t| ≤ QG) ∧
      B + QG + (transformChebF ar (Ms i) (fun d => (getTransformPointsF ar.fl (a d) (b d)).1)
        (fun d => (getTransformPointsF ar.fl (a d) (b d)).2) (errors i)).2 ≤ (1 + η) * (B + errors i) ∧
      errors i - η * (B + errors i) ≤ (transformChebF ar (Ms i) (fun d => (getTransformPointsF ar.fl (a d) (b d)).1)
        (fun d => (getTransformPointsF ar.fl (a d) (b d)).2) (errors i)).2 - QG := by
    intro i
    obtain ⟨G, G0, h1, h2, -, -, h3⟩ := hstep i
    obtain ⟨B, b1, b2, b3⟩ := h.bound i
    have hB0 : 0 ≤ B := (abs_nonneg _).trans (b1 (fun _ => 0) fun _ => by simp)
    have h4 := h3 B C (by linarith) (le_trans (mul_le_mul_of_nonneg_left (by exact_mod_cast hprod i) (by positivity)) (hC2 i)) b1
    rw [← hq] at h4
    obtain ⟨Q, hQ⟩ : ∃ Q, Q = 21 * √(N : ℝ) ^ 3 := ⟨_, rfl⟩
    rw [← hQ] at h2 h4
    have hQ1 : 1 ≤ Q := by
      have : 1 ≤ √(N : ℝ) := Real.one_le_sqrt.2 (by exact_mod_cast (h.nonempty i i).trans_le ((h.shape i i).trans (hN i i)))
      have := one_le_pow₀ (n := 3) this
      rw [hQ]
      linarith
    have hp : 1 ≤ (1 + q) ^ n := one_le_pow₀ (by linarith)
    have hp2 := pow_one_add_le hq0 n hnq
    obtain ⟨a1, a2, a3⟩ := step_arith (h.nonneg i) G0 hQ1 h1 h4 (by linarith) hB0 (by rw [hη]; linarith : 1 / 2 ^ 29 + 3 * ((1 + q) ^ n - 1) ≤ η)
    exact ⟨B, Q * G, a1, b1, b2, b3, h2, a2, a3⟩
  constructor
  · show (ti.addTransformF ar.fl ⟨a, b⟩).empty = false
    rw [hadd]
    exact h.empty
  · show (ti.addTransformF ar.fl ⟨a, b⟩).finalStep = false
    rw [hadd]
    exact h.final
  · show (ti.addTransformF ar.fl ⟨a, b⟩).topInterval = _
    rw [hadd]
    exact h.top
  · show ∀ j, IsFloat 53 ((ti.addTransformF ar.fl ⟨a, b⟩).nextTransformPoints j) ∧ |(ti.addTransformF ar.fl ⟨a, b⟩).nextTransformPoints j| ≤ 1
    rw [hadd]
    exact h.mids
  · intro B hB j
    rcases List.mem_append.1 hB with hB | hB
    · exact h.unit B hB j
    · rw [List.mem_singleton.1 hB]
      exact ⟨(abs_le.1 (ha j)).1, (hab j).2.2.1.trans (hab j).2.2.2.1, (abs_le.1 (hb j)).2⟩
  · show (ti.addTransformF ar.fl ⟨a, b⟩).transforms = _
    rw [hadd, List.map_append, ← List.append_assoc, ← h.transforms]
    rfl
  · choose w hw1 hw2 using fun j => sub_coord (hab j).2.2.1 (hab j).2.2.2.1
    refine ⟨w, hw1, ?_⟩
    rw [subPoint_append, ← hyx]
    congr 1
    funext j
    exact hw2 j
  · intro i
    obtain ⟨G, -, -, -, h1, -⟩ := hstep i
    exact h1
  · intro i
    exact transformChebF_float hfl (Ms i) _ _ (errors i) (h.float i)
  · intro i j
    obtain ⟨G, -, -, -, -, h1, -⟩ := hstep i
    exact (h1 j).trans (h.shape i j)
  · intro i
    obtain ⟨B, QG, h1, -⟩ := harith i
    exact h1
  · intro i
    obtain ⟨B, QG, -, b1, b2, b3, h2, a2, a3⟩ := harith i
    have hTi := hT i
    refine ⟨B + QG, fun t ht => ?_, ?_, fun t ht => ?_⟩
    · have h5 := b1 _ (sub_inCube ha hb ht)
      have h6 := h2 t ht
      rw [abs_sub_comm] at h6
      have h7 := abs_sub_abs_le_abs_sub ((transformChebF ar (Ms i) (fun d => (getTransformPointsF ar.fl (a d) (b d)).1)
        (fun d => (getTransformPointsF ar.fl (a d) (b d)).2) (errors i)).1.eval t) ((Ms i).eval fun j => (b j - a j) / 2 * t j + (b j + a j) / 2)
      show |(transformChebF ar (Ms i) _ _ (errors i)).1.eval t| ≤ _
      linarith
    · refine a2.trans ?_
      rw [pow_succ (1 + η)]
      have := mul_le_mul_of_nonneg_left b2 (by linarith : 0 ≤ 1 + η)
      linarith
    · rw [subPoint_append]
      have h5 := b3 _ (sub_inCube ha hb ht)
      have h6 := h2 t ht
      have h7 := abs_sub_le (F i (subPoint subs fun j => (b j - a j) / 2 * t j + (b j + a j) / 2))
        ((Ms i).eval fun j => (b j - a j) / 2 * t j + (b j + a j) / 2) ((transformChebF ar (Ms i) (fun d => (getTransformPointsF ar.fl (a d) (b d)).1)
          (fun d => (getTransformPointsF ar.fl (a d) (b d)).2) (errors i)).1.eval t)
      have h8 := mul_le_mul_of_nonneg_left (b2.trans (mul_le_mul_of_nonneg_right (growth_le hη0 hk hl hK) hTi.le)) hη0
      have h9 : 0 ≤ η * T i := mul_nonneg hη0 hTi.le
      push_cast
      have e : (τ - 12 * ((k + 1) * η + l / 2 ^ 27)) * T i = (τ - 12 * (k * η + l / 2 ^ 27)) * T i - 12 * (η * T i) := by ring
      rw [e]
      refine h7.trans ?_
      show _ ≤ (transformChebF ar (Ms i) _ _ (errors i)).2 - _
      linarith

/-- The zoom loop. -/
theorem SearchInv.loop (hroot : ∀ i, F i x = 0) {l : ℕ} (hl : l ≤ 60) (maxZoomCount : ℕ) (fuel : ℕ) : ∀ {k : ℕ} {Ms : Fin n → Tensor n ℝ}
    {errors : Fin n → ℝ} {ti : TrackedInterval n ℝ} {subs : List (Box n ℝ)} (lastSizes : Fin n → ℝ) (zoomCount : ℕ),
    SearchInv ar Ms0 T ti0 F x τ η k l Ms errors ti subs → k + fuel ≤ K → ∀ {z : ZoomResult n ℝ},
    zoomLoopF ar svd maxZoomCount fuel Ms errors ti lastSizes zoomCount = .ok z →
      ∃ k' subs', k' ≤ k + fuel ∧ SearchInv ar Ms0 T ti0 F x τ η k' l z.Ms z.errors z.ti subs' := by
  induction fuel with
  | zero =>
    intro k Ms errors ti subs _ _ _ _ z hz
    cases hz
  | succ fuel ih =>
    intro k Ms errors ti subs lastSizes zoomCount h hk z hz
    unfold zoomLoopF at hz
    rcases h.zoom hfl hs hN0 hn0 hN hC hC2 hT hsvd hρ0 hρ hγ0 hγ hκ hq hη hnq hK hτ hroot (by omega) hl with ⟨st, h1⟩ | ⟨z', subs', h1, h2⟩
    · rw [h1] at hz
      simp only [h.empty, Bool.false_eq_true, false_and, if_false] at hz
      cases hz
      exact ⟨k, subs, by omega, h⟩
    · rw [h1] at hz
      simp only [h2.empty, Bool.false_eq_true, if_false] at hz
      by_cases hc : z'.changed = true ∧ (if ∀ i, ar.fl (z'.ti.dimSize i) ≥ ar.fl (lastSizes i / 2) then zoomCount + 1 else zoomCount) ≤ maxZoomCount
      · rw [if_pos hc] at hz
        obtain ⟨k', subs'', h3, h4⟩ := ih _ _ h2 (by omega) hz
        exact ⟨k', subs'', by omega, h4⟩
      · rw [if_neg hc] at hz
        cases hz
        exact ⟨k + 1, subs', by omega, h2⟩

/-- Subdivision: the child that has the zero. -/
theorem SearchInv.split (hn1 : 0 < n) {argsort : List ℕ → List ℕ} (hsort : ArgsortOK argsort) {k l : ℕ} {Ms : Fin n → Tensor n ℝ} {errors : Fin n → ℝ}
    {ti : TrackedInterval n ℝ} {subs : List (Box n ℝ)} (h : SearchInv ar Ms0 T ti0 F x τ η k l Ms errors ti subs) (hk : k + n ≤ K) (hl : l ≤ 60)
    {level : ℕ} {cs : List (Child n ℝ)} (hcs : getSubdivisionIntervalsF ar argsort (fun s => s.sort (· ≤ ·)) Ms errors ti level = .ok cs) :
    ∃ c ∈ cs, ∃ m subs', m ≤ n ∧ SearchInv ar Ms0 T ti0 F x τ η (k + m) l c.Ms c.errors c.ti subs' := by
  have hprod : ∀ i, ∏ j, (Ms i).shape j ≤ ∏ j, (Ms0 i).shape j := fun i => prod_le_prod' fun j _ => h.shape i j
  have hq0 : 0 ≤ q := by rw [hq]; unfold macheps; positivity
  have hη0 : 0 ≤ η := by rw [hη]; positivity
  have hn1' : (1 : ℝ) ≤ n := by exact_mod_cast hn1
  have hη2 : 1 / 2 ^ 29 + 3 * (21 * √(N : ℝ) ^ 3 * (N * macheps * C)) ≤ η := by
    rw [← hq, hη]
    nlinarith
  have hmid : InCube ti.nextTransformPoints := fun j => (h.mids j).2
  choose B b1 b2 b3 using h.bound
  obtain ⟨dims, hdl, hf⟩ := getSubdivisionIntervalsF_spec hsort hn1 (R := fun i => SplitPoly (Ms i) (errors i) (B i) η)
    (I := SplitInterval ar.fl ti) (fun i => SplitPoly.init (h.nonempty i) (h.float i) (h.nonneg i) (b1 i))
    (fun i k d b p S hS => hS.step hfl hs hmid (fun j => (h.mids j).1) ((hprod i).trans (hN0 i)) (fun j => (h.shape i j).trans (hN i j)) hC
      (le_trans (mul_le_mul_of_nonneg_left (by exact_mod_cast hprod i) (by positivity)) (hC2 i)) hη2 k d b p S)
    (SplitInterval.init ar.fl ti) (fun d b t S hS => hS.step hmid d b t S) hcs
  obtain ⟨y, hy, hyx⟩ := h.root
  obtain ⟨S, hS, hSy⟩ := splitBoxes_cover ti.nextTransformPoints (dims.toFinset.sort (· ≤ ·)) (Box.unit n ℝ) (x := y)
    (fun j => abs_le.1 (hy j))
  obtain ⟨j, hj, hjS⟩ := List.getElem_of_mem hS
  have hj' : j < cs.length := by rw [hf.length_eq]; exact hj
  obtain ⟨hI, hP⟩ := List.Forall₂.get hf hj' hj
  rw [List.get_eq_getElem, List.get_eq_getElem, hjS] at hI
  simp only [List.get_eq_getElem, hjS] at hP
  obtain ⟨c, hc⟩ : ∃ c, c = cs[j] := ⟨_, rfl⟩
  rw [← hc] at hI hP
  refine ⟨c, by rw [hc]; exact List.getElem_mem hj', dims.length, ?_⟩
  obtain ⟨subs', u1, u2, u3⟩ := hI.subs
  refine ⟨subs ++ subs', hdl, hI.empty.trans h.empty, hI.final.trans h.final, hI.top.trans h.top, fun j => ?_, fun B hB => ?_, ?_, ?_,
    fun i => (hP i).nonempty, fun i => (hP i).float, fun i j => ((hP i).shape j).trans (h.shape i j), fun i => (hP i).nonneg, fun i => ?_⟩
  · rcases hI.mids j with e | e
    · rw [e]; exact h.mids j
    · rw [e]; exact ⟨isFloat_zero, by simp⟩
  · rcases List.mem_append.1 hB with hB | hB
    · exact h.unit B hB
    · exact u1 B hB
  · rw [u2, h.transforms, List.map_append, List.append_assoc]
  · choose w hw1 hw2 using fun j => sub_coord (hSy j).1 (hSy j).2
    refine ⟨w, hw1, ?_⟩
    rw [subPoint_append_list, ← u3, ← hyx]
    congr 1
    funext j
    exact hw2 j
  · obtain ⟨D, B', p1, p2, p3, p4⟩ := (hP i).bound
    have hTi := hT i
    have hpow : 0 ≤ (1 + η) ^ dims.length := by positivity
    have p5 := mul_le_mul_of_nonneg_left (b2 i) hpow
    have e1 : (1 + η) ^ dims.length * ((1 + η) ^ k * (103 / 100) ^ l * T i) = (1 + η) ^ (k + dims.length) * (103 / 100) ^ l * T i := by
      rw [pow_add]; ring
    rw [e1] at p5
    refine ⟨B', p2, p3.trans p5, fun t ht => ?_⟩
    rw [subPoint_append_list]
    have hc2 := subPoint_inCube u1 ht
    have p6 := b3 i _ hc2
    have p7 := p1 t ht
    rw [u3] at p7
    have p8 := abs_sub_le (F i (subPoint subs (subPoint subs' t))) ((Ms i).eval (subPoint subs' t)) ((c.Ms i).eval t)
    have p9 : ((1 + η) ^ dims.length - 1) * (B i + errors i) ≤ 12 * (dims.length * η) * T i := by
      have hB0 : 0 ≤ B i := (abs_nonneg _).trans (b1 i (fun _ => 0) fun _ => by simp)
      have r1 := mul_le_mul_of_nonneg_right (pow_sub_one_le hη0 dims.length) (add_nonneg hB0 (h.nonneg i))
      have r2 := p5.trans (mul_le_mul_of_nonneg_right (growth_le hη0 (by omega : k + dims.length ≤ K) hl hK) hTi.le)
      have r3 : 0 ≤ (dims.length : ℝ) * η := by positivity
      have r4 := mul_le_mul_of_nonneg_left r2 r3
      have r5 : 0 ≤ (dims.length : ℝ) * η * T i := mul_nonneg r3 hTi.le
      have e2 : dims.length * η * (1 + η) ^ dims.length * (B i + errors i) = dims.length * η * ((1 + η) ^ dims.length * (B i + errors i)) := by ring
      rw [e2] at r1
      linarith
    push_cast
    have e3 : (τ - 12 * ((k + dims.length) * η + l / 2 ^ 27)) * T i = (τ - 12 * (k * η + l / 2 ^ 27)) * T i - 12 * (dims.length * η) * T i := by ring
    rw [e3]
    have p4' : errors i - ((1 + η) ^ dims.length - 1) * (B i + errors i) ≤ c.errors i - D := p4
    have p7' : |(Ms i).eval (subPoint subs' t) - (c.Ms i).eval t| ≤ D := p7
    linarith

/-- The search. -/
theorem SearchInv.search (hn1 : 0 < n) {argsort : List ℕ → List ℕ} (hsort : ArgsortOK argsort)
    {quad : (Fin n → Tensor n ℝ) → (Fin n → ℝ) → Bool} (hquad : QuadSafe quad κ) (hx : ∀ i, F i x = 0) (Z : ℕ) (fuel : ℕ) :
    ∀ {k l : ℕ} (level : ℕ) {Ms : Fin n → Tensor n ℝ} {errors : Fin n → ℝ} {ti : TrackedInterval n ℝ} {subs : List (Box n ℝ)},
    SearchInv ar Ms0 T ti0 F x τ η k l Ms errors ti subs → k + fuel * (Z + n) ≤ K → l + fuel ≤ 60 → ∀ {leaves : List (Child n ℝ)},
    searchF ar svd quad argsort (fun s => s.sort (· ≤ ·)) Z fuel level Ms errors ti = .ok leaves → ∃ c ∈ leaves, SearchKept ar.fl F ti0 x c := by
  have hκ0 : 1 / 2 ^ 28 ≤ κ := by linarith
  have kept : ∀ {k l : ℕ} {c : Child n ℝ} {subs : List (Box n ℝ)}, SearchInv ar Ms0 T ti0 F x τ η k l c.Ms c.errors c.ti subs → k ≤ K → l ≤ 60 →
      SearchKept ar.fl F ti0 x c := by
    intro k l c subs h hk hl
    refine ⟨h.empty, h.top, subs, h.unit, h.transforms, h.root, fun i t ht => ?_⟩
    refine (h.slack hfl hs hN0 hn0 hN hC hC2 hT hsvd hρ0 hρ hγ0 hγ hκ hq hη hnq hK hτ hk hl i t ht).le.trans ?_
    have h1 : 0 ≤ (c.Ms i).absSum := sum_nonneg fun _ _ => abs_nonneg _
    have h2 := mul_nonneg (by linarith : 0 ≤ κ) (add_nonneg h1 (h.nonneg i))
    linarith
  induction fuel with
  | zero =>
    intro k l level Ms errors ti subs _ _ _ leaves hr
    cases hr
  | succ fuel ih =>
    intro k l level Ms errors ti subs h hk hl leaves hr
    have hk' : k + fuel * (Z + n) + Z + n ≤ K := by
      have : (fuel + 1) * (Z + n) = fuel * (Z + n) + Z + n := by ring
      omega
    have hslack := fun i t ht => h.slack hfl hs hN0 hn0 hN hC hC2 hT hsvd hρ0 hρ hγ0 hγ hκ hq hη hnq hK hτ (by omega) (by omega) i t ht
    have hsz : ∀ i, ∏ j, (Ms i).shape j ≤ 2 ^ 20 := fun i =>
      (prod_le_prod' fun j _ => h.shape i j).trans ((hN0 i).trans (by norm_num))
    obtain ⟨y, hy, hyx⟩ := h.root
    unfold searchF at hr
    split at hr
    · cases hr
      exact ⟨_, List.mem_singleton_self _, kept (c := ⟨Ms, errors, ti⟩) h (by omega) (by omega)⟩
    split at hr
    · rename_i hc
      exfalso
      obtain ⟨i, -, h2⟩ := C101_slack_partial hfl hs Ms h.nonempty h.float errors h.nonneg hc
      refine h2 (fun t => F i (subPoint subs t)) (fun t ht => (hslack i t ht).le.trans ?_) y hy (by simp only [hyx]; exact hx i)
      have hS : 0 ≤ (Ms i).absSum := sum_nonneg fun _ _ => abs_nonneg _
      have h3 : ((∏ j, (Ms i).shape j : ℕ) : ℝ) ≤ 2 ^ 20 := by exact_mod_cast hsz i
      have h4 : (((∏ j, (Ms i).shape j : ℕ) : ℝ) + 2) * (Ms i).absSum ≤ (2 ^ 20 + 2) * (Ms i).absSum := mul_le_mul_of_nonneg_right (by linarith) hS
      have h5 := mul_le_mul_of_nonneg_right hκ0 (add_nonneg hS (h.nonneg i))
      have h6 : ((((∏ j, (Ms i).shape j : ℕ) : ℝ) + 2) * (Ms i).absSum + 2 * errors i) / 2 ^ 53 ≤ ((2 ^ 20 + 2) * (Ms i).absSum + 2 * errors i) / 2 ^ 53 :=
        div_le_div_of_nonneg_right (by linarith) (by norm_num)
      have h7 := h.nonneg i
      linarith
    split at hr
    · rename_i hc
      exfalso
      obtain ⟨i, h2⟩ := hquad Ms errors (fun i t => F i (subPoint subs t)) h.nonempty h.float hsz h.nonneg hslack hc
      exact h2 y hy (by simp only [hyx]; exact hx i)
    have htr := h.trim hfl hs hN0 hn0 hN hC hC2 hT hsvd hρ0 hρ hγ0 hγ hκ hq hη hnq hK hτ (by omega) (by omega)
    simp only at hr
    split at hr
    · cases hr
    rename_i z hz
    obtain ⟨k1, subs1, hk1, h1⟩ := SearchInv.loop hfl hs hN0 hn0 hN hC hC2 hT hsvd hρ0 hρ hγ0 hγ hκ hq hη hnq hK hτ hx (by omega) 25 Z _ 0 htr
      (by omega) hz
    rw [if_neg (by rw [h1.empty]; simp)] at hr
    split at hr
    · cases hr
      exact ⟨_, List.mem_singleton_self _, kept (c := ⟨z.Ms, z.errors, z.ti⟩) h1 (by omega) (by omega)⟩
    split at hr
    · cases hr
    rename_i cs hcs
    obtain ⟨c, hc, m, subs2, hm, h2⟩ := h1.split hfl hs hN0 hn0 hN hC hC2 hT hsvd hρ0 hρ hγ0 hγ hκ hq hη hnq hK hτ hn1 hsort (by omega) (by omega) hcs
    split at hr
    · cases hr
    rename_i rs hrs
    cases hr
    have hf := mapM_ok_inv hrs
    obtain ⟨j, hj, hjc⟩ := List.getElem_of_mem hc
    have hj' : j < rs.length := by rw [← hf.length_eq]; exact hj
    have hcr := List.Forall₂.get hf hj hj'
    rw [List.get_eq_getElem, List.get_eq_getElem, hjc] at hcr
    obtain ⟨leaf, hleaf, hkept⟩ := ih (level + 1) h2 (by omega) (by omega) hcr
    exact ⟨leaf, List.mem_flatten.2 ⟨_, List.getElem_mem hj', hleaf⟩, hkept⟩

end Search

/-- **C112, part.**  The search goes at most `L ≤ 60` levels deep, with at most `Z` zooms on each level; the linear algebra has errors `ρ` and `γ`; at most
`N` entries along every axis, `C ^ 2` is at least `2 ^ n` times the number of coefficients; the quadratic check is safe with a slack of `κ`.  If the errors
exceed the true ones by `τ` times the sums of the absolute values (and the errors), a zero is never lost: unless the search raises an exception or exceeds
the bounds on its depth and on the number of zooms, one of the boxes that it returns has the zero, and its polynomials and errors describe the functions
there.  Nothing is claimed about the final step and about boxes that are combined. -/
theorem C112_kept_partial {n : ℕ} (hn1 : 0 < n) {ar : FloatArith ℝ} (hfl : RoundsToNearest 53 ar.fl) (hs : ar.Sums) (Ms : Fin n → Tensor n ℝ)
    (hM : ∀ i, (Ms i).Nonempty) (hFl : ∀ i, ∀ k ∈ (Ms i).idx, IsFloat 53 ((Ms i).coef k)) (hsize : ∀ i, ∏ j, (Ms i).shape j ≤ 2 ^ 19)
    (hn : ∀ i, (∏ j, (Ms i).shape j + n + 10) * (2 * n + 1) ≤ 2 ^ 23) {N : ℕ} (hN : ∀ i j, (Ms i).shape j ≤ N)
    {C : ℝ} (hC : 1 ≤ C) (hC2 : ∀ i, 2 ^ n * ((∏ j, (Ms i).shape j : ℕ) : ℝ) ≤ C ^ 2) (errors : Fin n → ℝ) (he : ∀ i, 0 < errors i)
    (svd : SvdF n ℝ) {ρ γ κ τ : ℝ} (hsvd : svd.Accurate ρ γ) (hρ0 : 0 ≤ ρ) (hρ : ρ ≤ 1 / 2) (hγ0 : 0 ≤ γ) (hγ : γ ≤ 1)
    (hκ : 1 / 2 ^ 28 + 4 * ρ + 3 * γ ≤ κ) {quad : (Fin n → Tensor n ℝ) → (Fin n → ℝ) → Bool} (hquad : QuadSafe quad κ)
    {argsort : List ℕ → List ℕ} (hsort : ArgsortOK argsort) {L Z : ℕ} (hL : L ≤ 60) {η : ℝ}
    (hη : η = 1 / 2 ^ 29 + 6 * (n * (21 * √(N : ℝ) ^ 3 * (N * (1 / 2 ^ 52) * C)))) (hθ : (L * (Z + n) : ℕ) * η ≤ 1 / 2)
    (hτ : 12 * (κ * C + (L * (Z + n) : ℕ) * η + 60 / 2 ^ 27) ≤ τ)
    (F : Fin n → (Fin n → ℝ) → ℝ) (hF : ∀ i x, InCube x → |F i x - (Ms i).eval x| ≤ errors i - τ * ((Ms i).absSum + errors i))
    (x : Fin n → ℝ) (hx : InCube x) (hroot : ∀ i, F i x = 0) (ti : TrackedInterval n ℝ) (hti : ti.empty = false) (hfin : ti.finalStep = false)
    (hmid : ∀ j, IsFloat 53 (ti.nextTransformPoints j) ∧ |ti.nextTransformPoints j| ≤ 1) (level : ℕ) (leaves : List (Child n ℝ))
    (hr : searchF ar svd quad argsort (fun s => s.sort (· ≤ ·)) Z L level Ms errors ti = .ok leaves) : ∃ c ∈ leaves, SearchKept ar.fl F ti x c := by
  have hS : ∀ i, 0 ≤ (Ms i).absSum := fun i => sum_nonneg fun _ _ => abs_nonneg _
  have hm : (macheps : ℝ) = 1 / 2 ^ 52 := rfl
  rw [← hm] at hη
  obtain ⟨q, hq⟩ : ∃ q, q = 21 * √(N : ℝ) ^ 3 * (N * macheps * C) := ⟨_, rfl⟩
  rw [← hq] at hη
  have hq0 : 0 ≤ q := by rw [hq]; unfold macheps; positivity
  have hη0 : 0 ≤ η := by rw [hη]; positivity
  have hnq : n * q ≤ 1 / 2 := by
    rcases Nat.eq_zero_or_pos L with h0 | h0
    · subst h0
      cases hr
    · have h1 : 1 ≤ L * (Z + n) := Nat.mul_pos h0 (by omega)
      have h2 : (1 : ℝ) ≤ (L * (Z + n) : ℕ) := by exact_mod_cast h1
      have h3 := le_mul_of_one_le_left hη0 h2
      have h4 : 0 ≤ n * q := by positivity
      have h5 := h3.trans hθ
      rw [hη] at h5
      linarith
  refine SearchInv.search hfl hs hsize hn hN hC hC2 (T := fun i => (Ms i).absSum + errors i) (fun i => by have := hS i; have := he i; linarith) hsvd hρ0 hρ
    hγ0 hγ hκ hq hη hnq hθ hτ hn1 hsort hquad hroot Z L (k := 0) (l := 0) level (subs := []) ?_ (by omega) (by omega) hr
  refine ⟨hti, hfin, rfl, hmid, fun B hB => absurd hB List.not_mem_nil, by simp, ⟨x, hx, rfl⟩, hM, hFl, fun _ _ => le_rfl, fun i => (he i).le,
    fun i => ⟨(Ms i).absSum, fun t ht => ?_, by simp, fun t ht => ?_⟩⟩
  · unfold Tensor.eval Tensor.absSum
    refine (abs_sum_le_sum_abs _ _).trans (sum_le_sum fun k _ => ?_)
    rw [abs_mul, abs_prod]
    exact mul_le_of_le_one_right (abs_nonneg _) (prod_le_one (fun _ _ => abs_nonneg _) fun j _ => abs_chebT_le_one _ (ht j))
  · have := hF i t ht
    simpa [subPoint] using this

theorem newF_mids {n : ℕ} {fl : ℝ → ℝ} (hfl : RoundsToNearest 53 fl) (B : Box n ℝ) (j : Fin n) :
    IsFloat 53 ((TrackedInterval.newF fl B).nextTransformPoints j) ∧ |(TrackedInterval.newF fl B).nextTransformPoints j| ≤ 1 := by
  refine ⟨hfl.isFloat _, ?_⟩
  show |fl TrackedInterval.splitPoint| ≤ 1
  have f1 : IsFloat 53 (1 : ℝ) := ⟨1, 0, by norm_num, by norm_num⟩
  have h0 : (0 : ℝ) ≤ TrackedInterval.splitPoint := by unfold TrackedInterval.splitPoint; norm_num
  have h1 : (TrackedInterval.splitPoint : ℝ) ≤ 1 := by unfold TrackedInterval.splitPoint; norm_num
  rw [abs_of_nonneg (fl_nonneg hfl h0)]
  have := fl_mono hfl h1
  rwa [fl_eq hfl f1] at this

theorem quadSafe_two {ar : FloatArith ℝ} (hfl : RoundsToNearest 53 ar.fl) (hs : ar.Sums) {κ : ℝ} (hκ : 1 / 2 ^ 27 ≤ κ) :
    QuadSafe (quadraticDiscards2DF ar) κ := by
  intro Ms errors F hM hFl hN he hF h
  unfold quadraticDiscards2DF at h
  rw [decide_eq_true_eq] at h
  obtain ⟨i, hi⟩ := h
  refine ⟨i, C106_slack_partial hfl hs (Ms i) (hM i) (hFl i) (hN i) (errors i) (he i) hi (F i) fun y hy => (hF i y hy).trans_le ?_⟩
  have h0 : 0 ≤ (Ms i).absSum + errors i := add_nonneg (sum_nonneg fun _ _ => abs_nonneg _) (he i)
  have := mul_le_mul_of_nonneg_right hκ h0
  linarith

theorem quadSafe_three {ar : FloatArith ℝ} (hfl : RoundsToNearest 53 ar.fl) (hs : ar.Sums) {κ : ℝ} (hκ : 1 / 2 ^ 13 ≤ κ) :
    QuadSafe (quadraticDiscards3DF ar) κ := by
  intro Ms errors F hM hFl hN he hF h
  unfold quadraticDiscards3DF at h
  rw [decide_eq_true_eq] at h
  obtain ⟨i, hi⟩ := h
  refine ⟨i, C107_slack_partial hfl hs (Ms i) (hM i) (hFl i) (hN i) (errors i) (he i) hi (F i) fun y hy => (hF i y hy).trans_le ?_⟩
  have h0 : 0 ≤ (Ms i).absSum + errors i := add_nonneg (sum_nonneg fun _ _ => abs_nonneg _) (he i)
  have := mul_le_mul_of_nonneg_right hκ h0
  linarith

/-- **C112, part: two variables**, from the start of the search, with the quadratic check of the code. -/
theorem C112_two_partial {ar : FloatArith ℝ} (hfl : RoundsToNearest 53 ar.fl) (hs : ar.Sums) (Ms : Fin 2 → Tensor 2 ℝ)
    (hM : ∀ i, (Ms i).Nonempty) (hFl : ∀ i, ∀ k ∈ (Ms i).idx, IsFloat 53 ((Ms i).coef k)) (hsize : ∀ i, ∏ j, (Ms i).shape j ≤ 2 ^ 19)
    {N : ℕ} (hN : ∀ i j, (Ms i).shape j ≤ N) {C : ℝ} (hC : 1 ≤ C) (hC2 : ∀ i, 4 * ((∏ j, (Ms i).shape j : ℕ) : ℝ) ≤ C ^ 2)
    (errors : Fin 2 → ℝ) (he : ∀ i, 0 < errors i) (svd : SvdF 2 ℝ) {ρ γ κ τ : ℝ} (hsvd : svd.Accurate ρ γ) (hρ0 : 0 ≤ ρ) (hρ : ρ ≤ 1 / 2) (hγ0 : 0 ≤ γ)
    (hγ : γ ≤ 1) (hκ : 1 / 2 ^ 27 + 4 * ρ + 3 * γ ≤ κ) {argsort : List ℕ → List ℕ} (hsort : ArgsortOK argsort) {L Z : ℕ} (hL : L ≤ 60) {η : ℝ}
    (hη : η = 1 / 2 ^ 29 + 12 * (21 * √(N : ℝ) ^ 3 * (N * (1 / 2 ^ 52) * C))) (hθ : (L * (Z + 2) : ℕ) * η ≤ 1 / 2)
    (hτ : 12 * (κ * C + (L * (Z + 2) : ℕ) * η + 60 / 2 ^ 27) ≤ τ)
    (F : Fin 2 → (Fin 2 → ℝ) → ℝ) (hF : ∀ i x, InCube x → |F i x - (Ms i).eval x| ≤ errors i - τ * ((Ms i).absSum + errors i))
    (x : Fin 2 → ℝ) (hx : InCube x) (hroot : ∀ i, F i x = 0) (leaves : List (Child 2 ℝ))
    (hr : searchF ar svd (quadraticDiscards2DF ar) argsort (fun s => s.sort (· ≤ ·)) Z L 0 Ms errors (TrackedInterval.newF ar.fl (Box.unit 2 ℝ))
      = .ok leaves) : ∃ c ∈ leaves, SearchKept ar.fl F (TrackedInterval.newF ar.fl (Box.unit 2 ℝ)) x c := by
  refine C112_kept_partial (by norm_num) hfl hs Ms hM hFl hsize (fun i => ?_) hN hC (fun i => by have := hC2 i; norm_num at this ⊢; exact this) errors he svd
    hsvd hρ0 hρ hγ0 hγ (by linarith) (quadSafe_two hfl hs (by linarith)) hsort hL (by rw [hη]; push_cast; ring) hθ hτ F hF x hx hroot _ rfl rfl
    (newF_mids hfl _) 0 leaves hr
  have := hsize i
  omega

/-- **C112, part: three variables**, from the start of the search, with the quadratic check of the code, which needs more slack. -/
theorem C112_three_partial {ar : FloatArith ℝ} (hfl : RoundsToNearest 53 ar.fl) (hs : ar.Sums) (Ms : Fin 3 → Tensor 3 ℝ)
    (hM : ∀ i, (Ms i).Nonempty) (hFl : ∀ i, ∀ k ∈ (Ms i).idx, IsFloat 53 ((Ms i).coef k)) (hsize : ∀ i, ∏ j, (Ms i).shape j ≤ 2 ^ 19)
    {N : ℕ} (hN : ∀ i j, (Ms i).shape j ≤ N) {C : ℝ} (hC : 1 ≤ C) (hC2 : ∀ i, 8 * ((∏ j, (Ms i).shape j : ℕ) : ℝ) ≤ C ^ 2)
    (errors : Fin 3 → ℝ) (he : ∀ i, 0 < errors i) (svd : SvdF 3 ℝ) {ρ γ κ τ : ℝ} (hsvd : svd.Accurate ρ γ) (hρ0 : 0 ≤ ρ) (hρ : ρ ≤ 1 / 2) (hγ0 : 0 ≤ γ)
    (hγ : γ ≤ 1) (hκ : 1 / 2 ^ 28 + 4 * ρ + 3 * γ ≤ κ) (hκ' : 1 / 2 ^ 13 ≤ κ) {argsort : List ℕ → List ℕ} (hsort : ArgsortOK argsort) {L Z : ℕ}
    (hL : L ≤ 60) {η : ℝ} (hη : η = 1 / 2 ^ 29 + 18 * (21 * √(N : ℝ) ^ 3 * (N * (1 / 2 ^ 52) * C))) (hθ : (L * (Z + 3) : ℕ) * η ≤ 1 / 2)
    (hτ : 12 * (κ * C + (L * (Z + 3) : ℕ) * η + 60 / 2 ^ 27) ≤ τ)
    (F : Fin 3 → (Fin 3 → ℝ) → ℝ) (hF : ∀ i x, InCube x → |F i x - (Ms i).eval x| ≤ errors i - τ * ((Ms i).absSum + errors i))
    (x : Fin 3 → ℝ) (hx : InCube x) (hroot : ∀ i, F i x = 0) (leaves : List (Child 3 ℝ))
    (hr : searchF ar svd (quadraticDiscards3DF ar) argsort (fun s => s.sort (· ≤ ·)) Z L 0 Ms errors (TrackedInterval.newF ar.fl (Box.unit 3 ℝ))
      = .ok leaves) : ∃ c ∈ leaves, SearchKept ar.fl F (TrackedInterval.newF ar.fl (Box.unit 3 ℝ)) x c := by
  refine C112_kept_partial (by norm_num) hfl hs Ms hM hFl hsize (fun i => ?_) hN hC (fun i => by have := hC2 i; norm_num at this ⊢; exact this) errors he svd
    hsvd hρ0 hρ hγ0 hγ hκ (quadSafe_three hfl hs hκ') hsort hL (by rw [hη]; push_cast; ring) hθ hτ F hF x hx hroot _ rfl rfl
    (newF_mids hfl _) 0 leaves hr
  have := hsize i
  omega

/-! ### Without slack -/

theorem searchF_discards {n : ℕ} {K : Type*} [Field K] [LinearOrder K] [FloorSemiring K] {ar : FloatArith K} {svd : SvdF n K}
    {quad : (Fin n → Tensor n K) → (Fin n → K) → Bool} {Ms : Fin n → Tensor n K} {errors : Fin n → K}
    (h : startDiscards ar svd quad (trimMsF ar) Ms errors = true) {ti : TrackedInterval n K} (hp : ti.isPointF ar.fl = false)
    (hf : ti.finalStep = false) (argsort : List ℕ → List ℕ) (setIter : Finset (Fin n) → List (Fin n)) (Z L level : ℕ) :
    searchF ar svd quad argsort setIter (Z + 1) (L + 1) level Ms errors ti = .ok [] := by
  unfold searchF
  rw [if_neg (by rw [hp]; simp)]
  unfold startDiscards at h
  split_ifs with h1 h2
  · rfl
  · rfl
  simp only [h1, h2, Bool.false_or] at h
  have hc : ti.copy.finalStep = false := by
    unfold TrackedInterval.copy
    rw [if_neg (by rw [hf]; simp)]
    rfl
  simp only [zoomLoopF_thrown ar svd _ _ ti.copy hc h 25 Z, if_true]

/-- **C112 is false** without the slack: the witness of `C99_false` with the quadratic check of the code and exact linear algebra; the errors `2 ^ -52` are
upper bounds, since the polynomials are given exactly.  The search finds no box although there is a zero. -/
theorem C112_false : ∃ ar : FloatArith ℚ, ar.fl = roundFloat 53 ∧ RoundsToNearest 53 ar.fl ∧ ar.Sums ∧
    ∃ (svd : SvdF 2 ℚ) (Ms : Fin 2 → Tensor 2 ℚ) (x : Fin 2 → ℚ), svd.Accurate 0 0 ∧ (∀ i, Affine (Ms i)) ∧
      (∀ i, ∀ k ∈ (Ms i).idx, IsFloat 53 ((Ms i).coef k)) ∧ InCube x ∧ (∀ i, (Ms i).eval x = 0) ∧
      ∀ (argsort : List ℕ → List ℕ) (setIter : Finset (Fin 2) → List (Fin 2)) (Z L : ℕ),
        searchF ar svd (quadraticDiscards2DF ar) argsort setIter (Z + 1) (L + 1) 0 Ms (fun _ => macheps) (TrackedInterval.newF ar.fl (Box.unit 2 ℚ))
          = .ok [] := by
  refine ⟨exAr, rfl, roundFloat_nearest (by norm_num), leftSum_sums _, exSvdF2, exFM, ![-1, -1 / 2 ^ 21], exSvdF2_accurate, exFM_affine,
    fun i k _ => exFM_float i k, by intro i; fin_cases i <;> norm_num [abs_le], exFM_root, fun argsort setIter Z L =>
    searchF_discards ?_ (by decide +kernel) rfl _ _ _ _ _⟩
  unfold startDiscards
  rw [trimMsF_short _ _ _ fun i j => by fin_cases i <;> fin_cases j <;> decide]
  rw [Bool.or_eq_true]
  right
  decide +kernel

/-- A search that is over after one call. -/
theorem searchF_stops {n : ℕ} {K : Type*} [Field K] [LinearOrder K] [FloorSemiring K] {ar : FloatArith K} {svd : SvdF n K}
    {quad : (Fin n → Tensor n K) → (Fin n → K) → Bool} {Ms : Fin n → Tensor n K} {errors : Fin n → K} {ti : TrackedInterval n K} {Z : ℕ}
    (hp : ti.isPointF ar.fl = false) (hc : constantCheckF ar Ms errors = false) (hq : quad Ms errors = false) (ht : trimMsF ar Ms errors = (Ms, errors))
    (h : (match zoomLoopF ar svd 25 Z Ms errors ti.copy (fun i => ar.fl (ti.copy.dimSize i)) 0 with
      | .ok z => !z.ti.empty && z.shouldStop | .error _ => false) = true)
    (argsort : List ℕ → List ℕ) (setIter : Finset (Fin n) → List (Fin n)) (L level : ℕ) :
    ∃ c, searchF ar svd quad argsort setIter Z (L + 1) level Ms errors ti = .ok [c] := by
  unfold searchF
  rw [if_neg (by rw [hp]; simp), if_neg (by rw [hc]; simp), if_neg (by rw [hq]; simp)]
  simp only [ht]
  split at h
  · next z hz =>
    rw [Bool.and_eq_true, Bool.not_eq_true'] at h
    refine ⟨⟨z.Ms, z.errors, z.ti⟩, ?_⟩
    simp only [hz, h.1, h.2, if_true, Bool.false_eq_true, if_false]
  · cases h

/-- `x + y / 4` and `y - x / 4`. -/
def exFS : Fin 2 → Tensor 2 ℚ := fun i =>
  ⟨![2, 2], fun k => if k 0 = 1 ∧ k 1 = 0 then (if i = 0 then 1 else -(1 / 4)) else if k 0 = 0 ∧ k 1 = 1 then (if i = 0 then 1 / 4 else 1) else 0⟩

/-- A run that ends: with large errors the first call stops with the whole cube. -/
example (argsort : List ℕ → List ℕ) (setIter : Finset (Fin 2) → List (Fin 2)) : ∃ c, searchF exAr exSvdF2 (quadraticDiscards2DF exAr) argsort setIter 10 1 0
    exFS (fun _ => 2) (TrackedInterval.newF exAr.fl (Box.unit 2 ℚ)) = .ok [c] :=
  searchF_stops (by decide +kernel) (by decide +kernel) (by decide +kernel) (trimMsF_short _ _ _ fun i j => by fin_cases j <;> simp [exFS]) (by decide +kernel)
    _ _ _ _

/-- The system of the example of C111, searched at most three levels deep with at most ten zooms on each level. -/
example (ar : FloatArith ℝ) (hfl : RoundsToNearest 53 ar.fl) (hs : ar.Sums) (argsort : List ℕ → List ℕ) (hsort : ArgsortOK argsort)
    (leaves : List (Child 2 ℝ)) (hr : searchF ar (exSvdR 2) (quadraticDiscards2DF ar) argsort (fun s => s.sort (· ≤ ·)) 10 3 0 exIter (fun _ => 1 / 2 ^ 10)
      (TrackedInterval.newF ar.fl (Box.unit 2 ℝ)) = .ok leaves) :
    ∃ c ∈ leaves, SearchKept ar.fl (fun i t => (exIter i).eval t + t 0 * t 1 / 2 ^ 12) (TrackedInterval.newF ar.fl (Box.unit 2 ℝ)) (fun _ => 0) c := by
  have hr2 : √((2 : ℕ) : ℝ) ≤ 2 := Real.sqrt_le_iff.2 ⟨by norm_num, by norm_num⟩
  have hr3 : √((2 : ℕ) : ℝ) ^ 3 ≤ 8 := (pow_le_pow_left₀ (Real.sqrt_nonneg _) hr2 3).trans (by norm_num)
  have habs : ∀ i, (exIter i).absSum = 5 / 4 := by
    intro i
    rw [(exIter_affine i).absSum, Fin.sum_univ_two]
    fin_cases i <;> norm_num [exIter, Tensor.const, linCoef]
  refine C112_two_partial hfl hs exIter (fun i => (exIter_affine i).nonempty) ?_ (fun i => by simp [exIter, Fin.prod_univ_two])
    (N := 2) (fun i j => by fin_cases j <;> simp [exIter]) (C := 4) (by norm_num)
    (fun i => by norm_num [exIter, Fin.prod_univ_two]) _ (fun _ => by norm_num) (exSvdR 2) (exSvdR_accurate 2) le_rfl (by norm_num) le_rfl (by norm_num)
    (κ := 1 / 2 ^ 27) (by norm_num) hsort (by norm_num) rfl ?_ (τ := 1 / 2 ^ 16) ?_ _ ?_ (fun _ => 0) (fun _ => by simp) ?_ leaves hr
  · intro i k _
    simp only [exIter]
    have f1 : IsFloat 53 (1 : ℝ) := ⟨1, 0, by norm_num, by norm_num⟩
    have f2 : IsFloat 53 (1 / 4 : ℝ) := ⟨1, -2, by norm_num, by norm_num⟩
    split_ifs
    · exact f1
    · exact f2.neg
    · exact f2
    · exact f1
    · exact isFloat_zero
  · push_cast at hr3 ⊢
    linarith
  · push_cast at hr3 ⊢
    linarith
  · intro i t ht
    rw [habs, add_sub_cancel_left, abs_div, abs_mul]
    have h1 := mul_le_mul (ht 0) (ht 1) (abs_nonneg _) zero_le_one
    have h2 : |(2 : ℝ) ^ 12| = 2 ^ 12 := abs_of_pos (by norm_num)
    rw [h2]
    have h3 : |t 0| * |t 1| / 2 ^ 12 ≤ 1 * 1 / 2 ^ 12 := div_le_div_of_nonneg_right h1 (by norm_num)
    refine h3.trans (by norm_num)
  · intro i
    rw [(exIter_affine i).eval, Fin.sum_univ_two]
    fin_cases i <;> norm_num [exIter, Tensor.const, linCoef]

end YRoots
