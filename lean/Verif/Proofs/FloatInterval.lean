import Verif.Model.FloatInterval
import Verif.Props.Interval
import Verif.Props.Float
import Verif.Proofs.FloatBounding

/-!
# Rounding errors of the interval tracking
-/

set_option linter.unusedSectionVars false

namespace YRoots

variable {n : ℕ} {K : Type*} [Field K] [LinearOrder K] [IsStrictOrderedRing K]

theorem half_abs_add (a b : K) {M : K} (ha : |a| ≤ M) (hb : |b| ≤ M) : |(b - a) / 2| + |(b + a) / 2| ≤ M := by
  rw [abs_le] at ha hb
  rcases abs_cases ((b - a) / 2) with ⟨e, _⟩ | ⟨e, _⟩ <;> rcases abs_cases ((b + a) / 2) with ⟨e', _⟩ | ⟨e', _⟩ <;> rw [e, e'] <;> linarith [ha.1, ha.2, hb.1, hb.2]

/-- An affine map is a convex combination of the bounds. -/
theorem map_close {a b a' b' x D : K} (ha : |a - a'| ≤ D) (hb : |b - b'| ≤ D) (hx : |x| ≤ 1) :
    |((b - a) / 2 * x + (b + a) / 2) - ((b' - a') / 2 * x + (b' + a') / 2)| ≤ D := by
  have e : ((b - a) / 2 * x + (b + a) / 2) - ((b' - a') / 2 * x + (b' + a') / 2) = (a - a') * ((1 - x) / 2) + (b - b') * ((1 + x) / 2) := by ring
  rw [e]
  rw [abs_le] at hx
  have h1 : 0 ≤ (1 - x) / 2 := by linarith [hx.2]
  have h2 : 0 ≤ (1 + x) / 2 := by linarith [hx.1]
  refine (abs_add_le _ _).trans ?_
  rw [abs_mul, abs_mul, abs_of_nonneg h1, abs_of_nonneg h2]
  have g1 := mul_le_mul_of_nonneg_right ha h1
  have g2 := mul_le_mul_of_nonneg_right hb h2
  have : D * ((1 - x) / 2) + D * ((1 + x) / 2) = D := by ring
  linarith

/-- The unit roundoff of binary64. -/
def uu (K : Type*) [Field K] : K := 1 / 2 ^ 53

theorem uu_nonneg : (0 : K) ≤ uu K := by unfold uu; positivity

theorem uu_le : uu K ≤ 1 / 2 ^ 53 := le_rfl

theorem uu_pow_le (k : ℕ) (hk : k ≤ 2 ^ 50) : (1 + uu K) ^ k ≤ 1 + 2 * k * uu K := by
  induction k with
  | zero => simp
  | succ k ih =>
    have h1 := ih (by omega)
    have h2 : (k : K) ≤ 2 ^ 50 := by exact_mod_cast (by omega : k ≤ 2 ^ 50)
    have hu := uu_nonneg (K := K)
    rw [pow_succ]
    push_cast
    refine (mul_le_mul_of_nonneg_right h1 (by linarith)).trans ?_
    have : (k : K) * uu K ≤ 1 / 8 := by
      calc (k : K) * uu K ≤ 2 ^ 50 * uu K := mul_le_mul_of_nonneg_right h2 hu
        _ = 1 / 8 := by unfold uu; norm_num
    nlinarith

section R

variable [FloorRing K] {fl : K → K} (hfl : RoundsToNearest 53 fl)

include hfl

theorem flu (x : K) : |fl x - x| ≤ uu K * |x| := by
  have := fl_rel hfl (by norm_num) x
  rwa [div_eq_mul_one_div, mul_comm] at this

theorem flu_abs (x : K) : |fl x| ≤ (1 + uu K) * |x| := by
  have h1 := flu hfl x
  have h2 := abs_add_le (fl x - x) x
  rw [sub_add_cancel] at h2
  linarith

theorem fl_half (z : K) : fl (fl z / 2) = fl z / 2 := by
  apply fl_eq hfl
  have := (hfl.isFloat z).mul_zp (-1)
  rwa [zpow_neg_one, ← div_eq_mul_inv] at this

theorem half_close (z : K) : |fl (fl z / 2) - z / 2| ≤ uu K * |z / 2| := by
  rw [fl_half hfl, ← sub_div, abs_div, abs_div]
  have := div_le_div_of_nonneg_right (flu hfl z) (abs_nonneg (2 : K))
  rwa [mul_div_assoc] at this

/-- A rounded affine map. -/
theorem aff_close {α β α' β' x m : K} (hα : |α' - α| ≤ uu K * |α|) (hβ : |β' - β| ≤ uu K * |β|) (hm : |α| + |β| ≤ m) (hx : |x| ≤ 1) :
    |fl (fl (α' * x) + β') - (α * x + β)| ≤ 4 * uu K * m := by
  have hu := uu_nonneg (K := K)
  have hu1 : uu K ≤ 1 / 8 := by unfold uu; norm_num
  have a0 := abs_nonneg α
  have b0 := abs_nonneg β
  have h1 := flu hfl (α' * x)
  have h2 : |α'| ≤ (1 + uu K) * |α| := by
    have := abs_add_le (α' - α) α
    rw [sub_add_cancel] at this
    linarith
  have h3 : |α' * x| ≤ (1 + uu K) * |α| := by
    rw [abs_mul]
    exact (mul_le_of_le_one_right (abs_nonneg _) hx).trans h2
  have h4 : |α' * x - α * x| ≤ uu K * |α| := by
    rw [← sub_mul, abs_mul]
    exact (mul_le_of_le_one_right (abs_nonneg _) hx).trans hα
  have h5 : |(fl (α' * x) + β') - (α * x + β)| ≤ (2 * uu K + uu K ^ 2) * m := by
    have e : (fl (α' * x) + β') - (α * x + β) = (fl (α' * x) - α' * x) + (α' * x - α * x) + (β' - β) := by ring
    rw [e]
    have g1 := abs_add_le ((fl (α' * x) - α' * x) + (α' * x - α * x)) (β' - β)
    have g2 := abs_add_le (fl (α' * x) - α' * x) (α' * x - α * x)
    have g3 : |fl (α' * x) - α' * x| ≤ uu K * ((1 + uu K) * |α|) := h1.trans (mul_le_mul_of_nonneg_left h3 hu)
    have g4 : (2 * uu K + uu K ^ 2) * (|α| + |β|) ≤ (2 * uu K + uu K ^ 2) * m := mul_le_mul_of_nonneg_left hm (by positivity)
    nlinarith [mul_nonneg hu b0, mul_nonneg (mul_nonneg hu hu) b0]
  have h6 : |α * x + β| ≤ m := by
    refine (abs_add_le _ _).trans ?_
    rw [abs_mul]
    have := mul_le_of_le_one_right a0 hx
    linarith
  have m0 : 0 ≤ m := (abs_nonneg _).trans h6
  have h7 := flu hfl (fl (α' * x) + β')
  have h8 := abs_add_le ((fl (α' * x) + β') - (α * x + β)) (α * x + β)
  rw [sub_add_cancel] at h8
  have h9 := abs_add_le (fl (fl (α' * x) + β') - (fl (α' * x) + β')) ((fl (α' * x) + β') - (α * x + β))
  rw [sub_add_sub_cancel] at h9
  have h10 : uu K * |fl (α' * x) + β'| ≤ uu K * ((2 * uu K + uu K ^ 2) * m + m) := mul_le_mul_of_nonneg_left (by linarith) hu
  have h11 : uu K * ((2 * uu K + uu K ^ 2) * m + m) + (2 * uu K + uu K ^ 2) * m ≤ 4 * uu K * m := by
    have : 4 * uu K * m - (uu K * ((2 * uu K + uu K ^ 2) * m + m) + (2 * uu K + uu K ^ 2) * m) = (uu K * m) * (1 - 3 * uu K - uu K ^ 2) := by ring
    have h12 : 0 ≤ (uu K * m) * (1 - 3 * uu K - uu K ^ 2) := mul_nonneg (mul_nonneg hu m0) (by nlinarith)
    linarith
  linarith

open TrackedInterval in
/-- One step of `addTransform` against the exact map. -/
theorem stepBoundsF_close {lo hi x0 x1 M : K} (hlo : |lo| ≤ M) (hhi : |hi| ≤ M) (h0 : -1 ≤ x0) (h01 : x0 ≤ x1) (h1 : x1 ≤ 1) :
    |(stepBoundsF fl lo hi x0 x1).1 - ((hi - lo) / 2 * x0 + (hi + lo) / 2)| ≤ 4 * uu K * M ∧
      |(stepBoundsF fl lo hi x0 x1).2 - ((hi - lo) / 2 * x1 + (hi + lo) / 2)| ≤ 4 * uu K * M := by
  have hM : 0 ≤ 4 * uu K * M := mul_nonneg (mul_nonneg (by norm_num) uu_nonneg) ((abs_nonneg _).trans hlo)
  have hgen : ∀ x : K, |x| ≤ 1 → |fl (fl (fl (fl (hi - lo) / 2) * x) + fl (fl (hi + lo) / 2)) - ((hi - lo) / 2 * x + (hi + lo) / 2)| ≤ 4 * uu K * M :=
    fun x hx => aff_close hfl (half_close hfl _) (half_close hfl _) (half_abs_add lo hi hlo hhi) hx
  have hlow : |(stepBoundsF fl lo hi x0 x1).1 - ((hi - lo) / 2 * x0 + (hi + lo) / 2)| ≤ 4 * uu K * M := by
    simp only [stepBoundsF]
    by_cases a : x0 = -1
    · rw [if_pos a, a]
      have : lo - ((hi - lo) / 2 * -1 + (hi + lo) / 2) = 0 := by ring
      rw [this, abs_zero]
      exact hM
    · rw [if_neg a]
      by_cases b : x0 = 1
      · rw [if_pos b, b]
        have : hi - ((hi - lo) / 2 * 1 + (hi + lo) / 2) = 0 := by ring
        rw [this, abs_zero]
        exact hM
      · rw [if_neg b]
        exact hgen x0 (abs_le.2 ⟨h0, by linarith⟩)
  refine ⟨hlow, ?_⟩
  by_cases a : x1 = -1
  · have a0 : x0 = -1 := le_antisymm (by linarith) h0
    have e : (stepBoundsF fl lo hi x0 x1).2 = (stepBoundsF fl lo hi x0 x1).1 := by simp only [stepBoundsF, a, if_true]
    rw [e, a, ← a0]
    exact hlow
  · simp only [stepBoundsF, if_neg a]
    by_cases b : x1 = 1
    · rw [if_pos b, b]
      have : hi - ((hi - lo) / 2 * 1 + (hi + lo) / 2) = 0 := by ring
      rw [this, abs_zero]
      exact hM
    · rw [if_neg b]
      exact hgen x1 (abs_le.2 ⟨by linarith, h1⟩)

end R

/-! ### The rounded run against the exact run -/

/-- Effect of an operation with rounding. -/
def TOp.runF (fl : K → K) (t : TrackedInterval n K) : TOp n K → TrackedInterval n K
  | .add sub => t.addTransformF fl sub
  | .copy => t.copy
  | .startFinal => t.startFinalStep

/-- The number of calls of `addTransform`. -/
def TOp.adds : List (TOp n K) → ℕ
  | [] => 0
  | .add _ :: l => adds l + 1
  | .copy :: l => adds l
  | .startFinal :: l => adds l

/-- Two recorded transforms, the first rounded. -/
structure TrClose (a b : AffTr n K) : Prop where
  float1 : ∀ i, IsFloat 53 (a.1 i)
  float2 : ∀ i, IsFloat 53 (a.2 i)
  alpha : ∀ i, |a.1 i - b.1 i| ≤ uu K * |b.1 i|
  beta : ∀ i, |a.2 i - b.2 i| ≤ uu K * |b.2 i|
  unit : ∀ i, |b.1 i| + |b.2 i| ≤ 1

/-- Bounds of two boxes differ by at most `D`. -/
def Box.Close (D : K) (A B : Box n K) : Prop := ∀ i, |A.lo i - B.lo i| ≤ D ∧ |A.hi i - B.hi i| ≤ D

/-- The rounded state `s` and the exact state `t` after `k` transforms. -/
structure Sim (k : ℕ) (s t : TrackedInterval n K) : Prop where
  tracks : Tracks (Box.unit n K) t
  top : s.topInterval = Box.unit n K
  finalStep : s.finalStep = t.finalStep
  throw : s.canThrowOutFinalStep = t.canThrowOutFinalStep
  empty : s.empty = t.empty
  interval : Box.Close ((1 + 4 * uu K) ^ k - 1) s.interval t.interval
  transforms : List.Forall₂ TrClose s.transforms t.transforms
  length : s.transforms.length ≤ k
  pre : t.finalStep = true → Box.Close ((1 + 4 * uu K) ^ k - 1) s.preFinalInterval t.preFinalInterval ∧
    List.Forall₂ TrClose s.preFinalTransforms t.preFinalTransforms ∧ s.preFinalTransforms.length ≤ k

theorem Box.Close.mono {D D' : K} {A B : Box n K} (h : Box.Close D A B) (hD : D ≤ D') : Box.Close D' A B :=
  fun i => ⟨(h i).1.trans hD, (h i).2.trans hD⟩

theorem pow4_mono (k : ℕ) : (1 + 4 * uu K) ^ k - 1 ≤ (1 + 4 * uu K) ^ (k + 1) - 1 := by
  have hu := uu_nonneg (K := K)
  have := pow_le_pow_right₀ (a := 1 + 4 * uu K) (by linarith) (Nat.le_add_right k 1)
  exact sub_le_sub_right this 1

theorem Sim.mono {k : ℕ} {s t : TrackedInterval n K} (h : Sim k s t) : Sim (k + 1) s t :=
  ⟨h.tracks, h.top, h.finalStep, h.throw, h.empty, h.interval.mono (pow4_mono k), h.transforms, h.length.trans (Nat.le_succ k),
    fun hf => ⟨(h.pre hf).1.mono (pow4_mono k), (h.pre hf).2.1, (h.pre hf).2.2.trans (Nat.le_succ k)⟩⟩

theorem Sim.new : Sim 0 (TrackedInterval.new (Box.unit n K)) (TrackedInterval.new (Box.unit n K)) where
  tracks := Tracks.new fun i => by simp only [Box.unit]; linarith [zero_lt_one (α := K)]
  top := rfl
  finalStep := rfl
  throw := rfl
  empty := rfl
  interval i := by simp
  transforms := List.Forall₂.nil
  length := le_rfl
  pre h := by simp [TrackedInterval.new] at h

section R

variable [FloorRing K] {fl : K → K} (hfl : RoundsToNearest 53 fl)

include hfl

theorem Sim.applySub {k : ℕ} {s t : TrackedInterval n K} (h : Sim k s t) (sub : Box n K) (ho : sub.Ordered) (hw : sub.Within (Box.unit n K))
    (ht : Tracks (Box.unit n K) (t.applySub sub)) : Sim (k + 1) (s.applySubF fl sub) (t.applySub sub) := by
  have hu := uu_nonneg (K := K)
  obtain ⟨A, hA⟩ : ∃ A : K, A = (1 + 4 * uu K) ^ k := ⟨_, rfl⟩
  have hint := h.interval
  rw [← hA] at hint
  refine ⟨ht, h.top, h.finalStep, h.throw, h.empty, ?_, ?_, ?_, ?_⟩
  · intro i
    have hw1 := (hw i).1
    have hw2 := (hw i).2
    simp only [Box.unit] at hw1 hw2
    have hti := h.tracks.within i
    have hto := h.tracks.ordered i
    simp only [Box.unit] at hti
    have hl : |t.interval.lo i| ≤ 1 := abs_le.2 ⟨hti.1, hto.trans hti.2⟩
    have hh : |t.interval.hi i| ≤ 1 := abs_le.2 ⟨hti.1.trans hto, hti.2⟩
    have hls : |s.interval.lo i| ≤ A := by
      have := abs_add_le (s.interval.lo i - t.interval.lo i) (t.interval.lo i)
      rw [sub_add_cancel] at this
      linarith [(hint i).1]
    have hhs : |s.interval.hi i| ≤ A := by
      have := abs_add_le (s.interval.hi i - t.interval.hi i) (t.interval.hi i)
      rw [sub_add_cancel] at this
      linarith [(hint i).2]
    have hx0 : |sub.lo i| ≤ 1 := abs_le.2 ⟨hw1, (ho i).trans hw2⟩
    have hx1 : |sub.hi i| ≤ 1 := abs_le.2 ⟨hw1.trans (ho i), hw2⟩
    obtain ⟨g1, g2⟩ := stepBoundsF_close hfl hls hhs hw1 (ho i) hw2
    have e : (1 + 4 * uu K) ^ (k + 1) - 1 = 4 * uu K * A + (A - 1) := by rw [pow_succ, ← hA]; ring
    have m0 := map_close (hint i).1 (hint i).2 hx0
    have m1 := map_close (hint i).1 (hint i).2 hx1
    rw [e]
    simp only [TrackedInterval.applySubF, TrackedInterval.applySub]
    rw [TrackedInterval.stepBounds_eq _ _ _ _ hw1 (ho i)]
    constructor
    · refine le_trans ?_ (add_le_add g1 m0)
      refine le_trans (le_of_eq ?_) (abs_add_le _ _)
      rw [sub_add_sub_cancel]
    · refine le_trans ?_ (add_le_add g2 m1)
      refine le_trans (le_of_eq ?_) (abs_add_le _ _)
      rw [sub_add_sub_cancel]
  · simp only [TrackedInterval.applySubF, TrackedInterval.applySub]
    refine List.rel_append h.transforms (List.Forall₂.cons ?_ List.Forall₂.nil)
    refine ⟨fun i => hfl.isFloat _, fun i => hfl.isFloat _, fun i => half_close hfl _, fun i => half_close hfl _, fun i => ?_⟩
    have hw1 := (hw i).1
    have hw2 := (hw i).2
    simp only [Box.unit] at hw1 hw2
    exact half_abs_add _ _ (abs_le.2 ⟨hw1, (ho i).trans hw2⟩) (abs_le.2 ⟨hw1.trans (ho i), hw2⟩)
  · simp only [TrackedInterval.applySubF, List.length_append, List.length_singleton]
    have := h.length
    omega
  · intro hf
    have := (h.mono).pre hf
    exact this

theorem Sim.step {k : ℕ} {s t : TrackedInterval n K} (h : Sim k s t) (op : TOp n K) (hop : op.InUnit) :
    Sim (k + TOp.adds [op]) (op.runF fl s) (op.run t) := by
  have hT := h.tracks.step op hop
  cases op with
  | copy =>
    simp only [TOp.runF, TOp.run, TOp.adds, add_zero] at hT ⊢
    have ef := h.finalStep
    cases hf : t.finalStep with
    | true =>
      rw [hf] at ef
      obtain ⟨p1, p2, p3⟩ := h.pre hf
      refine ⟨hT, ?_, ?_, ?_, ?_, ?_, ?_, ?_, ?_⟩ <;> simp only [TrackedInterval.copy, hf, ef, if_true]
      · exact h.top
      · exact h.throw
      · exact h.empty
      · exact h.interval
      · exact h.transforms
      · exact h.length
      · exact fun _ => ⟨p1, p2, p3⟩
    | false =>
      rw [hf] at ef
      refine ⟨hT, ?_, ?_, ?_, ?_, ?_, ?_, ?_, ?_⟩ <;> simp only [TrackedInterval.copy, hf, ef, Bool.false_eq_true, if_false, TrackedInterval.new]
      · exact h.top
      · exact h.empty
      · exact h.interval
      · exact h.transforms
      · exact h.length
      · exact fun hh => absurd hh (by simp)
  | startFinal =>
    simp only [TOp.runF, TOp.run, TOp.adds, add_zero] at hT ⊢
    exact ⟨hT, h.top, rfl, h.throw, h.empty, h.interval, h.transforms, h.length, fun _ => ⟨h.interval, h.transforms, h.length⟩⟩
  | add sub =>
    simp only [TOp.runF, TOp.run, TOp.adds, zero_add] at hT ⊢
    have ec : s.canThrowOut = t.canThrowOut := by simp only [TrackedInterval.canThrowOut, h.finalStep, h.throw]
    unfold TrackedInterval.addTransformF
    rw [ec]
    unfold TrackedInterval.addTransform at hT ⊢
    by_cases c1 : (∃ i, sub.lo i > sub.hi i) ∧ t.canThrowOut = true
    · rw [if_pos c1] at hT
      rw [if_pos c1, if_pos c1]
      have h' := h.mono
      exact ⟨hT, h'.top, h'.finalStep, h'.throw, rfl, h'.interval, h'.transforms, h'.length, h'.pre⟩
    · rw [if_neg c1] at hT
      rw [if_neg c1, if_neg c1]
      by_cases c2 : ∃ i, sub.lo i > sub.hi i
      · rw [if_pos c2] at hT
        rw [if_pos c2, if_pos c2]
        exact h.applySub hfl _ (TrackedInterval.clampSub_ordered sub) (TrackedInterval.clampSub_within sub) hT
      · rw [if_neg c2] at hT
        rw [if_neg c2, if_neg c2]
        exact h.applySub hfl _ (fun i => by by_contra hc; exact c2 ⟨i, not_le.1 hc⟩) hop hT

theorem Sim.run (ops : List (TOp n K)) {k : ℕ} {s t : TrackedInterval n K} (h : Sim k s t) (hops : ∀ op ∈ ops, op.InUnit) :
    Sim (k + TOp.adds ops) (ops.foldl (TOp.runF fl) s) (ops.foldl TOp.run t) := by
  induction ops generalizing k s t with
  | nil => exact h
  | cons a l ih =>
    have h1 := ih (h.step hfl a (hops a List.mem_cons_self)) fun op ho => hops op (List.mem_cons_of_mem _ ho)
    have e : k + TOp.adds [a] + TOp.adds l = k + TOp.adds (a :: l) := by
      cases a <;> simp only [TOp.adds] <;> omega
    rw [e] at h1
    exact h1

/-! ### Replaying the recorded transforms -/

omit hfl [FloorRing K] in
/-- The recorded transforms, rounded, against the exact ones. -/
theorem applyAll_close {l l' : List (AffTr n K)} (h : List.Forall₂ TrClose l l') {v : K} (hv : |v| ≤ 1) (i : Fin n) :
    |applyAll l' (fun _ => v) i| ≤ 1 ∧ |applyAll l (fun _ => v) i - applyAll l' (fun _ => v) i| ≤ (1 + uu K) ^ l.length - 1 := by
  have hu := uu_nonneg (K := K)
  induction h with
  | nil => simpa using hv
  | cons hab _ ih =>
    rename_i a b l l' _
    obtain ⟨i1, i2⟩ := ih
    have e : ∀ (c : AffTr n K) (m : List (AffTr n K)), applyAll (c :: m) (fun _ => v) i = c.1 i * applyAll m (fun _ => v) i + c.2 i := fun _ _ => rfl
    rw [e, e]
    obtain ⟨y, hy⟩ : ∃ y, y = applyAll l (fun _ => v) i := ⟨_, rfl⟩
    obtain ⟨y', hy'⟩ : ∃ y, y = applyAll l' (fun _ => v) i := ⟨_, rfl⟩
    rw [← hy, ← hy'] at i2
    rw [← hy'] at i1
    rw [← hy, ← hy']
    have hal := hab.alpha i
    have hbe := hab.beta i
    have hun := hab.unit i
    have a0 := abs_nonneg (b.1 i)
    have b0 := abs_nonneg (b.2 i)
    constructor
    · refine (abs_add_le _ _).trans ?_
      rw [abs_mul]
      have := mul_le_of_le_one_right a0 i1
      linarith
    · have ha1 : |a.1 i| ≤ 1 + uu K := by
        have := abs_add_le (a.1 i - b.1 i) (b.1 i)
        rw [sub_add_cancel] at this
        nlinarith
      have e2 : a.1 i * y + a.2 i - (b.1 i * y' + b.2 i) = a.1 i * (y - y') + (a.1 i - b.1 i) * y' + (a.2 i - b.2 i) := by ring
      rw [e2]
      have g1 := abs_add_le (a.1 i * (y - y') + (a.1 i - b.1 i) * y') (a.2 i - b.2 i)
      have g2 := abs_add_le (a.1 i * (y - y')) ((a.1 i - b.1 i) * y')
      rw [abs_mul, abs_mul] at g2
      have g3 : |a.1 i| * |y - y'| ≤ (1 + uu K) * ((1 + uu K) ^ l.length - 1) := mul_le_mul ha1 i2 (abs_nonneg _) (by linarith)
      have g4 := mul_le_of_le_one_right (abs_nonneg (a.1 i - b.1 i)) i1
      rw [List.length_cons, pow_succ]
      nlinarith

omit hfl [FloorRing K] in
theorem replay_algebra {u E : K} (hu : 0 ≤ u) (hu1 : u ≤ 1 / 2 ^ 20) (hE0 : 0 ≤ E) :
    (1 + u) * ((1 + u) * ((1 + u) ^ 2 * E + u * (2 + 1 / 100)) + u * (2 + 1 / 100)) ≤ (1 + u) ^ 4 * E + 5 * u ∧
      u * ((1 + u) * E) + u * ((1 + u) ^ 2 * E + u * (2 + 1 / 100)) +
        u * ((1 + u) * ((1 + u) ^ 2 * E + u * (2 + 1 / 100)) + u * (2 + 1 / 100)) ≤ u * (4 * E + 7 * u) := by
  have hu2 : (1 + u) ^ 2 ≤ 1 + 1 / 1000 := by nlinarith
  have hu3 : (1 + u) ^ 3 ≤ 1 + 1 / 500 := by
    have : (1 + u) ^ 3 = (1 + u) ^ 2 * (1 + u) := by ring
    rw [this]
    have h1 : (1 + u) ^ 2 * (1 + u) ≤ (1 + 1 / 1000) * (1 + 1 / 2 ^ 20) := mul_le_mul hu2 (by linarith) (by linarith) (by norm_num)
    refine h1.trans (by norm_num)
  constructor
  · have e1 : (1 + u) * ((1 + u) * ((1 + u) ^ 2 * E + u * (2 + 1 / 100)) + u * (2 + 1 / 100)) =
      (1 + u) ^ 4 * E + u * ((2 + 1 / 100) * ((1 + u) ^ 2 + (1 + u))) := by ring
    rw [e1]
    have : u * ((2 + 1 / 100) * ((1 + u) ^ 2 + (1 + u))) ≤ u * 5 := mul_le_mul_of_nonneg_left (by linarith) hu
    linarith
  · have : u * ((1 + u) * E) + u * ((1 + u) ^ 2 * E + u * (2 + 1 / 100)) +
        u * ((1 + u) * ((1 + u) ^ 2 * E + u * (2 + 1 / 100)) + u * (2 + 1 / 100)) =
        u * (((1 + u) + (1 + u) ^ 2 + (1 + u) ^ 3) * E + u * ((2 + 1 / 100) * (3 + u))) := by ring
    rw [this]
    apply mul_le_mul_of_nonneg_left _ hu
    have q1 : ((1 + u) + (1 + u) ^ 2 + (1 + u) ^ 3) * E ≤ 4 * E := mul_le_mul_of_nonneg_right (by linarith) hE0
    have q2 : u * ((2 + 1 / 100) * (3 + u)) ≤ u * 7 := mul_le_mul_of_nonneg_left (by linarith) hu
    linarith

/-- The error part of one step. -/
theorem replay_error {α β v e y E D v' m t1 t2 : K} (hα1 : |α| ≤ 1 + uu K) (hE : |e| ≤ E) (hD : |v + e - y| ≤ D)
    (tp : m + t1 = v * α) (ts : v' + t2 = m + β) (hT1 : |t1| ≤ uu K * (2 + 1 / 100)) (hT2 : |t2| ≤ uu K * (2 + 1 / 100)) :
    |fl (fl (fl (α * e) + t1) + t2)| ≤ (1 + uu K) ^ 4 * E + 5 * uu K ∧
      |v' + fl (fl (fl (α * e) + t1) + t2) - (α * y + β)| ≤ (1 + uu K) * D + uu K * (4 * E + 7 * uu K) := by
  have hu := uu_nonneg (K := K)
  have hu1 : uu K ≤ 1 / 2 ^ 20 := by unfold uu; norm_num
  obtain ⟨u, hu'⟩ : ∃ u : K, u = uu K := ⟨_, rfl⟩
  have hFl := flu hfl
  have hFa := flu_abs hfl
  rw [← hu'] at hu hu1 hα1 hT1 hT2 ⊢
  simp only [← hu'] at hFl hFa
  have e0 := abs_nonneg e
  have hE0 : 0 ≤ E := e0.trans hE
  have hae : |α * e| ≤ (1 + u) * E := by
    rw [abs_mul]
    exact mul_le_mul hα1 hE e0 (by linarith)
  have hfae : |fl (α * e)| ≤ (1 + u) ^ 2 * E := by
    refine (hFa _).trans ?_
    calc (1 + u) * |α * e| ≤ (1 + u) * ((1 + u) * E) := mul_le_mul_of_nonneg_left hae (by linarith)
      _ = _ := by ring
  have hs1 : |fl (α * e) + t1| ≤ (1 + u) ^ 2 * E + u * (2 + 1 / 100) := (abs_add_le _ _).trans (add_le_add hfae hT1)
  have hfs1 : |fl (fl (α * e) + t1)| ≤ (1 + u) * ((1 + u) ^ 2 * E + u * (2 + 1 / 100)) :=
    (hFa _).trans (mul_le_mul_of_nonneg_left hs1 (by linarith))
  have hs2 : |fl (fl (α * e) + t1) + t2| ≤ (1 + u) * ((1 + u) ^ 2 * E + u * (2 + 1 / 100)) + u * (2 + 1 / 100) :=
    (abs_add_le _ _).trans (add_le_add hfs1 hT2)
  obtain ⟨alg1, alg2⟩ := replay_algebra hu hu1 hE0
  constructor
  · exact (hFa _).trans ((mul_le_mul_of_nonneg_left hs2 (by linarith)).trans alg1)
  · obtain ⟨r1, hr1⟩ : ∃ r, r = fl (α * e) - α * e := ⟨_, rfl⟩
    obtain ⟨r2, hr2⟩ : ∃ r, r = fl (fl (α * e) + t1) - (fl (α * e) + t1) := ⟨_, rfl⟩
    obtain ⟨r3, hr3⟩ : ∃ r, r = fl (fl (fl (α * e) + t1) + t2) - (fl (fl (α * e) + t1) + t2) := ⟨_, rfl⟩
    have k1 : |r1| ≤ u * ((1 + u) * E) := by rw [hr1]; exact (hFl _).trans (mul_le_mul_of_nonneg_left hae hu)
    have k2 : |r2| ≤ u * ((1 + u) ^ 2 * E + u * (2 + 1 / 100)) := by rw [hr2]; exact (hFl _).trans (mul_le_mul_of_nonneg_left hs1 hu)
    have k3 : |r3| ≤ u * ((1 + u) * ((1 + u) ^ 2 * E + u * (2 + 1 / 100)) + u * (2 + 1 / 100)) := by
      rw [hr3]; exact (hFl _).trans (mul_le_mul_of_nonneg_left hs2 hu)
    have e2 : v' + fl (fl (fl (α * e) + t1) + t2) - (α * y + β) = α * (v + e - y) + (r1 + r2 + r3) := by
      have : m = v * α - t1 := by linarith
      have h' : v' = m + β - t2 := by linarith
      rw [hr1, hr2, hr3, h', this]
      ring
    rw [e2]
    have g1 := abs_add_le (α * (v + e - y)) (r1 + r2 + r3)
    have g2 := abs_add_le (r1 + r2) r3
    have g3 := abs_add_le r1 r2
    have g4 : |α * (v + e - y)| ≤ (1 + u) * D := by
      rw [abs_mul]
      exact mul_le_mul hα1 hD (abs_nonneg _) (by linarith)
    linarith

/-- One step of the replay: what the value and the error become. -/
theorem replayStepF_spec {α β v e y M E D : K} (hα : IsFloat 53 α) (hβ : IsFloat 53 β) (hv : IsFloat 53 v) (hab : |α| + |β| ≤ 1 + uu K)
    (hM : |v| ≤ M) (hM1 : 1 ≤ M) (hM2 : M ≤ 2) (hE : |e| ≤ E) (hD : |v + e - y| ≤ D) :
    let p := TrackedInterval.replayStepF fl α β (v, e)
    IsFloat 53 p.1 ∧ |p.1| ≤ (1 + uu K) ^ 3 * M ∧ |p.2| ≤ (1 + uu K) ^ 4 * E + 5 * uu K ∧
      |p.1 + p.2 - (α * y + β)| ≤ (1 + uu K) * D + uu K * (4 * E + 7 * uu K) := by
  have hu := uu_nonneg (K := K)
  have hu1 : uu K ≤ 1 / 2 ^ 20 := by unfold uu; norm_num
  obtain ⟨u, hu'⟩ : ∃ u : K, u = uu K := ⟨_, rfl⟩
  have hFl := flu hfl
  have hFa := flu_abs hfl
  rw [← hu'] at hu hu1 hab ⊢
  simp only [← hu'] at hFl hFa
  intro p
  obtain ⟨-, tp, ftp⟩ := C43_twoProd hfl hv hα
  have fm : IsFloat 53 (twoProdF fl v α).1 := hfl.isFloat _
  obtain ⟨-, ts, fts⟩ := C43_twoSum hfl fm hβ
  have em : (twoProdF fl v α).1 = fl (v * α) := rfl
  have es : (twoSumF fl (twoProdF fl v α).1 β).1 = fl ((twoProdF fl v α).1 + β) := rfl
  have ep1 : p.1 = (twoSumF fl (twoProdF fl v α).1 β).1 := rfl
  have ep2 : p.2 = fl (fl (fl (α * e) + (twoProdF fl v α).2) + (twoSumF fl (twoProdF fl v α).1 β).2) := rfl
  rw [ep1, ep2]
  have f1 : IsFloat 53 (twoSumF fl (twoProdF fl v α).1 β).1 := hfl.isFloat _
  generalize (twoSumF fl (twoProdF fl v α).1 β).1 = v' at *
  generalize (twoSumF fl (twoProdF fl v α).1 β).2 = t2 at *
  generalize (twoProdF fl v α).1 = m at *
  generalize (twoProdF fl v α).2 = t1 at *
  have a0 := abs_nonneg α
  have b0 := abs_nonneg β
  have v0 := abs_nonneg v
  have e0 := abs_nonneg e
  have hE0 : 0 ≤ E := e0.trans hE
  have hva : |v * α| ≤ M * |α| := by rw [abs_mul]; exact mul_le_mul_of_nonneg_right hM a0
  have hα1 : |α| ≤ 1 + u := by linarith
  have hMα : M * |α| ≤ M * (1 + u) := mul_le_mul_of_nonneg_left hα1 (by linarith)
  have hm : |m| ≤ (1 + u) * (M * |α|) := by
    rw [em]
    exact (hFa _).trans (mul_le_mul_of_nonneg_left hva (by linarith))
  have ht1 : |t1| ≤ u * (M * (1 + u)) := by
    have : t1 = -(fl (v * α) - v * α) := by rw [← em]; linarith
    rw [this, abs_neg]
    exact (hFl _).trans (mul_le_mul_of_nonneg_left (hva.trans hMα) hu)
  have hmb : |m + β| ≤ (1 + u) ^ 2 * M := by
    refine (abs_add_le _ _).trans ?_
    have h1 : |β| ≤ (1 + u) * (M * |β|) := by
      have : 1 ≤ (1 + u) * M := by nlinarith
      calc |β| = 1 * |β| := by ring
        _ ≤ ((1 + u) * M) * |β| := mul_le_mul_of_nonneg_right this b0
        _ = _ := by ring
    calc |m| + |β| ≤ (1 + u) * M * (|α| + |β|) := by linarith
      _ ≤ (1 + u) * M * (1 + u) := mul_le_mul_of_nonneg_left hab (by positivity)
      _ = _ := by ring
  have ht2 : |t2| ≤ u * ((1 + u) ^ 2 * M) := by
    have : t2 = -(fl (m + β) - (m + β)) := by rw [← es]; linarith
    rw [this, abs_neg]
    exact (hFl _).trans (mul_le_mul_of_nonneg_left hmb hu)
  have hT1 : |t1| ≤ u * (2 + 1 / 100) := ht1.trans (mul_le_mul_of_nonneg_left (by nlinarith) hu)
  have hT2 : |t2| ≤ u * (2 + 1 / 100) := by
    refine ht2.trans (mul_le_mul_of_nonneg_left ?_ hu)
    have : (1 + u) ^ 2 ≤ 1 + 1 / 200 := by nlinarith
    nlinarith
  refine ⟨f1, ?_, ?_⟩
  · rw [es]
    refine (hFa _).trans ?_
    calc (1 + u) * |m + β| ≤ (1 + u) * ((1 + u) ^ 2 * M) := mul_le_mul_of_nonneg_left hmb (by linarith)
      _ = _ := by ring
  · rw [hu'] at hα1 hT1 hT2 ⊢
    exact replay_error hfl hα1 hE hD tp ts hT1 hT2

/-- The replayed value is the exact value of the recorded transforms, almost correctly rounded. -/
theorem replayF_close (l : List (AffTr n K)) (i : Fin n) (hl : ∀ a ∈ l, IsFloat 53 (a.1 i) ∧ IsFloat 53 (a.2 i) ∧ |a.1 i| + |a.2 i| ≤ 1 + uu K)
    {v : K} (hv : IsFloat 53 v) (hv1 : |v| ≤ 1) (hk : l.length ≤ 2 ^ 20) :
    |TrackedInterval.replayF fl l i v - applyAll l (fun _ => v) i| ≤
      uu K * |applyAll l (fun _ => v) i| + 100 * (l.length : K) ^ 2 * uu K ^ 2 := by
  have hu := uu_nonneg (K := K)
  have hu1 : uu K ≤ 1 / 2 ^ 20 := by unfold uu; norm_num
  have hone : ∀ j : ℕ, j ≤ 2 ^ 23 → (1 + uu K) ^ j ≤ 2 := by
    intro j hj
    refine (uu_pow_le j (hj.trans (by norm_num))).trans ?_
    have : (j : K) ≤ 2 ^ 23 := by exact_mod_cast hj
    have : (j : K) * uu K ≤ 2 ^ 23 * uu K := mul_le_mul_of_nonneg_right this hu
    have h2 : (2 : K) ^ 23 * uu K ≤ 1 / 2 := by unfold uu; norm_num
    linarith
  have key : ∀ l : List (AffTr n K), (∀ a ∈ l, IsFloat 53 (a.1 i) ∧ IsFloat 53 (a.2 i) ∧ |a.1 i| + |a.2 i| ≤ 1 + uu K) → l.length ≤ 2 ^ 20 →
      let p := l.foldr (fun ab p => TrackedInterval.replayStepF fl (ab.1 i) (ab.2 i) p) (v, 0)
      IsFloat 53 p.1 ∧ |p.1| ≤ (1 + uu K) ^ (3 * l.length) ∧ |p.2| ≤ 5 * uu K * l.length * (1 + uu K) ^ (4 * l.length) ∧
        |p.1 + p.2 - applyAll l (fun _ => v) i| ≤ 20 * (l.length : K) ^ 2 * (1 + uu K) ^ l.length * uu K ^ 2 := by
    intro l
    induction l with
    | nil => intro _ _; simpa using ⟨hv, hv1⟩
    | cons a l ih =>
      intro hl hk
      rw [List.length_cons] at hk
      obtain ⟨i1, i2, i3, i4⟩ := ih (fun b hb => hl b (List.mem_cons_of_mem _ hb)) (by omega)
      obtain ⟨f1, f2, hab⟩ := hl a List.mem_cons_self
      simp only [List.foldr_cons, List.length_cons]
      generalize l.foldr (fun ab p => TrackedInterval.replayStepF fl (ab.1 i) (ab.2 i) p) (v, 0) = p at *
      have e : applyAll (a :: l) (fun _ => v) i = a.1 i * applyAll l (fun _ => v) i + a.2 i := rfl
      rw [e]
      generalize applyAll l (fun _ => v) i = y at *
      generalize l.length = k at *
      have hk' : (k : K) ≤ 2 ^ 20 := by exact_mod_cast (by omega : k ≤ 2 ^ 20)
      have hk0 : (0 : K) ≤ k := Nat.cast_nonneg k
      have hA1 : ∀ j : ℕ, (1 : K) ≤ (1 + uu K) ^ j := fun j => one_le_pow₀ (by linarith)
      have hE : 5 * uu K * k * (1 + uu K) ^ (4 * k) ≤ 10 * uu K * k := by
        have := mul_le_mul_of_nonneg_left (hone (4 * k) (by omega)) (show (0 : K) ≤ 5 * uu K * k by positivity)
        linarith
      have hD' := i4
      obtain ⟨s1, s2, s3, s4⟩ := replayStepF_spec hfl f1 f2 i1 hab i2 (hA1 _) (hone (3 * k) (by omega)) i3 hD'
      refine ⟨s1, ?_, ?_, ?_⟩
      · refine s2.trans (le_of_eq ?_)
        rw [← pow_add]
        congr 1
        omega
      · refine s3.trans ?_
        have e1 : (1 + uu K) ^ (4 * (k + 1)) = (1 + uu K) ^ 4 * (1 + uu K) ^ (4 * k) := by rw [← pow_add]; congr 1; omega
        have h1 := hA1 (4 * (k + 1))
        have h2 : 5 * uu K ≤ 5 * uu K * (1 + uu K) ^ (4 * (k + 1)) := le_mul_of_one_le_right (by positivity) h1
        push_cast
        rw [e1] at h2 ⊢
        nlinarith
      · refine s4.trans ?_
        have h1 : uu K * (4 * (5 * uu K * k * (1 + uu K) ^ (4 * k)) + 7 * uu K) ≤ uu K * (4 * (10 * uu K * k) + 7 * uu K) :=
          mul_le_mul_of_nonneg_left (by linarith) hu
        have h2 := hA1 (k + 1)
        push_cast
        have h3 : uu K ^ 2 * (40 * k + 20) ≤ uu K ^ 2 * (40 * k + 20) * (1 + uu K) ^ (k + 1) := le_mul_of_one_le_right (by positivity) h2
        have e2 : 20 * ((k : K) + 1) ^ 2 * (1 + uu K) ^ (k + 1) * uu K ^ 2 =
          (1 + uu K) * (20 * (k : K) ^ 2 * (1 + uu K) ^ k * uu K ^ 2) + uu K ^ 2 * (40 * k + 20) * (1 + uu K) ^ (k + 1) := by
          rw [pow_succ]; ring
        rw [e2]
        nlinarith [sq_nonneg (uu K)]
  obtain ⟨-, -, -, h4⟩ := key l hl hk
  unfold TrackedInterval.replayF
  simp only
  generalize l.foldr (fun ab p => TrackedInterval.replayStepF fl (ab.1 i) (ab.2 i) p) (v, 0) = p at *
  generalize applyAll l (fun _ => v) i = y at *
  have h5 := flu hfl (p.1 + p.2)
  have h6 : 20 * (l.length : K) ^ 2 * (1 + uu K) ^ l.length * uu K ^ 2 ≤ 40 * (l.length : K) ^ 2 * uu K ^ 2 := by
    have := mul_le_mul_of_nonneg_left (hone l.length (by omega)) (show (0 : K) ≤ 20 * (l.length : K) ^ 2 * uu K ^ 2 by positivity)
    linarith
  have h7 := abs_add_le (p.1 + p.2 - y) y
  rw [sub_add_cancel] at h7
  have h8 := abs_add_le (fl (p.1 + p.2) - (p.1 + p.2)) (p.1 + p.2 - y)
  rw [sub_add_sub_cancel] at h8
  have h9 : uu K * |p.1 + p.2| ≤ uu K * (40 * (l.length : K) ^ 2 * uu K ^ 2 + |y|) := mul_le_mul_of_nonneg_left (by linarith) hu
  have h10 : uu K * (40 * (l.length : K) ^ 2 * uu K ^ 2) ≤ 1 * (40 * (l.length : K) ^ 2 * uu K ^ 2) :=
    mul_le_mul_of_nonneg_right (by linarith) (by positivity)
  have h11 : 0 ≤ (l.length : K) ^ 2 * uu K ^ 2 := by positivity
  linarith

end R

end YRoots
