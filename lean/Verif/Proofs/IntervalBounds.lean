import Verif.Model.IntervalChecks
import Verif.Proofs.LinearTerms
import Verif.Proofs.Solve
import Mathlib.LinearAlgebra.Matrix.NonsingularInverse
import Mathlib.Tactic.FieldSimp
import Mathlib.Tactic.Linarith

/-!
# Helper lemmas: interval reduction of the legacy solver
-/

set_option linter.unusedSectionVars false
set_option linter.unusedVariables false
set_option linter.unusedSimpArgs false

namespace YRoots.Legacy

open Finset

variable {n : ℕ} {K : Type*} [Field K] [LinearOrder K] [IsStrictOrderedRing K]

/-- Containment, strict under the condition `s`. -/
def In (s : Prop) (p : K × K) (t : K) : Prop := (p.1 ≤ t ∧ t ≤ p.2) ∧ (s → p.1 < t ∧ t < p.2)

/-- All intervals found so far contain the point. -/
def Good (s : Prop) (iv : Intervals n K) (x : Fin n → K) : Prop := ∀ i, ∀ p ∈ iv i, In s p (x i)

theorem In.of_abs {s : Prop} {c w t : K} (h : |t - c| ≤ w) (hs : s → |t - c| < w) : In s (c - w, c + w) t := by
  have h1 := abs_le.1 h
  refine ⟨⟨by linarith [h1.1], by linarith [h1.2]⟩, fun h0 => ?_⟩
  have h2 := abs_lt.1 (hs h0)
  exact ⟨by linarith [h2.1], by linarith [h2.2]⟩

theorem Good.push {s : Prop} {iv : Intervals n K} {x : Fin n → K} (h : Good s iv x) (v : Fin n) {c w : K}
    (h1 : |x v - c| ≤ w) (h2 : s → |x v - c| < w) : Good s (iv.push v c w) x := by
  intro i p hp
  by_cases hi : i = v
  · subst hi
    rw [Intervals.push, Function.update_self, List.mem_append, List.mem_singleton] at hp
    rcases hp with hp | rfl
    · exact h _ _ hp
    · exact In.of_abs h1 h2
  · rw [Intervals.push, Function.update_of_ne hi] at hp
    exact h _ _ hp

/-! ### merging and clamping -/

theorem foldl_max_spec (l : List K) (a : K) (t : K) (s : Prop) (ha : a ≤ t ∧ (s → a < t))
    (h : ∀ b ∈ l, b ≤ t ∧ (s → b < t)) : l.foldl max a ≤ t ∧ (s → l.foldl max a < t) := by
  induction l generalizing a with
  | nil => exact ha
  | cons b l ih =>
    have hb := h b (by simp)
    exact ih _ ⟨max_le ha.1 hb.1, fun hs => max_lt (ha.2 hs) (hb.2 hs)⟩ fun c hc => h c (by simp [hc])

theorem foldl_min_spec (l : List K) (a : K) (t : K) (s : Prop) (ha : t ≤ a ∧ (s → t < a))
    (h : ∀ b ∈ l, t ≤ b ∧ (s → t < b)) : t ≤ l.foldl min a ∧ (s → t < l.foldl min a) := by
  induction l generalizing a with
  | nil => exact ha
  | cons b l ih =>
    have hb := h b (by simp)
    exact ih _ ⟨le_min ha.1 hb.1, fun hs => lt_min (ha.2 hs) (hb.2 hs)⟩ fun c hc => h c (by simp [hc])

theorem merge_in {s : Prop} {l : List (K × K)} {t : K} (ht : |t| ≤ 1) (h : ∀ p ∈ l, In s p t) :
    In s (mergeIntervals l) t ∨ mergeIntervals l = (-1, 1) := by
  cases l with
  | nil => exact .inr rfl
  | cons p l =>
    left
    have hp := h p (by simp)
    have h1 := foldl_max_spec (l.map Prod.fst) p.1 t s ⟨hp.1.1, fun hs => (hp.2 hs).1⟩ (by
      intro b hb
      obtain ⟨q, hq, rfl⟩ := List.mem_map.1 hb
      have := h q (by simp [hq])
      exact ⟨this.1.1, fun hs => (this.2 hs).1⟩)
    have h2 := foldl_min_spec (l.map Prod.snd) p.2 t s ⟨hp.1.2, fun hs => (hp.2 hs).2⟩ (by
      intro b hb
      obtain ⟨q, hq, rfl⟩ := List.mem_map.1 hb
      have := h q (by simp [hq])
      exact ⟨this.1.2, fun hs => (this.2 hs).2⟩)
    have hle := h1.1.trans h2.1
    simp only [mergeIntervals]
    rw [if_neg (not_lt.2 hle)]
    exact ⟨⟨h1.1, h2.1⟩, fun hs => ⟨h1.2 hs, h2.2 hs⟩⟩

theorem merge_ordered (l : List (K × K)) : (mergeIntervals l).1 ≤ (mergeIntervals l).2 := by
  cases l with
  | nil => simp only [mergeIntervals]; linarith [zero_lt_one' K]
  | cons p l =>
    simp only [mergeIntervals]
    split
    · exact le_rfl
    · rename_i h; exact not_lt.1 h

theorem clamp_mono {a b : K} (h : a ≤ b) : clamp a ≤ clamp b := max_le_max (min_le_min h le_rfl) le_rfl

theorem clamp_mem (a : K) : -1 ≤ clamp a ∧ clamp a ≤ 1 :=
  ⟨le_max_right _ _, max_le (min_le_right _ _) (by linarith [zero_lt_one' K])⟩

theorem clamp_le {a t : K} (h : a ≤ t) (ht : |t| ≤ 1) : clamp a ≤ t :=
  max_le ((min_le_left _ _).trans h) (abs_le.1 ht).1

theorem le_clamp {a t : K} (h : t ≤ a) (ht : |t| ≤ 1) : t ≤ clamp a :=
  le_max_of_le_left (le_min h (abs_le.1 ht).2)

theorem clamp_lt' {a t : K} (h : a < t) (ht : -1 < t) : clamp a < t :=
  max_lt ((min_le_left _ _).trans_lt h) ht

theorem lt_clamp' {a t : K} (h : t < a) (ht : t < 1) : t < clamp a :=
  lt_max_of_lt_left (lt_min h ht)

/-- The interval is widened or kept, or replaced by `[0,0]` if it has at most one point in `[-1,1]`. -/
theorem width_in {s : Prop} {p : K × K} {t : K} (ht : |t| ≤ 1) (h : In s p t ∨ p = (-1, 1)) :
    ((widthAndBoundCheck p).1 ≤ t ∧ t ≤ (widthAndBoundCheck p).2 ∧
      (widthAndBoundCheck p).1 < (widthAndBoundCheck p).2) ∨
    (¬s ∧ clamp p.1 = clamp p.2 ∧ widthAndBoundCheck p = (0, 0)) := by
  have hle : p.1 ≤ t ∧ t ≤ p.2 := by
    rcases h with h | rfl
    · exact h.1
    · exact abs_le.1 ht
  have h1 := clamp_le hle.1 ht
  have h2 := le_clamp hle.2 ht
  have hab' := abs_le.1 ht
  have hone := zero_lt_one' K
  have hst : s → clamp p.1 ≠ clamp p.2 := by
    intro hs he
    have e1 : clamp p.1 = t := le_antisymm h1 (he ▸ h2)
    have e2 : clamp p.2 = t := he ▸ e1
    rcases h with h | rfl
    · obtain ⟨h3, h4⟩ := h.2 hs
      have e3 : t = -1 := by
        by_contra hne
        have := clamp_lt' h3 (lt_of_le_of_ne hab'.1 (Ne.symm hne))
        exact absurd e1 this.ne
      have e4 : t = 1 := by
        by_contra hne
        have := lt_clamp' h4 (lt_of_le_of_ne hab'.2 hne)
        exact absurd e2 this.ne'
      linarith
    · simp only [clamp] at he
      rw [min_eq_left (by linarith), min_self, max_self, max_eq_left (by linarith)] at he
      linarith
  unfold widthAndBoundCheck
  simp only []
  by_cases hab : clamp p.1 = clamp p.2
  · right
    exact ⟨fun hs => hst hs hab, hab, by rw [if_pos hab]⟩
  · left
    rw [if_neg hab]
    have hlt : clamp p.1 < clamp p.2 := lt_of_le_of_ne (h1.trans h2) hab
    split
    · rename_i hw
      have hc : (0 : K) < 1 / 100 := by positivity
      have e1 : (clamp p.1 + clamp p.2) / 2 - 1 / 100 / 2 ≤ clamp p.1 := by linarith
      have e2 : clamp p.2 ≤ (clamp p.1 + clamp p.2) / 2 + 1 / 100 / 2 := by linarith
      have c1 := clamp_mem p.1
      have c2 := clamp_mem p.2
      have f1 : clamp ((clamp p.1 + clamp p.2) / 2 - 1 / 100 / 2) ≤ clamp p.1 := clamp_le e1 (abs_le.2 c1)
      have f2 : clamp p.2 ≤ clamp ((clamp p.1 + clamp p.2) / 2 + 1 / 100 / 2) := le_clamp e2 (abs_le.2 c2)
      exact ⟨f1.trans h1, h2.trans f2, lt_of_le_of_lt f1 (hlt.trans_le f2)⟩
    · exact ⟨h1, h2, hlt⟩

/-- The result is a subinterval of `[-1,1]`. -/
theorem width_mem (p : K × K) (h : p.1 ≤ p.2) : -1 ≤ (widthAndBoundCheck p).1 ∧
    (widthAndBoundCheck p).1 ≤ (widthAndBoundCheck p).2 ∧ (widthAndBoundCheck p).2 ≤ 1 := by
  have h1 := clamp_mono h
  unfold widthAndBoundCheck
  simp only []
  split
  · simp
  · split
    · refine ⟨(clamp_mem _).1, clamp_mono ?_, (clamp_mem _).2⟩
      have hc : (0 : K) < 1 / 100 := by positivity
      linarith
    · exact ⟨(clamp_mem _).1, h1, (clamp_mem _).2⟩

/-! ### the reductions -/

/-- Bound of one variable of an affine form from bounds of the others. -/
theorem bound_one {a c t r e w : K} (ha : a ≠ 0) (hr : |r| ≤ e) (h : |c + a * t| ≤ |r| + w) :
    |t - -c / a| ≤ (e + w) / |a| ∧ (|r| < e → |t - -c / a| < (e + w) / |a|) := by
  have hp : 0 < |a| := abs_pos.2 ha
  have e1 : t - -c / a = (c + a * t) / a := by field_simp; ring
  rw [e1, abs_div]
  exact ⟨div_le_div_of_nonneg_right (by linarith) hp.le, fun h0 => div_lt_div_of_pos_right (by linarith) hp⟩

theorem abs_mul_le_of {a t : K} (ht : |t| ≤ 1) : |a * t| ≤ |a| := by
  rw [abs_mul]
  calc _ ≤ |a| * 1 := mul_le_mul_of_nonneg_left ht (abs_nonneg _)
    _ = _ := mul_one _

/-- Residual of the affine part. -/
abbrev res2 (xt yt c : Fin 2 → K) (x : Fin 2 → K) (i : Fin 2) : K := c i + (xt i * x 0 + yt i * x 1)

theorem improve2D_good {s : Prop} {iv : Intervals 2 K} {x : Fin 2 → K} (h : Good s iv x) (hx : InCube x)
    (xt yt c e : Fin 2 → K) (hr : ∀ i, |res2 xt yt c x i| ≤ e i) (hs : s → ∀ i, |res2 xt yt c x i| < e i) :
    Good s (improveBound2D iv xt yt c e) x := by
  have he : ∀ i, |e i| = e i := fun i => abs_of_nonneg ((abs_nonneg _).trans (hr i))
  have hX : ∀ i, xt i ≠ 0 → |x 0 - -c i / xt i| ≤ (|e i| + |yt i|) / |xt i| ∧
      (s → |x 0 - -c i / xt i| < (|e i| + |yt i|) / |xt i|) := by
    intro i hi
    rw [he]
    have hb : |c i + xt i * x 0| ≤ |res2 xt yt c x i| + |yt i| := by
      have e1 : c i + xt i * x 0 = res2 xt yt c x i - yt i * x 1 := by unfold res2; ring
      rw [e1]
      exact (abs_sub _ _).trans (by linarith [abs_mul_le_of (a := yt i) (hx 1)])
    have := bound_one hi (hr i) hb
    exact ⟨this.1, fun h0 => this.2 (hs h0 i)⟩
  have hY : ∀ i, yt i ≠ 0 → |x 1 - -c i / yt i| ≤ (|e i| + |xt i|) / |yt i| ∧
      (s → |x 1 - -c i / yt i| < (|e i| + |xt i|) / |yt i|) := by
    intro i hi
    rw [he]
    have hb : |c i + yt i * x 1| ≤ |res2 xt yt c x i| + |xt i| := by
      have e1 : c i + yt i * x 1 = res2 xt yt c x i - xt i * x 0 := by unfold res2; ring
      rw [e1]
      exact (abs_sub _ _).trans (by linarith [abs_mul_le_of (a := xt i) (hx 0)])
    have := bound_one hi (hr i) hb
    exact ⟨this.1, fun h0 => this.2 (hs h0 i)⟩
  unfold improveBound2D
  simp only []
  have step : ∀ (iv : Intervals 2 K) (P : Prop) [Decidable P] (v : Fin 2) (ce w : K), Good s iv x →
      (P → |x v - ce| ≤ w ∧ (s → |x v - ce| < w)) → Good s (if P then iv.push v ce w else iv) x := by
    intro iv P _ v ce w hg hP
    split
    · rename_i hp; exact hg.push v (hP hp).1 (hP hp).2
    · exact hg
  exact step _ _ _ _ _ (step _ _ _ _ _ (step _ _ _ _ _ (step _ _ _ _ _ h (hX 0)) (hX 1)) (hY 0)) (hY 1)

theorem parallelogram2D_good {s : Prop} {iv : Intervals 2 K} {x : Fin 2 → K} (h : Good s iv x)
    (xt yt c e : Fin 2 → K) (hr : ∀ i, |res2 xt yt c x i| ≤ e i) (hs : s → ∀ i, |res2 xt yt c x i| < e i) :
    Good s (parallelogram2D iv xt yt c e) x := by
  unfold parallelogram2D
  simp only []
  split
  · rename_i hd
    have he : ∀ i, |e i| = e i := fun i => abs_of_nonneg ((abs_nonneg _).trans (hr i))
    have hp := abs_pos.2 hd
    have key : ∀ (u v : K) (hne : u ≠ 0 ∨ v ≠ 0), |u * res2 xt yt c x 0 - v * res2 xt yt c x 1|
        ≤ |u * e 0| + |v * e 1| ∧ (s → |u * res2 xt yt c x 0 - v * res2 xt yt c x 1| < |u * e 0| + |v * e 1|) := by
      intro u v hne
      have h1 := abs_sub (u * res2 xt yt c x 0) (v * res2 xt yt c x 1)
      have m : ∀ (u : K) (i : Fin 2), |u * res2 xt yt c x i| ≤ |u * e i| ∧
          (s → u ≠ 0 → |u * res2 xt yt c x i| < |u * e i|) := by
        intro u i
        rw [abs_mul, abs_mul, he]
        exact ⟨mul_le_mul_of_nonneg_left (hr i) (abs_nonneg _),
          fun h0 hu => mul_lt_mul_of_pos_left (hs h0 i) (abs_pos.2 hu)⟩
      refine ⟨h1.trans (add_le_add (m u 0).1 (m v 1).1), fun h0 => h1.trans_lt ?_⟩
      rcases hne with hu | hv
      · exact add_lt_add_of_lt_of_le ((m u 0).2 h0 hu) (m v 1).1
      · exact add_lt_add_of_le_of_lt (m u 0).1 ((m v 1).2 h0 hv)
    have ex : x 0 - (yt 0 * c 1 - yt 1 * c 0) / (xt 0 * yt 1 - xt 1 * yt 0)
        = (yt 1 * res2 xt yt c x 0 - yt 0 * res2 xt yt c x 1) / (xt 0 * yt 1 - xt 1 * yt 0) := by
      rw [eq_div_iff hd, sub_mul, div_mul_cancel₀ _ hd]; unfold res2; ring
    have ey : x 1 - (xt 1 * c 0 - xt 0 * c 1) / (xt 0 * yt 1 - xt 1 * yt 0)
        = -((xt 1 * res2 xt yt c x 0 - xt 0 * res2 xt yt c x 1) / (xt 0 * yt 1 - xt 1 * yt 0)) := by
      rw [← neg_div, eq_div_iff hd, sub_mul, div_mul_cancel₀ _ hd]; unfold res2; ring
    have nx : yt 1 ≠ 0 ∨ yt 0 ≠ 0 := by
      by_contra hc; push Not at hc; exact hd (by rw [hc.1, hc.2]; ring)
    have ny : xt 1 ≠ 0 ∨ xt 0 ≠ 0 := by
      by_contra hc; push Not at hc; exact hd (by rw [hc.1, hc.2]; ring)
    refine (h.push 0 ?_ ?_).push 1 ?_ ?_
    · rw [ex, abs_div]; exact div_le_div_of_nonneg_right (key _ _ nx).1 hp.le
    · intro h0; rw [ex, abs_div]; exact div_lt_div_of_pos_right ((key _ _ nx).2 h0) hp
    · rw [ey, abs_neg, abs_div]; exact div_le_div_of_nonneg_right (key _ _ ny).1 hp.le
    · intro h0; rw [ey, abs_neg, abs_div]; exact div_lt_div_of_pos_right ((key _ _ ny).2 h0) hp
  · exact h

/-- Residual of the affine part. -/
abbrev resN (A : Matrix (Fin n) (Fin n) K) (c : Fin n → K) (x : Fin n → K) (i : Fin n) : K := c i + ∑ j, A i j * x j

theorem improveND_good {s : Prop} {iv : Intervals n K} {x : Fin n → K} (h : Good s iv x) (hx : InCube x)
    (A : Matrix (Fin n) (Fin n) K) (c e : Fin n → K) (hr : ∀ i, |resN A c x i| ≤ e i)
    (hs : s → ∀ i, |resN A c x i| < e i) : Good s (improveBoundND iv A c e) x := by
  have he : ∀ i, |e i| = e i := fun i => abs_of_nonneg ((abs_nonneg _).trans (hr i))
  have step : ∀ (f v : Fin n) (iv : Intervals n K), Good s iv x → Good s (improveStep A c e f iv v) x := by
    intro f v iv hg
    unfold improveStep
    simp only []
    split
    · exact hg
    · rename_i hA
      have hA : A f v ≠ 0 := fun h0 => hA (by rw [h0, abs_zero])
      have hp : 0 < |A f v| := abs_pos.2 hA
      have ew : (∑ v, |A f v| + |e f|) / |A f v| - 1 = (e f + ∑ k ∈ univ.erase v, |A f k|) / |A f v| := by
        rw [he, ← add_sum_erase _ _ (mem_univ v)]; field_simp; ring
      have hb : |c f + A f v * x v| ≤ |resN A c x f| + ∑ k ∈ univ.erase v, |A f k| := by
        have e1 : c f + A f v * x v = resN A c x f - ∑ k ∈ univ.erase v, A f k * x k := by
          unfold resN; rw [← add_sum_erase _ _ (mem_univ v)]; ring
        rw [e1]
        refine (abs_sub _ _).trans (add_le_add le_rfl ((abs_sum_le_sum_abs _ _).trans (sum_le_sum fun k _ => ?_)))
        exact abs_mul_le_of (hx k)
      have hb := bound_one hA (hr f) hb
      rw [ew]
      exact hg.push v hb.1 fun h0 => hb.2 (hs h0 f)
  unfold improveBoundND
  have inner : ∀ (f : Fin n) (l : List (Fin n)) (iv : Intervals n K), Good s iv x →
      Good s (l.foldl (improveStep A c e f) iv) x := by
    intro f l
    induction l with
    | nil => intro iv hg; exact hg
    | cons v l ih => intro iv hg; exact ih _ (step f v iv hg)
  have outer : ∀ (l : List (Fin n)) (iv : Intervals n K), Good s iv x →
      Good s (l.foldl (fun iv f => (List.finRange n).foldl (improveStep A c e f) iv) iv) x := by
    intro l
    induction l with
    | nil => intro iv hg; exact hg
    | cons f l ih => intro iv hg; exact ih _ (inner f _ iv hg)
  exact outer _ iv h

theorem mapM_some {α β : Type*} {f : α → Option β} {l : List α} {r : List β} (h : l.mapM f = some r) :
    (∀ a ∈ l, ∃ b ∈ r, f a = some b) ∧ ∀ b ∈ r, ∃ a ∈ l, f a = some b := by
  induction l generalizing r with
  | nil => simp at h; subst h; simp
  | cons a l ih =>
    simp only [List.mapM_cons, Option.bind_eq_bind, Option.bind_eq_some_iff, Option.pure_def, Option.some.injEq] at h
    obtain ⟨b, hb, r', hr', rfl⟩ := h
    obtain ⟨h1, h2⟩ := ih hr'
    constructor
    · intro a' ha'
      rcases List.mem_cons.1 ha' with rfl | ha'
      · exact ⟨b, by simp, hb⟩
      · obtain ⟨b', hb', hf⟩ := h1 a' ha'
        exact ⟨b', by simp [hb'], hf⟩
    · intro b' hb'
      rcases List.mem_cons.1 hb' with rfl | hb'
      · exact ⟨a, by simp, hb⟩
      · obtain ⟨a', ha', hf⟩ := h2 b' hb'
        exact ⟨a', by simp [ha'], hf⟩

theorem listMin_le (l : List K) (a : K) : listMin a l ≤ a ∧ ∀ b ∈ l, listMin a l ≤ b := by
  unfold listMin
  induction l generalizing a with
  | nil => simp
  | cons c l ih =>
    obtain ⟨h1, h2⟩ := ih (min a c)
    refine ⟨h1.trans (min_le_left _ _), fun b hb => ?_⟩
    rcases List.mem_cons.1 hb with rfl | hb
    · exact h1.trans (min_le_right _ _)
    · exact h2 b hb

theorem le_listMax (l : List K) (a : K) : a ≤ listMax a l ∧ ∀ b ∈ l, b ≤ listMax a l := by
  unfold listMax
  induction l generalizing a with
  | nil => simp
  | cons c l ih =>
    obtain ⟨h1, h2⟩ := ih (max a c)
    refine ⟨(le_max_left _ _).trans h1, fun b hb => ?_⟩
    rcases List.mem_cons.1 hb with rfl | hb
    · exact (le_max_right _ _).trans h1
    · exact h2 b hb

theorem parallelogramND_good {S : LinSolve n K} (hS : S.Exact) {s : Prop} {iv iv' : Intervals n K} {x : Fin n → K}
    (h : Good s iv x) (A : Matrix (Fin n) (Fin n) K) (c e : Fin n → K) (hr : ∀ i, |resN A c x i| ≤ e i)
    (hs : s → ∀ i, |resN A c x i| < e i) (hrun : parallelogramND S iv A c e = .ok iv') : Good s iv' x := by
  classical
  unfold parallelogramND at hrun
  split at hrun
  · exact absurd hrun (by simp)
  · injection hrun with hrun; subst hrun; exact h
  · rename_i y Y hm
    injection hrun with hrun
    subst hrun
    obtain ⟨h1, h2⟩ := mapM_some hm
    have hdet : A.det ≠ 0 := by
      intro h0
      obtain ⟨a, -, ha⟩ := h2 y (by simp)
      rw [(hS A _).2 h0] at ha
      exact absurd ha (by simp)
    have hu : IsUnit A.det := isUnit_iff_ne_zero.2 hdet
    -- the corner with signs `sg`
    have corner : ∀ (sg : Fin n → Bool) (i : Fin n), ∃ z ∈ y :: Y,
        z i = ∑ j, A⁻¹ i j * (-c j + if sg j then -e j else e j) := by
      intro sg i
      obtain ⟨z, hz, hzs⟩ := h1 sg (mem_boolProduct n sg)
      refine ⟨z, hz, ?_⟩
      obtain ⟨w, hw, hAw⟩ := (hS A (fun i => -c i + if sg i then -e i else e i)).1 hdet
      rw [hw] at hzs
      injection hzs with hzs
      subst hzs
      have e1 : w = A⁻¹.mulVec (A.mulVec w) := by rw [Matrix.mulVec_mulVec, Matrix.nonsing_inv_mul _ hu, Matrix.one_mulVec]
      rw [hAw] at e1
      exact congrFun e1 i
    have hxi : ∀ i, x i = ∑ j, A⁻¹ i j * (-c j + resN A c x j) := by
      intro i
      have e1 : x = A⁻¹.mulVec (A.mulVec x) := by rw [Matrix.mulVec_mulVec, Matrix.nonsing_inv_mul _ hu, Matrix.one_mulVec]
      have e2 := congrFun e1 i
      rw [e2, Matrix.mulVec, dotProduct]
      refine sum_congr rfl fun j _ => ?_
      simp only [resN, neg_add_cancel_left]; rfl
    have hrow : ∀ i, ∃ j, A⁻¹ i j ≠ 0 := by
      intro i
      by_contra hc
      push Not at hc
      have : (A⁻¹ * A) i i = 1 := by rw [Matrix.nonsing_inv_mul _ hu, Matrix.one_apply_eq]
      rw [Matrix.mul_apply] at this
      simp [hc] at this
    intro i p hp
    rw [List.mem_append, List.mem_singleton] at hp
    rcases hp with hp | rfl
    · exact h i p hp
    have hmin := listMin_le (Y.map fun z => z i) (y i)
    have hmax := le_listMax (Y.map fun z => z i) (y i)
    have hmin' : ∀ z ∈ y :: Y, listMin (y i) (Y.map fun z => z i) ≤ z i := by
      intro z hz
      rcases List.mem_cons.1 hz with rfl | hz
      · exact hmin.1
      · exact hmin.2 _ (List.mem_map_of_mem hz)
    have hmax' : ∀ z ∈ y :: Y, z i ≤ listMax (y i) (Y.map fun z => z i) := by
      intro z hz
      rcases List.mem_cons.1 hz with rfl | hz
      · exact hmax.1
      · exact hmax.2 _ (List.mem_map_of_mem hz)
    -- lower corner
    have hlo : ∀ j, A⁻¹ i j * (-c j + if decide (0 ≤ A⁻¹ i j) then -e j else e j) ≤ A⁻¹ i j * (-c j + resN A c x j) ∧
        (s → A⁻¹ i j ≠ 0 → A⁻¹ i j * (-c j + if decide (0 ≤ A⁻¹ i j) then -e j else e j)
          < A⁻¹ i j * (-c j + resN A c x j)) := by
      intro j
      have hb := abs_le.1 (hr j)
      by_cases h0 : 0 ≤ A⁻¹ i j
      · simp only [h0, decide_true, if_true]
        refine ⟨mul_le_mul_of_nonneg_left (by linarith [hb.1]) h0, fun hs0 hne => ?_⟩
        have := abs_lt.1 (hs hs0 j)
        exact mul_lt_mul_of_pos_left (by linarith [this.1]) (lt_of_le_of_ne h0 (Ne.symm hne))
      · simp only [h0, decide_false, Bool.false_eq_true, if_false]
        push Not at h0
        refine ⟨mul_le_mul_of_nonpos_left (by linarith [hb.2]) h0.le, fun hs0 hne => ?_⟩
        have := abs_lt.1 (hs hs0 j)
        exact mul_lt_mul_of_neg_left (by linarith [this.2]) h0
    have hhi : ∀ j, A⁻¹ i j * (-c j + resN A c x j) ≤ A⁻¹ i j * (-c j + if decide (A⁻¹ i j < 0) then -e j else e j) ∧
        (s → A⁻¹ i j ≠ 0 → A⁻¹ i j * (-c j + resN A c x j)
          < A⁻¹ i j * (-c j + if decide (A⁻¹ i j < 0) then -e j else e j)) := by
      intro j
      have hb := abs_le.1 (hr j)
      by_cases h0 : A⁻¹ i j < 0
      · simp only [h0, decide_true, if_true]
        refine ⟨mul_le_mul_of_nonpos_left (by linarith [hb.1]) h0.le, fun hs0 hne => ?_⟩
        have := abs_lt.1 (hs hs0 j)
        exact mul_lt_mul_of_neg_left (by linarith [this.1]) h0
      · simp only [h0, decide_false, Bool.false_eq_true, if_false]
        push Not at h0
        refine ⟨mul_le_mul_of_nonneg_left (by linarith [hb.2]) h0, fun hs0 hne => ?_⟩
        have := abs_lt.1 (hs hs0 j)
        exact mul_lt_mul_of_pos_left (by linarith [this.2]) (lt_of_le_of_ne h0 (Ne.symm hne))
    obtain ⟨z1, hz1, ez1⟩ := corner (fun j => decide (0 ≤ A⁻¹ i j)) i
    obtain ⟨z2, hz2, ez2⟩ := corner (fun j => decide (A⁻¹ i j < 0)) i
    obtain ⟨j0, hj0⟩ := hrow i
    have hl1 := hmin' z1 hz1
    have hl2 := hmax' z2 hz2
    refine ⟨⟨hl1.trans ?_, le_trans ?_ hl2⟩, fun hs0 => ⟨lt_of_le_of_lt hl1 ?_, lt_of_lt_of_le ?_ hl2⟩⟩
    · rw [ez1, hxi i]; exact sum_le_sum fun j _ => (hlo j).1
    · rw [ez2, hxi i]; exact sum_le_sum fun j _ => (hhi j).1
    · rw [ez1, hxi i]; exact sum_lt_sum (fun j _ => (hlo j).1) ⟨j0, mem_univ _, (hlo j0).2 hs0 hj0⟩
    · rw [ez2, hxi i]; exact sum_lt_sum (fun j _ => (hhi j).1) ⟨j0, mem_univ _, (hhi j0).2 hs0 hj0⟩

/-- The residual of the affine part of an approximation at a zero of the function. -/
theorem residual_le (M : Tensor n K) (hM : ∀ j, 1 < M.shape j) (tol : K) (x : Fin n → K)
    (hx : InCube x) (hf : |M.eval x| ≤ tol) :
    |M.const + ∑ j, linCoef M j * x j| ≤ errTerm M tol ∧
      (|M.eval x| < tol → |M.const + ∑ j, linCoef M j * x j| < errTerm M tol) := by
  have hb := eval_linear_bound M (fun j => (Nat.zero_lt_one.trans (hM j))) hx
  have el : ∀ j, YRoots.linCoef M j = linCoef M j := fun j => if_neg (hM j).ne'
  simp only [el] at hb
  have ht : |M.const + ∑ j, linCoef M j * x j| ≤
      |M.eval x| + |M.eval x - (M.const + ∑ j, linCoef M j * x j)| := by
    have : M.const + ∑ j, linCoef M j * x j = M.eval x - (M.eval x - (M.const + ∑ j, linCoef M j * x j)) := by ring
    conv_lhs => rw [this]
    exact abs_sub _ _
  unfold errTerm
  exact ⟨by linarith, fun h => by linarith⟩

theorem finish_mem {s : Prop} {iv : Intervals n K} {x : Fin n → K} (h : Good s iv x) (hx : InCube x) :
    (∀ i, ((finish iv).lo i ≤ x i ∧ x i ≤ (finish iv).hi i ∧ (finish iv).lo i < (finish iv).hi i) ∨
      (¬s ∧ (finish iv).lo i = 0 ∧ (finish iv).hi i = 0)) := by
  intro i
  rcases width_in (hx i) (merge_in (hx i) (h i)) with h1 | ⟨h1, -, h2⟩
  · exact .inl h1
  · right
    refine ⟨h1, ?_, ?_⟩
    · show (widthAndBoundCheck _).1 = 0; rw [h2]
    · show (widthAndBoundCheck _).2 = 0; rw [h2]

theorem finish_unit (iv : Intervals n K) : (finish iv).Ordered ∧ (finish iv).Within (Box.unit n K) := by
  refine ⟨fun i => (width_mem _ (merge_ordered _)).2.1, fun i => ?_⟩
  exact ⟨(width_mem _ (merge_ordered _)).1, (width_mem _ (merge_ordered _)).2.2⟩

theorem foldlM_good {S : LinSolve n K} (hS : S.Exact) {s : Prop} {x : Fin n → K} (hx : InCube x)
    (A : Matrix (Fin n) (Fin n) K) (c e : Fin n → K) (hr : ∀ i, |resN A c x i| ≤ e i)
    (hs : s → ∀ i, |resN A c x i| < e i) (ms : List Reduction) (iv iv' : Intervals n K) (h : Good s iv x)
    (hrun : ms.foldlM (reduceND S A c e) iv = .ok iv') : Good s iv' x := by
  induction ms generalizing iv with
  | nil => simp [pure, Except.pure] at hrun; subst hrun; exact h
  | cons m ms ih =>
    rw [List.foldlM_cons] at hrun
    cases hm : reduceND S A c e iv m with
    | error err => rw [hm] at hrun; simp [bind, Except.bind] at hrun
    | ok iv1 =>
      rw [hm] at hrun
      refine ih iv1 ?_ hrun
      cases m with
      | improveBound => simp only [reduceND, Except.ok.injEq] at hm; subst hm; exact improveND_good h hx A c e hr hs
      | getBoundingParallelogram => exact parallelogramND_good hS h A c e hr hs hm

theorem foldl2_good {s : Prop} {x : Fin 2 → K} (hx : InCube x) (xt yt c e : Fin 2 → K)
    (hr : ∀ i, |res2 xt yt c x i| ≤ e i) (hs : s → ∀ i, |res2 xt yt c x i| < e i) (ms : List Reduction)
    (iv : Intervals 2 K) (h : Good s iv x) : Good s (ms.foldl (reduce2D xt yt c e) iv) x := by
  induction ms generalizing iv with
  | nil => exact h
  | cons m ms ih =>
    refine ih _ ?_
    cases m with
    | improveBound => exact improve2D_good h hx xt yt c e hr hs
    | getBoundingParallelogram => exact parallelogram2D_good h xt yt c e hr hs

theorem dispatch_cases {S : LinSolve n K} {P : Fin n → Tensor n K} {er : Fin n → K} {ms : List Reduction} {B : Box n K}
    (h : boundingDispatch n S P er ms = .ok B) :
    ∃ iv : Intervals n K, (∀ i j, 1 < (P i).shape j) ∧ B = finish iv ∧
      ∀ (s : Prop) (x : Fin n → K), S.Exact → InCube x →
        (∀ i, |(P i).const + ∑ j, linCoef (P i) j * x j| ≤ errTerm (P i) (er i)) →
        (s → ∀ i, |(P i).const + ∑ j, linCoef (P i) j * x j| < errTerm (P i) (er i)) → Good s iv x := by
  have hND : getBoundingIntervalND S P er ms = .ok B →
      ∃ iv : Intervals n K, (∀ i j, 1 < (P i).shape j) ∧ B = finish iv ∧
      ∀ (s : Prop) (x : Fin n → K), S.Exact → InCube x →
        (∀ i, |(P i).const + ∑ j, linCoef (P i) j * x j| ≤ errTerm (P i) (er i)) →
        (s → ∀ i, |(P i).const + ∑ j, linCoef (P i) j * x j| < errTerm (P i) (er i)) → Good s iv x := by
    intro h
    unfold getBoundingIntervalND at h
    by_cases hsh : ∀ i j, 1 < (P i).shape j
    · rw [if_pos hsh] at h
      simp only [] at h
      split at h
      · exact absurd h (by simp)
      · rename_i iv hiv
        injection h with h
        refine ⟨iv, hsh, h.symm, fun s x hS hx hr hs => ?_⟩
        exact foldlM_good hS hx (Matrix.of fun i j => linCoef (P i) j) (fun i => (P i).const) _ hr hs ms _ iv
          (fun i p hp => absurd hp (by simp)) hiv
    · rw [if_neg hsh] at h; exact absurd h (by simp)
  by_cases h2 : n = 2
  · subst h2
    change getBoundingInterval2D P er ms = .ok B at h
    unfold getBoundingInterval2D at h
    by_cases hsh : ∀ i j, 1 < (P i).shape j
    · rw [if_pos hsh] at h
      injection h with h
      refine ⟨_, hsh, h.symm, fun s x hS hx hr hs => ?_⟩
      simp only [Fin.sum_univ_two] at hr hs
      exact foldl2_good hx _ _ _ _ hr hs ms _ (fun i p hp => absurd hp (by simp))
    · rw [if_neg hsh] at h; exact absurd h (by simp)
  · apply hND
    rw [← h]
    unfold boundingDispatch
    split
    · exact absurd rfl h2
    · rfl

/-- What a successful `getBoundingInterval` returns. -/
theorem getBounding_cases {S : LinSolve n K} {approx : List (Tensor n K × K)} {ms : List Reduction} {B : Box n K}
    (h : getBoundingInterval n S approx ms = .ok (some B)) :
    ∃ (P : Fin n → Tensor n K) (er : Fin n → K) (iv : Intervals n K), (∀ i, (P i, er i) ∈ approx) ∧ 0 < n ∧
      (∀ i j, 1 < (P i).shape j) ∧ B = finish iv ∧
      ∀ (s : Prop) (x : Fin n → K), S.Exact → InCube x →
        (∀ i, |(P i).const + ∑ j, linCoef (P i) j * x j| ≤ errTerm (P i) (er i)) →
        (s → ∀ i, |(P i).const + ∑ j, linCoef (P i) j * x j| < errTerm (P i) (er i)) → Good s iv x := by
  unfold getBoundingInterval at h
  by_cases h0 : approx.length = 0
  · rw [if_pos h0] at h; exact absurd h (by simp)
  · rw [if_neg h0] at h
    by_cases hn : approx.length = n
    · rw [dif_pos hn] at h
      split at h
      · exact absurd h (by simp)
      · rename_i B' hB
        injection h with h
        injection h with h
        subst h
        obtain ⟨iv, h1, h2, h3⟩ := dispatch_cases hB
        exact ⟨_, _, iv, fun i => List.get_mem _ _, by omega, h1, h2, h3⟩
    · rw [dif_neg hn] at h; exact absurd h (by simp)

/-- Containment of the zeros in the result. -/
theorem getBounding_sound {S : LinSolve n K} (hS : S.Exact) {approx : List (Tensor n K × K)} {ms : List Reduction}
    {B : Box n K} (h : getBoundingInterval n S approx ms = .ok (some B)) (x : Fin n → K) (hx : InCube x)
    (h0 : ∀ p ∈ approx, |p.1.eval x| ≤ p.2) (s : Prop) (hs : s → ∀ p ∈ approx, |p.1.eval x| < p.2) :
    ∀ i, (B.lo i ≤ x i ∧ x i ≤ B.hi i ∧ B.lo i < B.hi i) ∨ (¬s ∧ B.lo i = 0 ∧ B.hi i = 0) := by
  obtain ⟨P, er, iv, hm, hn, hsh, rfl, hg⟩ := getBounding_cases h
  have e0 : ∀ i, |(P i).eval x| ≤ er i := fun i => h0 (P i, er i) (hm i)
  have e1 : s → ∀ i, |(P i).eval x| < er i := fun h1 i => hs h1 (P i, er i) (hm i)
  have hg' := hg s x hS hx (fun i => (residual_le (P i) (hsh i) (er i) x hx (e0 i)).1)
    fun h1 i => (residual_le (P i) (hsh i) (er i) x hx (e0 i)).2 (e1 h1 i)
  exact finish_mem hg' hx

theorem getBounding_unit {S : LinSolve n K} {approx : List (Tensor n K × K)} {ms : List Reduction}
    {B : Box n K} (h : getBoundingInterval n S approx ms = .ok (some B)) : B.Ordered ∧ B.Within (Box.unit n K) := by
  obtain ⟨P, er, iv, hm, hn, hsh, rfl, hg⟩ := getBounding_cases h
  exact finish_unit iv

end YRoots.Legacy
