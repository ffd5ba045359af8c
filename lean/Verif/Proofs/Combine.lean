import Verif.Model.Combine
import Verif.Props.Interval
import Mathlib.Tactic.Ring
import Mathlib.Tactic.Linarith

/-!
# Helper lemmas: the combine loop
-/

set_option linter.unusedSectionVars false
set_option linter.unusedVariables false
set_option linter.unusedSimpArgs false

namespace YRoots

section Loop

variable {A : Type*} {touch : A → A → Bool} {merge : A → A → A}

/-- The possible steps. -/
theorem combineStep_cases (s s' : CombineState A) (h : combineStep touch merge s = some s') :
    (s' = ⟨s.l, s.idx1 + 1, s.idx1 + 2⟩ ∧ s.idx1 < s.l.length ∧ s.l.length ≤ s.idx2) ∨
    (s' = ⟨s.l, s.idx1, s.idx2 + 1⟩ ∧ ∃ a b, s.l[s.idx1]? = some a ∧ s.l[s.idx2]? = some b ∧ touch a b = false) ∨
    (∃ a b, s.l[s.idx1]? = some a ∧ s.l[s.idx2]? = some b ∧ touch a b = true ∧
      s' = ⟨(s.l.eraseIdx s.idx2).eraseIdx s.idx1 ++ [merge a b], s.idx1, s.idx1 + 1⟩) := by
  unfold combineStep at h
  cases ha : s.l[s.idx1]? with
  | none => rw [ha] at h; simp at h
  | some a =>
    rw [ha] at h
    simp only at h
    have hlt := (List.getElem?_eq_some_iff.1 ha).1
    cases hb : s.l[s.idx2]? with
    | none =>
      rw [hb] at h
      simp only [Option.some.injEq] at h
      left
      exact ⟨h.symm, hlt, List.getElem?_eq_none_iff.1 hb⟩
    | some b =>
      rw [hb] at h
      simp only at h
      split_ifs at h with ht
      · right; right
        exact ⟨a, b, rfl, rfl, ht, (Option.some.inj h).symm⟩
      · right; left
        exact ⟨(Option.some.inj h).symm, a, b, rfl, rfl, by simpa using ht⟩

theorem combineStep_none (s : CombineState A) (h : combineStep touch merge s = none) : s.l.length ≤ s.idx1 := by
  unfold combineStep at h
  cases ha : s.l[s.idx1]? with
  | none => exact List.getElem?_eq_none_iff.1 ha
  | some a =>
    rw [ha] at h
    simp only at h
    cases hb : s.l[s.idx2]? with
    | none => rw [hb] at h; simp at h
    | some b => rw [hb] at h; simp only at h; split_ifs at h

/-- An invariant of the steps holds at the end, where `idx1` is past the end. -/
theorem combineRun_inv (Inv : CombineState A → Prop)
    (hstep : ∀ s s', Inv s → combineStep touch merge s = some s' → Inv s') (fuel : ℕ) (s : CombineState A)
    (h : Inv s) {r : List A} (hr : combineRun touch merge fuel s = .ok r) :
    ∃ s', Inv s' ∧ s'.l = r ∧ s'.l.length ≤ s'.idx1 := by
  induction fuel generalizing s with
  | zero => cases hr
  | succ fuel ih =>
    unfold combineRun at hr
    cases hs : combineStep touch merge s with
    | none =>
      rw [hs] at hr
      cases hr
      exact ⟨s, h, rfl, combineStep_none s hs⟩
    | some s' =>
      rw [hs] at hr
      exact ih s' (hstep s s' h hs) hr

/-- The measure decreasing with each test. -/
def combineMeasure (B : ℕ) (s : CombineState A) : ℕ :=
  s.l.length * B ^ 2 + (B - s.idx1) * B + (B - s.idx2)

theorem length_erase2 {l : List A} {i j : ℕ} (hij : i < j) (hj : j < l.length) :
    ((l.eraseIdx j).eraseIdx i).length + 2 = l.length := by
  rw [List.length_eraseIdx, List.length_eraseIdx]
  rw [if_pos hj, if_pos (by omega)]
  omega

theorem combineRun_terminates (B fuel : ℕ) (s : CombineState A) (h12 : s.idx1 < s.idx2)
    (hl : s.l.length + 2 ≤ B) (h1 : s.idx1 ≤ s.l.length) (h2 : s.idx2 < B)
    (hf : combineMeasure B s < fuel) : ∃ r, combineRun touch merge fuel s = .ok r := by
  induction fuel generalizing s with
  | zero => omega
  | succ fuel ih =>
    unfold combineRun
    cases hs : combineStep touch merge s with
    | none => exact ⟨_, rfl⟩
    | some s' =>
      simp only
      obtain ⟨b, rfl⟩ : ∃ b, B = b + 2 := ⟨B - 2, by omega⟩
      rcases combineStep_cases s s' hs with ⟨rfl, h3, h4⟩ | ⟨rfl, a, c, ha, hc, -⟩ | ⟨a, c, ha, hc, -, rfl⟩
      · apply ih
        · simp
        · simpa using hl
        · simpa using h3
        · simp only; omega
        · unfold combineMeasure at hf ⊢
          simp only
          obtain ⟨k, hk⟩ : ∃ k, b + 2 - s.idx1 = k + 2 := ⟨b - s.idx1, by omega⟩
          have e1 : b + 2 - (s.idx1 + 1) = k + 1 := by omega
          have e2 : b + 2 - (s.idx1 + 2) = k := by omega
          rw [hk] at hf
          rw [e1, e2]
          have e3 : (k + 2) * (b + 2) = (k + 1) * (b + 2) + (b + 2) := by ring
          rw [e3] at hf
          omega
      · have hcl := (List.getElem?_eq_some_iff.1 hc).1
        apply ih
        · simp only; omega
        · simpa using hl
        · simpa using h1
        · simp only; omega
        · unfold combineMeasure at hf ⊢
          simp only
          omega
      · have hcl := (List.getElem?_eq_some_iff.1 hc).1
        have hL := length_erase2 h12 hcl
        apply ih
        · simp
        · simp only [List.length_append, List.length_singleton]; omega
        · simp only [List.length_append, List.length_singleton]; omega
        · simp only; omega
        · unfold combineMeasure at hf ⊢
          simp only [List.length_append, List.length_singleton]
          obtain ⟨m, hm⟩ : ∃ m, s.l.length = m + 1 := ⟨s.l.length - 1, by omega⟩
          have e1 : ((s.l.eraseIdx s.idx2).eraseIdx s.idx1).length + 1 = m := by omega
          rw [e1]
          rw [hm] at hf
          have e3 : (m + 1) * (b + 2) ^ 2 = m * (b + 2) ^ 2 + (b ^ 2 + 4 * b + 4) := by ring
          rw [e3] at hf
          have : b + 2 - (s.idx1 + 1) ≤ b + 2 := by omega
          omega

theorem mem_eraseIdx_or {l : List A} {j : ℕ} {x b : A} (hb : l[j]? = some b) (hx : x ∈ l) :
    x = b ∨ x ∈ l.eraseIdx j := by
  obtain ⟨k, hk⟩ := List.mem_iff_getElem?.1 hx
  by_cases hkj : k = j
  · subst hkj; left; rw [hb] at hk; exact (Option.some.inj hk).symm
  · right
    rw [List.mem_eraseIdx_iff_getElem?]
    exact ⟨k, hkj, hk⟩

theorem mem_erase2_or {l : List A} {i j : ℕ} {x a b : A} (hij : i < j) (ha : l[i]? = some a)
    (hb : l[j]? = some b) (hx : x ∈ l) : x = a ∨ x = b ∨ x ∈ (l.eraseIdx j).eraseIdx i := by
  rcases mem_eraseIdx_or hb hx with h | h
  · exact .inr (.inl h)
  · have ha' : (l.eraseIdx j)[i]? = some a := by rw [List.getElem?_eraseIdx_of_lt hij, ha]
    rcases mem_eraseIdx_or ha' h with h | h
    · exact .inl h
    · exact .inr (.inr h)

/-- Element-wise invariant. -/
theorem combineAll_forall (P : A → Prop) (l : List A) (h : ∀ a ∈ l, P a)
    (hm : ∀ a b, P a → P b → touch a b = true → P (merge a b)) {r : List A}
    (hr : combineAll touch merge l = .ok r) : ∀ a ∈ r, P a := by
  obtain ⟨s, hs, rfl, -⟩ := combineRun_inv (fun s : CombineState A => ∀ a ∈ s.l, P a) (by
    intro s s' hs hstep
    rcases combineStep_cases s s' hstep with ⟨rfl, -⟩ | ⟨rfl, -⟩ | ⟨a, b, ha, hb, ht, rfl⟩
    · exact hs
    · exact hs
    · intro x hx
      rw [List.mem_append, List.mem_singleton] at hx
      rcases hx with hx | rfl
      · exact hs x (List.mem_of_mem_eraseIdx (List.mem_of_mem_eraseIdx hx))
      · exact hm a b (hs a (List.mem_of_getElem? ha)) (hs b (List.mem_of_getElem? hb)) ht) _ ⟨l, 0, 1⟩ h hr
  exact hs

/-- Coverage and length. -/
theorem combineAll_cover {X : Type*} (C : A → X → Prop) (l : List A)
    (hm : ∀ a b x, C a x ∨ C b x → C (merge a b) x) {r : List A}
    (hr : combineAll touch merge l = .ok r) :
    (∀ a ∈ l, ∀ x, C a x → ∃ b ∈ r, C b x) ∧ r.length ≤ l.length := by
  obtain ⟨s, hs, rfl, -⟩ := combineRun_inv (fun s : CombineState A => s.idx1 < s.idx2 ∧
      (∀ a ∈ l, ∀ x, C a x → ∃ b ∈ s.l, C b x) ∧ s.l.length ≤ l.length) (by
    rintro s s' ⟨hi, hs, hl⟩ hstep
    rcases combineStep_cases s s' hstep with ⟨rfl, -⟩ | ⟨rfl, -⟩ | ⟨a, b, ha, hb, ht, rfl⟩
    · exact ⟨by simp, hs, hl⟩
    · exact ⟨by simp only; omega, hs, hl⟩
    · have hL := length_erase2 hi (List.getElem?_eq_some_iff.1 hb).1
      refine ⟨by simp, ?_, by simp only [List.length_append, List.length_singleton]; omega⟩
      intro c hc x hx
      obtain ⟨d, hd, hdx⟩ := hs c hc x hx
      simp only [List.mem_append, List.mem_singleton]
      rcases mem_erase2_or hi ha hb hd with rfl | rfl | h
      · exact ⟨_, .inr rfl, hm _ _ x (.inl hdx)⟩
      · exact ⟨_, .inr rfl, hm _ _ x (.inr hdx)⟩
      · exact ⟨d, .inl h, hdx⟩) _ ⟨l, 0, 1⟩ ⟨by simp, fun a ha x hx => ⟨a, ha, hx⟩, le_rfl⟩ hr
  exact hs.2

theorem combineAll_terminates (l : List A) : ∃ r, combineAll touch merge l = .ok r := by
  apply combineRun_terminates (l.length + 2)
  · simp
  · simp
  · simp
  · simp
  · unfold combineMeasure
    simp only [Nat.sub_zero]
    have : (l.length + 2) ^ 3 = l.length * (l.length + 2) ^ 2 + (l.length + 2) * (l.length + 2)
        + ((l.length + 2) * (l.length + 2)) := by ring
    rw [this]
    have h2 : (l.length + 2) ≤ (l.length + 2) * (l.length + 2) := Nat.le_mul_of_pos_left _ (by omega)
    omega

/-- If touching behaves as for intervals on a line, nothing touches at the end. -/
theorem combineAll_pairwise (P : A → Prop) (l : List A) (h : ∀ a ∈ l, P a)
    (hm : ∀ a b, P a → P b → touch a b = true → P (merge a b))
    (hconv : ∀ a b c, P a → P b → P c → touch a b = true → touch c a = false → touch c b = false →
      touch c (merge a b) = false) {r : List A}
    (hr : combineAll touch merge l = .ok r) : r.Pairwise fun a b => touch a b = false := by
  obtain ⟨s, hs, rfl, hend⟩ := combineRun_inv (fun s : CombineState A => s.idx1 < s.idx2 ∧ (∀ a ∈ s.l, P a) ∧
      (∀ k m a b, k < s.idx1 → k < m → s.l[k]? = some a → s.l[m]? = some b → touch a b = false) ∧
      (∀ m a b, s.idx1 < m → m < s.idx2 → s.l[s.idx1]? = some a → s.l[m]? = some b → touch a b = false)) (by
    rintro s s' ⟨hi, hP, h1, h2⟩ hstep
    rcases combineStep_cases s s' hstep with ⟨rfl, h3, h4⟩ | ⟨rfl, a, b, ha, hb, ht⟩ | ⟨a, b, ha, hb, ht, rfl⟩
    · refine ⟨by simp, hP, ?_, ?_⟩
      · intro k m a b hk hkm hka hmb
        simp only at hk
        rcases Nat.lt_or_ge k s.idx1 with h | h
        · exact h1 k m a b h hkm hka hmb
        · obtain rfl : k = s.idx1 := by omega
          have := (List.getElem?_eq_some_iff.1 hmb).1
          exact h2 m a b hkm (by simp only at this; omega) hka hmb
      · intro m a b hm hm' ; simp only at hm hm'; omega
    · refine ⟨by simp only; omega, hP, h1, ?_⟩
      intro m c d hm hm' hc hd
      simp only at hm hm' hc hd
      rcases Nat.lt_or_ge m s.idx2 with h | h
      · exact h2 m c d hm h hc hd
      · obtain rfl : m = s.idx2 := by omega
        rw [ha] at hc; rw [hb] at hd
        cases hc; cases hd
        exact ht
    · refine ⟨by simp, ?_, ?_, ?_⟩
      · intro x hx
        simp only [List.mem_append, List.mem_singleton] at hx
        rcases hx with hx | rfl
        · exact hP x (List.mem_of_mem_eraseIdx (List.mem_of_mem_eraseIdx hx))
        · exact hm a b (hP a (List.mem_of_getElem? ha)) (hP b (List.mem_of_getElem? hb)) ht
      · intro k m c d hk hkm hc hd
        simp only at hk hc hd
        have hL := length_erase2 hi (List.getElem?_eq_some_iff.1 hb).1
        have hjl := (List.getElem?_eq_some_iff.1 hb).1
        have hc' : s.l[k]? = some c := by
          rw [List.getElem?_append_left (by omega), List.getElem?_eraseIdx_of_lt hk,
            List.getElem?_eraseIdx_of_lt (by omega)] at hc
          exact hc
        rcases Nat.lt_or_ge m ((s.l.eraseIdx s.idx2).eraseIdx s.idx1).length with hml | hml
        · rw [List.getElem?_append_left hml] at hd
          -- the element was later than `k` before
          obtain ⟨m', hm', hd'⟩ : ∃ m', k < m' ∧ s.l[m']? = some d := by
            rw [List.getElem?_eraseIdx] at hd
            split_ifs at hd with c1
            · rw [List.getElem?_eraseIdx] at hd
              split_ifs at hd
              · exact ⟨m, hkm, hd⟩
              · exact ⟨m + 1, by omega, hd⟩
            · rw [List.getElem?_eraseIdx] at hd
              split_ifs at hd
              · exact ⟨m + 1, by omega, hd⟩
              · exact ⟨m + 1 + 1, by omega, hd⟩
          exact h1 k m' c d hk hm' hc' hd'
        · rw [List.getElem?_append_right hml] at hd
          have : m - ((s.l.eraseIdx s.idx2).eraseIdx s.idx1).length = 0 := by
            have := (List.getElem?_eq_some_iff.1 hd).1
            simpa using this
          rw [this] at hd
          simp only [List.getElem?_cons_zero, Option.some.injEq] at hd
          subst hd
          exact hconv a b c (hP a (List.mem_of_getElem? ha)) (hP b (List.mem_of_getElem? hb))
            (hP c (List.mem_of_getElem? hc')) ht (h1 k s.idx1 c a hk hk hc' ha)
            (h1 k s.idx2 c b hk (by omega) hc' hb)
      · intro m c d hm hm'; simp only at hm hm'; omega) _ ⟨l, 0, 1⟩
    ⟨by simp, h, by simp, by intro m a b h1 h2; simp only at h1 h2; omega⟩ hr
  rw [List.pairwise_iff_getElem]
  intro i j hi hj hij
  exact hs.2.2.1 i j _ _ (by omega) hij (List.getElem?_eq_getElem hi) (List.getElem?_eq_getElem hj)

end Loop

/-! ### The combined interval -/

section Merge

variable {n : ℕ} {K : Type*} [Field K] [LinearOrder K] [IsStrictOrderedRing K]

theorem hull_mem {A B : Box n K} {x : Fin n → K} (h : A.Mem x ∨ B.Mem x) : (Box.hull A B).Mem x := by
  intro i
  simp only [Box.hull, min_le_iff, le_max_iff]
  rcases h with h | h
  · exact ⟨.inl (h i).1, .inl (h i).2⟩
  · exact ⟨.inr (h i).1, .inr (h i).2⟩

theorem hull_within {A B C : Box n K} (hA : A.Within C) (hB : B.Within C) : (Box.hull A B).Within C :=
  fun i => ⟨le_min (hA i).1 (hB i).1, max_le (hA i).2 (hB i).2⟩

theorem hull_ordered {A B : Box n K} (hA : A.Ordered) : (Box.hull A B).Ordered :=
  fun i => (min_le_left _ _).trans ((hA i).trans (le_max_left _ _))

/-- In exact arithmetic the combined sub-interval maps onto the hull. -/
theorem combinedSub_spec (O N : Box n K) (hO : O.Ordered) (hN : N.Ordered) (hw : N.Within O) :
    (combinedSub O O N N).Ordered ∧ (combinedSub O O N N).Within (Box.unit n K) ∧
      N = ⟨O.map (combinedSub O O N N).lo, O.map (combinedSub O O N N).hi⟩ := by
  have key : ∀ i, -1 ≤ (combinedSub O O N N).lo i ∧ (combinedSub O O N N).lo i ≤ (combinedSub O O N N).hi i ∧
      (combinedSub O O N N).hi i ≤ 1 ∧ O.map (combinedSub O O N N).lo i = N.lo i ∧
      O.map (combinedSub O O N N).hi i = N.hi i := by
    intro i
    have h1 := hO i
    have h2 := hN i
    have h3 := hw i
    by_cases he : O.hi i = O.lo i
    · have e1 : N.lo i = O.lo i := le_antisymm (h2.trans (h3.2.trans he.le)) h3.1
      have e2 : N.hi i = O.hi i := le_antisymm h3.2 (by rw [he, ← e1]; exact h2)
      simp only [combinedSub, Box.map, e1, e2, if_true]
      refine ⟨le_rfl, by linarith [zero_lt_one (α := K)], le_rfl, by ring, by ring⟩
    · have hlt : 0 < O.hi i - O.lo i := sub_pos.2 (lt_of_le_of_ne h1 (Ne.symm he))
      have elo : (combinedSub O O N N).lo i = (2 * N.lo i - O.lo i - O.hi i) / (O.hi i - O.lo i) := by
        simp only [combinedSub, if_neg he]
        split_ifs with h
        · rw [← h, eq_div_iff hlt.ne']; ring
        · rfl
      have ehi : (combinedSub O O N N).hi i = (2 * N.hi i - O.lo i - O.hi i) / (O.hi i - O.lo i) := by
        simp only [combinedSub, if_neg he]
        split_ifs with h
        · rw [← h, eq_div_iff hlt.ne']; ring
        · rfl
      simp only [Box.map, elo, ehi]
      refine ⟨?_, ?_, ?_, ?_, ?_⟩
      · rw [le_div_iff₀ hlt]; linarith [h3.1]
      · exact div_le_div_of_nonneg_right (by linarith) hlt.le
      · rw [div_le_iff₀ hlt]; linarith [h3.2]
      · field_simp; ring
      · field_simp; ring
  refine ⟨fun i => (key i).2.1, fun i => ⟨(key i).1, (key i).2.2.1⟩, ?_⟩
  ext i
  · exact (key i).2.2.2.1.symm
  · exact (key i).2.2.2.2.symm

theorem copy_of_not_final (t : TrackedInterval n K) (h : t.finalStep = false) :
    t.copy.finalStep = false ∧ t.copy.interval = t.interval ∧ t.copy.transforms = t.transforms ∧
      t.copy.empty = t.empty ∧ t.copy.nextTransformPoints = t.nextTransformPoints ∧
      t.copy.possibleDuplicateRoots = [] ∧ t.copy.canThrowOutFinalStep = false := by
  simp [TrackedInterval.copy, h, TrackedInterval.new]

theorem addTransform_finalStep (t : TrackedInterval n K) (s : Box n K) :
    (t.addTransform s).finalStep = t.finalStep := by
  unfold TrackedInterval.addTransform
  split_ifs <;> rfl

/-- The interval of a combined object is the hull (outside the final step, where combining never happens). -/
theorem combineIntervals_box (orig r1 r2 : TrackedInterval n K) (hf : orig.finalStep = false) :
    (combineIntervals orig r1 r2).getIntervalForCombining
      = Box.hull r1.getIntervalForCombining r2.getIntervalForCombining := by
  obtain ⟨h1, -⟩ := copy_of_not_final orig hf
  unfold TrackedInterval.getIntervalForCombining combineIntervals
  simp only [h1, Bool.false_eq_true, if_false, addTransform_finalStep]
  rfl

theorem combineIntervals_reRun (orig r1 r2 : TrackedInterval n K) :
    (combineIntervals orig r1 r2).reRun = true := rfl

theorem Tracks.comb_ordered {B : Box n K} {t : TrackedInterval n K} (h : Tracks B t) :
    t.getIntervalForCombining.Ordered := by
  unfold TrackedInterval.getIntervalForCombining
  split_ifs with hf
  · exact (h.pre hf).1
  · exact h.ordered

/-- The combined object, in exact arithmetic, is the original one with one more transform. -/
theorem combineIntervals_spec (orig r1 r2 : TrackedInterval n K) (hf : orig.finalStep = false)
    (ho : Tracks (Box.unit n K) orig) (h1 : Tracks (Box.unit n K) r1) (h2 : Tracks (Box.unit n K) r2)
    (w1 : r1.getIntervalForCombining.Within orig.interval)
    (w2 : r2.getIntervalForCombining.Within orig.interval) :
    ∃ s : Box n K, s.Ordered ∧ s.Within (Box.unit n K) ∧
      combineIntervals orig r1 r2 = { orig.copy.applySub s with reRun := true } := by
  obtain ⟨c1, c2, -⟩ := copy_of_not_final orig hf
  have eo : orig.getFinalInterval = orig.interval := by
    rw [ho.final.1]; simp [TrackedInterval.getIntervalForCombining, hf]
  obtain ⟨s1, s2, s3⟩ := combinedSub_spec orig.interval
    (Box.hull r1.getIntervalForCombining r2.getIntervalForCombining) ho.ordered
    (hull_ordered h1.comb_ordered) (hull_within w1 w2)
  refine ⟨_, s1, s2, ?_⟩
  unfold combineIntervals
  simp only [c1, Bool.false_eq_true, if_false, eo, h1.final.1, h2.final.1]
  set s := combinedSub orig.interval orig.interval
    (Box.hull r1.getIntervalForCombining r2.getIntervalForCombining)
    (Box.hull r1.getIntervalForCombining r2.getIntervalForCombining) with hs
  have e : orig.copy.addTransform s = orig.copy.applySub s := by
    rcases TrackedInterval.addTransform_cases orig.copy s s2 with ⟨⟨i, hi⟩, -⟩ | ⟨s', -, -, he, e⟩
    · exact absurd (s1 i) (not_le.2 hi)
    · rw [e, he s1]
  rw [e]
  have e2 : (orig.copy.applySub s).interval
      = Box.hull r1.getIntervalForCombining r2.getIntervalForCombining := by
    rw [TrackedInterval.applySub_interval _ s s1 s2, c2]; exact s3.symm
  rw [← e2]

end Merge

end YRoots
