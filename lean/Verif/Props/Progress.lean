import Verif.Props.Subdivide
import Verif.Proofs.Solver
import Mathlib.Data.Rat.Floor

/-!
# Property C48: what a subdivision does to the box

Each dimension in which a box is subdivided is cut at the recorded split point, which is slightly off centre for the first
cut and the centre afterwards; the other dimensions are left alone.
-/

set_option linter.unusedSectionVars false
set_option linter.unusedVariables false

namespace YRoots

variable {n : ℕ} {K : Type*} [Field K] [LinearOrder K] [IsStrictOrderedRing K] [FloorSemiring K]

/-- Dimension `d` of `t` is one of the two pieces of dimension `d` of `ti`, cut at the split point `ti` has recorded for
it, and the split point is now the centre. -/
def CutIn (ti t : TrackedInterval n K) (d : Fin n) : Prop :=
  let m := ti.interval.lo d + (1 + ti.nextTransformPoints d) / 2 * (ti.interval.hi d - ti.interval.lo d)
  t.nextTransformPoints d = 0 ∧
    (t.interval.lo d = ti.interval.lo d ∧ t.interval.hi d = m ∨ t.interval.lo d = m ∧ t.interval.hi d = ti.interval.hi d)

/-- Dimension `d` of `t` and its split point are those of `ti`. -/
def SameIn (ti t : TrackedInterval n K) (d : Fin n) : Prop :=
  t.nextTransformPoints d = ti.nextTransformPoints d ∧ t.interval.lo d = ti.interval.lo d ∧
    t.interval.hi d = ti.interval.hi d

private theorem splitInterval_mids (mid : Fin n → K) (d : Fin n) (b : Bool) (t : TrackedInterval n K) :
    (splitInterval mid d b t).nextTransformPoints = Function.update t.nextTransformPoints d 0 := by
  unfold splitInterval
  have h1 : ∀ (u : TrackedInterval n K) (s : Box n K), (u.addTransform s).nextTransformPoints = u.nextTransformPoints := by
    intro u s
    unfold TrackedInterval.addTransform
    split_ifs <;> rfl
  have h2 : t.copy.nextTransformPoints = t.nextTransformPoints := by
    unfold TrackedInterval.copy; split_ifs <;> rfl
  simp only [h1, h2]

private theorem split_aux (ti : TrackedInterval n K) (hmid : InCube ti.nextTransformPoints) (dims : List (Fin n))
    (hnd : dims.Nodup) (l : List (TrackedInterval n K)) (S : Finset (Fin n)) (hS : ∀ d ∈ dims, d ∉ S)
    (hl : ∀ t ∈ l, (∀ d ∈ S, CutIn ti t d) ∧ ∀ d, d ∉ S → SameIn ti t d) :
    ∀ t ∈ splitAll (splitInterval ti.nextTransformPoints) dims l,
      (∀ d ∈ S ∪ dims.toFinset, CutIn ti t d) ∧ ∀ d, d ∉ S ∪ dims.toFinset → SameIn ti t d := by
  induction dims generalizing l S with
  | nil => simpa [splitAll] using hl
  | cons d ds ih =>
    rw [List.nodup_cons] at hnd
    have hdS := hS d List.mem_cons_self
    intro t ht
    have := ih hnd.2 (l.flatMap fun a => [splitInterval ti.nextTransformPoints d false a,
      splitInterval ti.nextTransformPoints d true a]) (insert d S) (by
        intro e he
        rw [Finset.mem_insert, not_or]
        exact ⟨fun h => hnd.1 (h ▸ he), hS e (List.mem_cons_of_mem _ he)⟩) (by
        intro u hu
        rw [List.mem_flatMap] at hu
        obtain ⟨a, ha, hua⟩ := hu
        obtain ⟨b, rfl⟩ : ∃ b, u = splitInterval ti.nextTransformPoints d b a := by
          simp only [List.mem_cons, List.not_mem_nil, or_false] at hua
          rcases hua with h | h
          · exact ⟨false, h⟩
          · exact ⟨true, h⟩
        obtain ⟨h1, h2⟩ := hl a ha
        have hI := (splitInterval_spec _ hmid d b a).2
        have hM := splitInterval_mids ti.nextTransformPoints d b a
        have keep : ∀ e, e ≠ d → (splitInterval ti.nextTransformPoints d b a).nextTransformPoints e = a.nextTransformPoints e
            ∧ (splitInterval ti.nextTransformPoints d b a).interval.lo e = a.interval.lo e
            ∧ (splitInterval ti.nextTransformPoints d b a).interval.hi e = a.interval.hi e := by
          intro e he
          rw [hI, hM]
          exact ⟨Function.update_of_ne he _ _, (halfBox_other _ d b _ e he).1, (halfBox_other _ d b _ e he).2⟩
        constructor
        · intro e he
          rw [Finset.mem_insert] at he
          by_cases hed : e = d
          · subst hed
            obtain ⟨g1, g2, g3⟩ := h2 e hdS
            have hm : a.interval.map ti.nextTransformPoints e = ti.interval.lo e +
                (1 + ti.nextTransformPoints e) / 2 * (ti.interval.hi e - ti.interval.lo e) := by
              unfold Box.map; rw [g2, g3]; ring
            unfold CutIn
            rw [hI, hM, (halfBox_same _ e b _).1, (halfBox_same _ e b _).2, hm, g2, g3, Function.update_self]
            cases b
            · exact ⟨rfl, .inl ⟨rfl, rfl⟩⟩
            · exact ⟨rfl, .inr ⟨rfl, rfl⟩⟩
          · obtain ⟨k1, k2, k3⟩ := keep e hed
            have := h1 e (he.resolve_left hed)
            unfold CutIn at this ⊢
            rw [k1, k2, k3]
            exact this
        · intro e he
          rw [Finset.mem_insert, not_or] at he
          obtain ⟨k1, k2, k3⟩ := keep e he.1
          have := h2 e he.2
          unfold SameIn at this ⊢
          rw [k1, k2, k3]
          exact this) t (by
        unfold splitAll at ht ⊢
        rw [List.foldl_cons] at ht
        exact ht)
    rw [List.toFinset_cons, Finset.union_insert, ← Finset.insert_union]
    exact this

/-- **C48, the cuts.**  Whatever order the dimensions are enumerated in, each child of a subdivided box is, in every
dimension in which the polynomials are subdivided, one of the two pieces at the recorded split point, with the split point
reset to the centre; in all other dimensions it is the box itself with its split point unchanged. -/
theorem C48_cuts {argsort : List ℕ → List ℕ} (ha : ∀ l, (argsort l).Perm (List.range l.length)) (hn : 0 < n)
    (setIter : Finset (Fin n) → List (Fin n)) (hset : ∀ s, (setIter s).Perm s.toList)
    (Ms : Fin n → Tensor n K) (errors : Fin n → K) (ti : TrackedInterval n K) (exact : Bool) (level : ℕ)
    (hmid : ∀ d, |ti.nextTransformPoints d| ≤ 1) (cs : List (Child n K))
    (h : getSubdivisionIntervals argsort setIter Ms errors ti exact level = .ok cs) :
    ∀ c ∈ cs, ∀ i d, (d ∈ getSubdivisionDims argsort Ms ti level i → CutIn ti c.ti d) ∧
      (d ∉ getSubdivisionDims argsort Ms ti level i → SameIn ti c.ti d) := by
  unfold getSubdivisionIntervals at h
  simp only at h
  split_ifs at h
  cases hm : (List.finRange n).mapM fun i => polyChildren ti.nextTransformPoints exact (Ms i) (errors i)
      (getSubdivisionDims argsort Ms ti level i) with
  | error e => rw [hm] at h; cases h
  | ok allP =>
    rw [hm] at h
    intro c hc i d
    have hc' := zipChildren_ti h hc
    set D := Finset.univ.biUnion fun i => (getSubdivisionDims argsort Ms ti level i).toFinset with hD
    have hmem : d ∈ setIter D ↔ d ∈ getSubdivisionDims argsort Ms ti level i := by
      rw [(hset D).mem_iff, Finset.mem_toList, hD, biUnion_orders ha hn, List.mem_toFinset]
      exact (getSubdivisionDims_perm ha Ms ti level i).mem_iff.symm
    have := split_aux ti hmid (setIter D) ((hset D).nodup_iff.2 D.nodup_toList) [ti] ∅ (by simp) (by
      intro t ht
      rw [List.mem_singleton] at ht
      subst ht
      exact ⟨by simp, fun _ _ => ⟨rfl, rfl, rfl⟩⟩) c.ti hc'
    rw [Finset.empty_union] at this
    exact ⟨fun h1 => this.1 d (List.mem_toFinset.2 (hmem.2 h1)),
      fun h1 => this.2 d (fun h2 => h1 (hmem.1 (List.mem_toFinset.1 h2)))⟩

/-- The split points of a run: the initial, slightly off-centre one, or the centre. -/
def RunMids (ti : TrackedInterval n K) : Prop :=
  ∀ d, ti.nextTransformPoints d = 394555475981047 / 10 ^ 16 ∨ ti.nextTransformPoints d = 0

theorem RunMids.le {ti : TrackedInterval n K} (h : RunMids ti) (d : Fin n) :
    0 ≤ ti.nextTransformPoints d ∧ ti.nextTransformPoints d ≤ 1 / 25 := by
  rcases h d with h | h <;> rw [h] <;> norm_num

/-- **C48, shrinking.**  With the split points of a run, each child is at most 0.52 times as wide as the box in every
dimension that is subdivided, and its split points are again those of a run. -/
theorem C48_shrink {argsort : List ℕ → List ℕ} (ha : ∀ l, (argsort l).Perm (List.range l.length)) (hn : 0 < n)
    (setIter : Finset (Fin n) → List (Fin n)) (hset : ∀ s, (setIter s).Perm s.toList)
    (Ms : Fin n → Tensor n K) (errors : Fin n → K) (ti : TrackedInterval n K) (exact : Bool) (level : ℕ)
    (hmid : RunMids ti) (ho : ti.interval.Ordered) (cs : List (Child n K))
    (h : getSubdivisionIntervals argsort setIter Ms errors ti exact level = .ok cs) :
    ∀ c ∈ cs, RunMids c.ti ∧ ∀ i, ∀ d ∈ getSubdivisionDims argsort Ms ti level i,
      c.ti.interval.hi d - c.ti.interval.lo d ≤ 52 / 100 * (ti.interval.hi d - ti.interval.lo d) := by
  have key := C48_cuts ha hn setIter hset Ms errors ti exact level
    (fun d => abs_le.2 ⟨by linarith [(hmid.le d).1], by linarith [(hmid.le d).2]⟩) cs h
  intro c hc
  refine ⟨fun d => ?_, fun i d hd => ?_⟩
  · by_cases hd : d ∈ getSubdivisionDims argsort Ms ti level ⟨0, hn⟩
    · exact .inr ((key c hc _ d).1 hd).1
    · rw [((key c hc _ d).2 hd).1]
      exact hmid d
  · obtain ⟨-, hcut⟩ := (key c hc i d).1 hd
    obtain ⟨m1, m2⟩ := hmid.le d
    have w := sub_nonneg.2 (ho d)
    have b1 : (1 + ti.nextTransformPoints d) / 2 * (ti.interval.hi d - ti.interval.lo d)
        ≤ 52 / 100 * (ti.interval.hi d - ti.interval.lo d) :=
      mul_le_mul_of_nonneg_right (by linarith) w
    have b2 : 48 / 100 * (ti.interval.hi d - ti.interval.lo d)
        ≤ (1 + ti.nextTransformPoints d) / 2 * (ti.interval.hi d - ti.interval.lo d) :=
      mul_le_mul_of_nonneg_right (by linarith) w
    rcases hcut with ⟨e1, e2⟩ | ⟨e1, e2⟩ <;> rw [e1, e2] <;> linarith

/-- **C48, in between.**  A box starts with the split points of a run; copying, starting the final step and the zoom loop
leave them as they are. -/
theorem C48_kept : (∀ B : Box n K, RunMids (TrackedInterval.new B)) ∧
    (∀ ti : TrackedInterval n K, ti.copy.nextTransformPoints = ti.nextTransformPoints ∧
      ti.startFinalStep.nextTransformPoints = ti.nextTransformPoints) ∧
    ∀ (svd : SVD n K) (exact : Bool) (maxZoomCount fuel : ℕ) (Ms : Fin n → Tensor n K) (errors : Fin n → K)
      (ti : TrackedInterval n K) (ls : Fin n → K) (k : ℕ) (z : ZoomResult n K),
      zoomLoop svd exact maxZoomCount fuel Ms errors ti ls k = .ok z →
      z.ti.nextTransformPoints = ti.nextTransformPoints := by
  have hadd : ∀ (u : TrackedInterval n K) (s : Box n K), (u.addTransform s).nextTransformPoints = u.nextTransformPoints := by
    intro u s
    unfold TrackedInterval.addTransform
    split_ifs <;> rfl
  have hiter : ∀ (svd : SVD n K) (exact : Bool) (Ms : Fin n → Tensor n K) (errors : Fin n → K)
      (ti : TrackedInterval n K) (z : ZoomResult n K), zoomInOnIntervalIter svd Ms errors ti exact = .ok z →
      z.ti.nextTransformPoints = ti.nextTransformPoints := by
    intro svd exact Ms errors ti z h
    unfold zoomInOnIntervalIter at h
    simp only at h
    split_ifs at h
    · cases h; rfl
    · cases h; rfl
    all_goals
      split at h
      · cases h
      · cases h; exact hadd _ _
  refine ⟨fun B d => .inl rfl, fun ti => ⟨?_, rfl⟩, ?_⟩
  · unfold TrackedInterval.copy; split_ifs <;> rfl
  · intro svd exact maxZoomCount fuel
    induction fuel with
    | zero => intro _ _ _ _ _ _ h; cases h
    | succ fuel ih =>
      intro Ms errors ti ls k z h
      unfold zoomLoop at h
      split at h
      · cases h
      · rename_i r hr
        have h0 := hiter _ _ _ _ _ _ hr
        simp only at h
        split_ifs at h
        all_goals first
          | exact (ih _ _ _ _ _ _ h).trans h0
          | (cases h; exact h0)

/-- The hypotheses of C48 are met by two quadratic polynomials on the unit square: the subdivision returns, and both
dimensions are subdivided. -/
example : ∃ cs, getSubdivisionIntervals argsortDistinct (fun s => s.sort (· ≤ ·))
      (fun _ : Fin 2 => (⟨fun _ => 3, fun _ => 1⟩ : Tensor 2 ℚ)) (fun _ => 0) (TrackedInterval.new (Box.unit 2 ℚ)) true 0 = .ok cs ∧
    RunMids (TrackedInterval.new (Box.unit 2 ℚ)) ∧
    (∀ l, (argsortDistinct l).Perm (List.range l.length)) ∧ (∀ s : Finset (Fin 2), (s.sort (· ≤ ·)).Perm s.toList) ∧
    ∀ i d, d ∈ getSubdivisionDims argsortDistinct (fun _ : Fin 2 => (⟨fun _ => 3, fun _ => 1⟩ : Tensor 2 ℚ))
      (TrackedInterval.new (Box.unit 2 ℚ)) 0 i := by
  have hd : ∀ i d, d ∈ getSubdivisionDims argsortDistinct (fun _ : Fin 2 => (⟨fun _ => 3, fun _ => 1⟩ : Tensor 2 ℚ))
      (TrackedInterval.new (Box.unit 2 ℚ)) 0 i := by decide +kernel
  obtain ⟨cs, h, -⟩ := C22_subdivision_exact_partial argsort_perm (by norm_num) (fun s : Finset (Fin 2) => s.sort (· ≤ ·)) (fun _ => rfl)
    (fun _ : Fin 2 => (⟨fun _ => 3, fun _ => 1⟩ : Tensor 2 ℚ)) (fun i j => by norm_num) (fun _ => 0)
    (TrackedInterval.new (Box.unit 2 ℚ)) (fun i => by norm_num [TrackedInterval.new, Box.unit])
    (fun d => by norm_num [TrackedInterval.new, TrackedInterval.splitPoint, abs_of_pos]) 0
    (.inr fun i h => by have := hd i 0; rw [h] at this; simp at this)
  exact ⟨cs, h, C48_kept.1 _, argsort_perm, fun s => s.sort_perm_toList _, hd⟩

end YRoots
