import Verif.Proofs.Subdivide
import Verif.Proofs.EvalC
import Mathlib.Tactic.Positivity

/-!
# Properties C22, C23, C24, C25: subdivision

Specification: `Box.map B` maps `[-1,1]^n` onto the box `B`; `Tensor.eval` is the value of the polynomial;
a subdivision is right if the children's boxes are the images of sub-boxes of the unit cube, and the
children's polynomials agree with the parent's on these sub-boxes up to the added error.
-/

set_option linter.unusedVariables false

namespace YRoots

/-! ### C24 -/

/-- **C24**: for any list of distinct dimensions, `getInverseOrder` is a permutation of `0..2^k-1`, and it takes
the children obtained by splitting along `order` to those obtained by splitting along the sorted list - for
*any* splitting function whose actions along different dimensions commute. -/
theorem C24_inverseOrder (order : List ℕ) (hnd : order.Nodup) :
    (getInverseOrder order).Perm (List.range (2 ^ order.length)) ∧
    ∀ (A : Type) (f : ℕ → Bool → A → A),
      (∀ d d' b b' x, d ≠ d' → f d b (f d' b' x) = f d' b' (f d b x)) → ∀ x : A,
      pick (splitAll f order [x]) (getInverseOrder order) = .ok (splitAll f order.mergeSort [x]) := by
  constructor
  · rw [getInverseOrder_eq]
    have := scatter_perm _ (newOrder_perm order)
    rwa [newOrder_length] at this
  · exact fun A f hf x => pick_inverse f hf order hnd x

/-- The example of the docstring (lines 986-989): dimensions 0, 3, 1 in this order. -/
example : getInverseOrder [0, 3, 1] = [0, 2, 1, 3, 4, 6, 5, 7] := by decide +kernel

/-- A splitting function meeting the hypothesis: record the side chosen in each dimension. -/
example : ∀ (d d' : ℕ) (b b' : Bool) (x : ℕ → Bool), d ≠ d' →
    Function.update (Function.update x d' b') d b = Function.update (Function.update x d b) d' b' :=
  fun d d' b b' x h => (Function.update_comm h b b' x).symm

/-! ### C25 -/

section C25

variable {n : ℕ} {K : Type*} [Field K] [LinearOrder K] [IsStrictOrderedRing K]

/-- **C25**: all polynomials are split in the same dimensions (each once), so the `ValueError` of line 1079 is
never raised; and there is at least one dimension if the level is above 5, or some dimension is not
`np.isclose` to a point, or some dimension is considered that has positive length. -/
theorem C25_dims {argsort : List ℕ → List ℕ} (ha : ∀ l, (argsort l).Perm (List.range l.length)) (hn : 0 < n)
    (Ms : Fin n → Tensor n K) (ti : TrackedInterval n K) (level : ℕ) :
    (∃ dims : List (Fin n), dims.Nodup ∧ ∀ i, (getSubdivisionDims argsort Ms ti level i).Perm dims) ∧
    ((level > 5 ∨ ∃ d, ti.interval.lo d ≤ ti.interval.hi d ∧
        1 / 10 ^ 8 + 1 / 10 ^ 5 * |ti.interval.hi d| < |ti.interval.lo d - ti.interval.hi d|) →
      ∀ i, getSubdivisionDims argsort Ms ti level i ≠ []) := by
  have hp := getSubdivisionDims_perm (K := K) ha Ms ti level
  refine ⟨⟨subDims Ms ti level, subDims_nodup hn Ms ti level, hp⟩, ?_⟩
  intro h i he
  have h0 : subDims Ms ti level = [] := by
    have := hp i
    rw [he] at this
    exact this.symm.eq_nil
  unfold subDims at h0
  split_ifs at h0 with hl
  · exact (considerDims_spec hn ti.interval).2 h0
  · rcases h with h | ⟨d, hd, hc⟩
    · exact hl h
    · have hmem : d ∈ considerDims ti.interval := by
        apply considerDims_mem
        unfold npIsclose
        simpa using hc
      have hpos : ti.interval.lo d < ti.interval.hi d := by
        rcases hd.lt_or_eq with h | h
        · exact h
        · rw [h, sub_self, abs_zero] at hc
          have : (0 : K) ≤ 1 / 10 ^ 8 + 1 / 10 ^ 5 * |ti.interval.hi d| := by positivity
          exact absurd hc (not_lt.2 this)
      exact (degreeDims_spec Ms _ (longDims_nodup _ _ (considerDims_spec hn ti.interval).1)).2.2
        (longDims_ne_nil _ _ d hmem hpos) h0

/-- The `ValueError` of line 1079 is never raised. -/
theorem C25_no_valueError {argsort : List ℕ → List ℕ} (ha : ∀ l, (argsort l).Perm (List.range l.length))
    (hn : 0 < n) (Ms : Fin n → Tensor n K) (ti : TrackedInterval n K) (level : ℕ) (i : Fin n) :
    (Finset.univ.biUnion fun i => (getSubdivisionDims argsort Ms ti level i).toFinset).card
      = (getSubdivisionDims argsort Ms ti level i).length := by
  rw [biUnion_orders ha hn, List.toFinset_card_of_nodup (subDims_nodup hn Ms ti level),
    (getSubdivisionDims_perm ha Ms ti level i).length_eq]

/-- A box `[0,1e-9] × [0,0]`, which is not a "point" for the solver. -/
def exTiny : TrackedInterval 2 ℚ := TrackedInterval.new ⟨![0, 0], ![1 / 10 ^ 9, 0]⟩

/-- **C25, limit**: a box that is not a point (so the solver would go on subdividing it) but is `np.isclose` to one
in every dimension, with the last dimension of length zero, has *no* subdivision dimension at
levels ≤ 5, and `getSubdivisionIntervals` raises `IndexError`. -/
theorem C25_no_dims_false :
    exTiny.isPoint = false ∧
    (∀ i, getSubdivisionDims argsortDistinct (fun _ => ⟨fun _ => 2, fun _ => 1⟩) exTiny 0 i = []) ∧
    (getSubdivisionIntervals argsortDistinct (fun s => s.sort (· ≤ ·)) (fun _ => ⟨fun _ => 2, fun _ => 1⟩)
      (fun _ => 0) exTiny true 0).toOption.isNone = true := by
  refine ⟨by decide +kernel, by decide +kernel, by decide +kernel⟩

/-- The hypothesis of `C25_dims` is met by the initial box. -/
example : ∃ d, (TrackedInterval.new (Box.unit 2 ℚ)).interval.lo d ≤ (TrackedInterval.new (Box.unit 2 ℚ)).interval.hi d ∧
    1 / 10 ^ 8 + 1 / 10 ^ 5 * |(TrackedInterval.new (Box.unit 2 ℚ)).interval.hi d|
      < |(TrackedInterval.new (Box.unit 2 ℚ)).interval.lo d - (TrackedInterval.new (Box.unit 2 ℚ)).interval.hi d| :=
  ⟨0, by decide +kernel⟩

end C25

/-! ### C22 -/

section C22

variable {n : ℕ} {K : Type*} [Field K] [LinearOrder K] [IsStrictOrderedRing K]

theorem splitBoxes_sub (mid : Fin n → K) (hmid : InCube mid) (dims : List (Fin n)) (S : Box n K)
    (h : S.Ordered) : ∀ C ∈ splitAll (halfBox mid) dims [S], C.Ordered ∧ C.Within S := by
  induction dims generalizing S with
  | nil =>
    intro C hC
    simp only [splitAll, List.foldl_nil, List.mem_singleton] at hC
    subst hC
    exact ⟨h, fun i => ⟨le_rfl, le_rfl⟩⟩
  | cons d ds ih =>
    intro C hC
    rw [splitAll_cons, List.mem_append] at hC
    rcases hC with hC | hC
    · obtain ⟨h1, h2⟩ := halfBox_ok mid hmid d false S h
      exact ⟨(ih _ h1 C hC).1, within_trans (ih _ h1 C hC).2 h2⟩
    · obtain ⟨h1, h2⟩ := halfBox_ok mid hmid d true S h
      exact ⟨(ih _ h1 C hC).1, within_trans (ih _ h1 C hC).2 h2⟩

theorem splitBoxes_disjoint (mid : Fin n → K) (hmid : InCube mid) (dims : List (Fin n)) (S : Box n K)
    (h : S.Ordered) : (splitAll (halfBox mid) dims [S]).Pairwise fun A B => ∃ d, A.hi d ≤ B.lo d := by
  induction dims generalizing S with
  | nil => simp [splitAll]
  | cons d ds ih =>
    rw [splitAll_cons, List.pairwise_append]
    obtain ⟨h1, -⟩ := halfBox_ok mid hmid d false S h
    obtain ⟨h2, -⟩ := halfBox_ok mid hmid d true S h
    refine ⟨ih _ h1, ih _ h2, fun A hA B hB => ⟨d, ?_⟩⟩
    have hA' := ((splitBoxes_sub mid hmid ds _ h1 A hA).2 d).2
    have hB' := ((splitBoxes_sub mid hmid ds _ h2 B hB).2 d).1
    rw [(halfBox_same mid d false S).2] at hA'
    rw [(halfBox_same mid d true S).1] at hB'
    simp only [Bool.false_eq_true, if_false, if_true] at hA' hB'
    exact hA'.trans hB'

theorem forall₂_pairwise {A B : Type*} {R : A → B → Prop} {P : A → A → Prop} {Q : B → B → Prop}
    {l : List A} {m : List B} (h : List.Forall₂ R l m) (hQ : m.Pairwise Q)
    (hPQ : ∀ a a' b b', R a b → R a' b' → Q b b' → P a a') : l.Pairwise P := by
  induction h with
  | nil => exact .nil
  | cons hab hrest ih =>
    rw [List.pairwise_cons] at hQ ⊢
    refine ⟨fun a' ha' => ?_, ih hQ.2⟩
    obtain ⟨b', hb', hr⟩ : ∃ b' ∈ _, R a' b' := by
      obtain ⟨j, hj, rfl⟩ := List.mem_iff_getElem.1 ha'
      have hj' := hrest.length_eq ▸ hj
      exact ⟨_, List.getElem_mem hj', List.Forall₂.get hrest hj hj'⟩
    exact hPQ _ _ _ _ hab hr (hQ.1 b' hb')

/-- What is claimed of the children `cs` of the box `ti` with polynomials `Ms` and errors `errors`. -/
structure GoodSubdivision (Ms : Fin n → Tensor n K) (errors : Fin n → K) (ti : TrackedInterval n K)
    (cs : List (Child n K)) : Prop where
  /-- the children cover the parent -/
  cover : ∀ y, ti.interval.Mem y → ∃ c ∈ cs, c.ti.interval.Mem y
  /-- different children overlap at most on their boundary -/
  disjoint : cs.Pairwise fun c c' => ∃ d, c.ti.interval.hi d ≤ c'.ti.interval.lo d
  /-- each child is the image of a sub-box `S` of `[-1,1]^n`, and its polynomials are the parent's on `S`
  up to the increase of the error -/
  child : ∀ c ∈ cs, ∃ S : Box n K, S.Ordered ∧ S.Within (Box.unit n K) ∧
    (∀ x, c.ti.interval.map x = ti.interval.map (S.map x)) ∧
    ∀ i x, InCube x → |(Ms i).eval (S.map x) - (c.Ms i).eval x| ≤ c.errors i - errors i

/-- **C22**, relative to the single-axis error claim C09 (`TransformOK`): for every tuple of arrays, every split
point in `[-1,1]`, every way `np.argsort` may order ties, every dimension and level, if Python iterates the set
of dimensions in ascending order then `getSubdivisionIntervals` returns `2^k` children forming a good
subdivision (`k` the number of dimensions split; `k ≥ 1` unless the dimension is 1, see C25). -/
theorem C22_subdivision_of_transformOK {N : ℕ} {exact : Bool} (hT : TransformOK K n exact N)
    {argsort : List ℕ → List ℕ} (ha : ∀ l, (argsort l).Perm (List.range l.length)) (hn : 0 < n)
    (setIter : Finset (Fin n) → List (Fin n)) (hset : ∀ s, setIter s = s.sort (· ≤ ·))
    (Ms : Fin n → Tensor n K) (hM : Fits N Ms) (errors : Fin n → K) (ti : TrackedInterval n K)
    (hti : ti.interval.Ordered) (hmid : ∀ d, |ti.nextTransformPoints d| ≤ 1) (level : ℕ)
    (hne : n = 1 ∨ ∀ i, getSubdivisionDims argsort Ms ti level i ≠ []) :
    ∃ cs, getSubdivisionIntervals argsort setIter Ms errors ti exact level = .ok cs ∧
      (∀ i, cs.length = 2 ^ (getSubdivisionDims argsort Ms ti level i).length) ∧
      GoodSubdivision Ms errors ti cs := by
  have hset' : setIter = fun s => s.sort (· ≤ ·) := funext hset
  have hp := getSubdivisionDims_perm ha Ms ti level
  have hne' : n = 1 ∨ subDims Ms ti level ≠ [] := by
    refine hne.imp id fun h h' => h ⟨0, hn⟩ ?_
    have := hp ⟨0, hn⟩
    rw [h'] at this
    exact this.eq_nil
  obtain ⟨cs, hcs, hR⟩ := getSubdivisionIntervals_spec hT ha hn hM errors ti hmid level hne'
  rw [hset']
  refine ⟨cs, hcs, ?_, ?_, ?_, ?_⟩
  · intro i
    rw [hR.length_eq, splitAll_length, Finset.length_sort,
      List.toFinset_card_of_nodup (subDims_nodup hn Ms ti level), (hp i).length_eq]
  · intro y hy
    obtain ⟨x, hx, rfl⟩ := TrackedInterval.exists_map_eq ti.interval hy
    obtain ⟨S, hS, hm⟩ := splitBoxes_cover ti.nextTransformPoints ((subDims Ms ti level).toFinset.sort (· ≤ ·))
      (Box.unit n K) (x := x) (fun i => abs_le.1 (hx i))
    obtain ⟨j, hj, rfl⟩ := List.mem_iff_getElem.1 hS
    have hj' := hR.length_eq.symm ▸ hj
    have h := List.Forall₂.get hR hj' hj
    refine ⟨_, List.getElem_mem hj', ?_⟩
    have h2 := h.1.2
    simp only [List.get_eq_getElem] at h2
    rw [h2]
    exact TrackedInterval.mem_sub_map ti.interval _ hti hm
  · refine forall₂_pairwise hR (splitBoxes_disjoint _ hmid _ _ (unit_ordered n)) ?_
    rintro c c' S S' h h' ⟨d, hd⟩
    refine ⟨d, ?_⟩
    rw [h.1.2, h'.1.2]
    simp only [imageBox, Box.map]
    have := hti d
    nlinarith
  · intro c hc
    obtain ⟨j, hj, rfl⟩ := List.mem_iff_getElem.1 hc
    have hj' := hR.length_eq ▸ hj
    have h := List.Forall₂.get hR hj hj'
    simp only [List.get_eq_getElem] at h
    have h0 := h.2 ⟨0, hn⟩
    refine ⟨_, h0.ordered, h0.within, ?_, fun i x hx => (h.2 i).close x hx⟩
    intro x
    rw [h.1.2, imageBox_map]

/-- **C22** for the high-precision setting, axes up to `10^16` entries.  `_partial`: ascending set iteration
(C23) and the size limit of C09 are assumed; rounding is not modelled. -/
theorem C22_subdivision_exact_partial
    {argsort : List ℕ → List ℕ} (ha : ∀ l, (argsort l).Perm (List.range l.length)) (hn : 0 < n)
    (setIter : Finset (Fin n) → List (Fin n)) (hset : ∀ s, setIter s = s.sort (· ≤ ·))
    (Ms : Fin n → Tensor n K) (hM : Fits (10 ^ 16) Ms) (errors : Fin n → K) (ti : TrackedInterval n K)
    (hti : ti.interval.Ordered) (hmid : ∀ d, |ti.nextTransformPoints d| ≤ 1) (level : ℕ)
    (hne : n = 1 ∨ ∀ i, getSubdivisionDims argsort Ms ti level i ≠ []) :
    ∃ cs, getSubdivisionIntervals argsort setIter Ms errors ti true level = .ok cs ∧
      (∀ i, cs.length = 2 ^ (getSubdivisionDims argsort Ms ti level i).length) ∧
      GoodSubdivision Ms errors ti cs :=
  C22_subdivision_of_transformOK (transformOK_exact n) ha hn setIter hset Ms hM errors ti hti hmid level hne

/-- **C22** for the default setting, axes up to 7 entries (`_partial` as before, C09 being false for longer axes). -/
theorem C22_subdivision_default_partial
    {argsort : List ℕ → List ℕ} (ha : ∀ l, (argsort l).Perm (List.range l.length)) (hn : 0 < n)
    (setIter : Finset (Fin n) → List (Fin n)) (hset : ∀ s, setIter s = s.sort (· ≤ ·))
    (Ms : Fin n → Tensor n K) (hM : Fits 7 Ms) (errors : Fin n → K) (ti : TrackedInterval n K)
    (hti : ti.interval.Ordered) (hmid : ∀ d, |ti.nextTransformPoints d| ≤ 1) (level : ℕ)
    (hne : n = 1 ∨ ∀ i, getSubdivisionDims argsort Ms ti level i ≠ []) :
    ∃ cs, getSubdivisionIntervals argsort setIter Ms errors ti false level = .ok cs ∧
      (∀ i, cs.length = 2 ^ (getSubdivisionDims argsort Ms ti level i).length) ∧
      GoodSubdivision Ms errors ti cs :=
  C22_subdivision_of_transformOK (transformOK_default n) ha hn setIter hset Ms hM errors ti hti hmid level hne

/-- The hypotheses are met, e.g. by two quadratic polynomials on the unit square with the default split
points. -/
example : ∃ cs, getSubdivisionIntervals argsortDistinct (fun s => s.sort (· ≤ ·))
      (fun _ : Fin 2 => (⟨fun _ => 3, fun _ => 1⟩ : Tensor 2 ℝ)) (fun _ => 0)
      (TrackedInterval.new (Box.unit 2 ℝ)) false 0 = .ok cs ∧
    GoodSubdivision (fun _ : Fin 2 => (⟨fun _ => 3, fun _ => 1⟩ : Tensor 2 ℝ)) (fun _ => 0)
      (TrackedInterval.new (Box.unit 2 ℝ)) cs := by
  obtain ⟨cs, h1, -, h3⟩ := C22_subdivision_default_partial (n := 2) argsort_perm (by norm_num) _ (fun _ => rfl)
    (fun _ : Fin 2 => (⟨fun _ => 3, fun _ => 1⟩ : Tensor 2 ℝ)) (fun _ _ => by norm_num) (fun _ => 0)
    (TrackedInterval.new (Box.unit 2 ℝ)) (unit_ordered 2)
    (fun d => by norm_num [TrackedInterval.new, TrackedInterval.splitPoint, abs_le]) 0
    (.inr ((C25_dims argsort_perm (by norm_num) _ _ 0).2 (.inr ⟨0, by
      norm_num [TrackedInterval.new, Box.unit]⟩)))
  exact ⟨cs, h1, h3⟩

end C22

/-! ### C23 -/

section C23

/-- A box in dimension 9 that is a point in dimensions 1..7. -/
def exBox9 : Box 9 ℚ := ⟨![-1, 0, 0, 0, 0, 0, 0, 0, -1], ![1, 0, 0, 0, 0, 0, 0, 0, 1]⟩

/-- The polynomial `x_8`. -/
def exX8 : Tensor 9 ℚ := ⟨![1, 1, 1, 1, 1, 1, 1, 1, 2], fun k => if k 8 = 1 then 1 else 0⟩

/-- The zero polynomial. -/
def exZero9 : Tensor 9 ℚ := ⟨fun _ => 1, fun _ => 0⟩

/-- The order in which CPython iterates over `{8, 0}` when 8 was inserted first (both hash to slot 0 of a table of
size 8, so 0 goes to slot 1); other sets ascending. -/
def exIter9 (s : Finset (Fin 9)) : List (Fin 9) := if s = {0, 8} then [8, 0] else s.sort (· ≤ ·)

/-- Witness run: the first polynomial is split along 8, then 0. -/
def exRun9 : Except Exc (List (Child 9 ℚ)) :=
  getSubdivisionIntervals argsortDistinct exIter9 (fun i => if i = 0 then exX8 else exZero9) (fun _ => 0)
    { TrackedInterval.new exBox9 with nextTransformPoints := fun _ => 0 } false 6

theorem exIter9_perm (s : Finset (Fin 9)) : (exIter9 s).Perm s.toList := by
  unfold exIter9
  split_ifs with h
  · subst h
    rw [List.perm_ext_iff_of_nodup (by decide) (Finset.nodup_toList _)]
    intro a
    simp [or_comm]
  · exact Finset.sort_perm_toList _ _

/-- **C23 is false**: with an iteration order that enumerates each set of dimensions exactly once, but `{0,8}` as
`8, 0`, the children are mismatched.  The first polynomial is `x_8` in local and global coordinates
(dimension 8 of the box is `[-1,1]`), there is a child whose centre has `x_8 = -1/2`, but whose first
polynomial has the value `1/2` there, with an error bound below `1/10`. -/
theorem C23_alignment_false :
    (∀ s, (exIter9 s).Perm s.toList) ∧ (∀ l, (argsortDistinct l).Perm (List.range l.length)) ∧
    (getSubdivisionDims argsortDistinct (fun i => if i = 0 then exX8 else exZero9)
      { TrackedInterval.new exBox9 with nextTransformPoints := fun _ => 0 } 6 0) = [8, 0] ∧
    ∃ cs, exRun9 = .ok cs ∧ ∃ c ∈ cs, c.ti.interval.map (fun _ => 0) 8 = -1 / 2 ∧
      (c.Ms 0).eval (fun _ => 0) = 1 / 2 ∧ c.errors 0 < 1 / 10 := by
  refine ⟨exIter9_perm, argsort_perm, by decide +kernel, ?_⟩
  have h : (exRun9.toOption.map fun cs => decide (∃ c ∈ cs, c.ti.interval.map (fun _ => 0) 8 = -1 / 2 ∧
      (c.Ms 0).evalC (fun _ => 0) = 1 / 2 ∧ c.errors 0 < 1 / 10)) = some true := by decide +kernel
  cases hr : exRun9 with
  | error e => rw [hr] at h; simp [Except.toOption] at h
  | ok cs =>
    rw [hr] at h
    simp only [Except.toOption, Option.map_some, Option.some.injEq, decide_eq_true_eq] at h
    obtain ⟨c, hc, h1, h2, h3⟩ := h
    exact ⟨cs, rfl, c, hc, h1, by rw [Tensor.eval_eq_evalC]; exact h2, h3⟩

/-- **C23**, what is left of it: the pairing is right for every enumeration order of the set that is ascending on
the set of dimensions actually split (in particular whenever a single dimension is split).
`_partial`: false for other orders, `C23_alignment_false`. -/
theorem C23_alignment_partial {K : Type*} [Field K] [LinearOrder K] [IsStrictOrderedRing K] {n N : ℕ} {exact : Bool} (hT : TransformOK K n exact N)
    {argsort : List ℕ → List ℕ} (ha : ∀ l, (argsort l).Perm (List.range l.length)) (hn : 0 < n)
    (setIter : Finset (Fin n) → List (Fin n)) (hset : ∀ s, (setIter s).Perm s.toList)
    (Ms : Fin n → Tensor n K) (hM : Fits N Ms) (errors : Fin n → K) (ti : TrackedInterval n K)
    (hti : ti.interval.Ordered) (hmid : ∀ d, |ti.nextTransformPoints d| ≤ 1) (level : ℕ)
    (hne : n = 1 ∨ ∀ i, getSubdivisionDims argsort Ms ti level i ≠ [])
    (hasc : (setIter (Finset.univ.biUnion fun i =>
      (getSubdivisionDims argsort Ms ti level i).toFinset)).Pairwise (· ≤ ·)) :
    ∃ cs, getSubdivisionIntervals argsort setIter Ms errors ti exact level = .ok cs ∧
      GoodSubdivision Ms errors ti cs := by
  obtain ⟨cs, h1, -, h3⟩ := C22_subdivision_of_transformOK hT ha hn _ (fun _ => rfl) Ms hM errors ti hti hmid level hne
  refine ⟨cs, ?_, h3⟩
  rw [← h1]
  have e : setIter (Finset.univ.biUnion fun i => (getSubdivisionDims argsort Ms ti level i).toFinset)
      = (Finset.univ.biUnion fun i => (getSubdivisionDims argsort Ms ti level i).toFinset).sort (· ≤ ·) := by
    apply List.Perm.eq_of_pairwise (le := (· ≤ ·))
    · intro a b _ _ h1 h2; exact le_antisymm h1 h2
    · exact hasc
    · exact (Finset.pairwise_sort _ (· ≤ ·)).imp fun h => h
    · exact (hset _).trans (Finset.sort_perm_toList _ _).symm
  unfold getSubdivisionIntervals
  simp only [e]

end C23

end YRoots
