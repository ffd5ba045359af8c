import Verif.Props.Subdivide
import Verif.Proofs.SplitLoss

/-!
# C22 is false in the default setting for long axes

The claim of C22 is `GoodSubdivision` (Props/Subdivide.lean).  Cutting the polynomial `T_129` (130 coefficients) in the
middle, the row dropping of the default transformation changes the value at the right end by more than
the increase of the error.
-/

namespace YRoots

/-- The one-dimensional tensor with the single coefficient `1` of `T_129`. -/
noncomputable def splitM : Tensor 1 ℝ := ⟨fun _ => 130, fun k => if k 0 = 129 then 1 else 0⟩

theorem splitM_row (x : Fin 1 → ℝ) : rowL splitM.shape 0 x (splitM.rows 0 129) = 1 := by
  rw [rowL_apply]
  have : restIdx splitM.shape 0 = {fun _ => 0} := by
    ext k
    simp [restIdx, Fintype.mem_piFinset, Fin.forall_fin_one]
    constructor
    · intro h; funext i; rw [Subsingleton.elim i 0, h]
    · intro h; rw [h]
  rw [this]
  simp [splitM, Tensor.rows]

theorem splitM_eval_one : splitM.eval (fun _ => 1) = 1 := by
  rw [eval_axis splitM 0, Finset.sum_eq_single 129]
  · rw [splitM_row]
    simp [chebT, Polynomial.Chebyshev.T_eval_one]
  · intro j _ hj
    have : splitM.rows 0 j = 0 := by funext k; simp [splitM, Tensor.rows, hj]
    rw [this]; simp
  · intro h; simp [splitM] at h

theorem splitM_error : getTransformationError splitM 0 = 130 / 2 ^ 52 := by
  have : splitM.absSum = 1 := by
    unfold Tensor.absSum
    rw [Finset.sum_eq_single (fun _ => 129)]
    · simp [splitM]
    · intro k _ hk
      have : k 0 ≠ 129 := by
        intro h; apply hk; funext i; rw [Subsingleton.elim i 0, h]
      simp [splitM, this]
    · intro h; simp [splitM, Tensor.idx] at h
  unfold getTransformationError macheps
  rw [this]
  simp [splitM]
  norm_num

theorem sum_getD (l : List ℤ) : ∑ i ∈ Finset.range l.length, ((l.getD i 0 : ℤ) : ℝ) = ((l.sum : ℤ) : ℝ) := by
  induction l with
  | nil => simp
  | cons a l ih =>
    rw [List.length_cons, Finset.sum_range_succ', List.sum_cons]
    simp only [List.getD_cons_succ, List.getD_cons_zero]
    rw [ih]
    push_cast
    ring

theorem splitM_half : (transformND splitM 0 (1 / 2) (1 / 2) false).eval (fun _ => 1)
    = (((SplitLoss.hRun 128).2.sum : ℤ) : ℝ) / 2 ^ 129 := by
  obtain ⟨hm, -, -, hA⟩ := SplitLoss.tRun_half (K := ℝ) (splitM.rows 0) 128
  have hout : ∀ i, (tRun ((1 : ℝ) / 10 ^ 16) (splitM.rows 0) (1 / 2) (1 / 2) 128).out i
      = (tRun ((1 : ℝ) / 10 ^ 16) (splitM.rows 0) (1 / 2) (1 / 2) 128).arr2 i • splitM.rows 0 129 := by
    intro i
    rw [tRun_succ]
    obtain ⟨δ, -, -, ho⟩ := tStep_spec ((1 : ℝ) / 10 ^ 16) (splitM.rows 0) (1 / 2) (1 / 2)
      (tRun ((1 : ℝ) / 10 ^ 16) (splitM.rows 0) (1 / 2) (1 / 2) 127) (127 + 2) (tRun_supp _ _ _ _ _)
    rw [ho, tRun_out_eq_zero, zero_add]
    intro k hk
    funext j
    have : k ≠ 129 := by omega
    simp [splitM, Tensor.rows, this]
  unfold transformND
  rw [if_neg (by norm_num [splitM]), if_pos (by rfl)]
  rw [transformAxis, ofRows_eval]
  simp only [transformFunc, Bool.false_eq_true, if_false, transform1D_eq]
  have : splitM.shape 0 - 2 = 128 := by simp [splitM]
  rw [this, hm, outEval, map_sum, ← sum_getD, Finset.sum_div]
  refine Finset.sum_congr rfl fun i _ => ?_
  rw [hout, map_smul, map_smul, splitM_row, hA]
  simp [chebT, Polynomial.Chebyshev.T_eval_one]

theorem splitM_dims {argsort : List ℕ → List ℕ} (ha : ∀ l, (argsort l).Perm (List.range l.length))
    (ti : TrackedInterval 1 ℝ) (hti : ti.interval.lo 0 < ti.interval.hi 0) (level : ℕ) (i : Fin 1) :
    getSubdivisionDims argsort (fun _ => splitM) ti level i = [0] := by
  have h1 : considerDims ti.interval = [0] := by
    simp [considerDims, List.finRange_succ]
  have h2 : longDims ti.interval [0] = [0] := by
    have : (ti.interval.hi 0 - ti.interval.lo 0) / 5 < ti.interval.hi 0 - ti.interval.lo 0 := by linarith
    simp [longDims, listMax, this]
  have h3 : subDims (fun _ => splitM) ti level = [0] := by
    unfold subDims
    rw [h1, h2]
    simp [degreeDims]
  have := getSubdivisionDims_perm ha (fun _ => splitM) ti level i
  rw [h3] at this
  exact List.perm_singleton.1 this

/-- **C22 is false of the code** in the default setting: however `np.argsort` orders ties and Python orders sets, at every
level, any interval of positive length whose next cut is in the middle (as after any cut or zoom; example below)
and the polynomial `T_129` with error `0` give two children that are not a good subdivision.  The value of
the right child at its right end differs from that of `T_129` by more than the error of the child. -/
theorem C22_subdivision_default_false {argsort : List ℕ → List ℕ}
    (ha : ∀ l, (argsort l).Perm (List.range l.length)) {setIter : Finset (Fin 1) → List (Fin 1)}
    (hset : ∀ s, (setIter s).Perm s.toList) (ti : TrackedInterval 1 ℝ)
    (hti : ti.interval.lo 0 < ti.interval.hi 0) (hmid : ti.nextTransformPoints 0 = 0) (level : ℕ) :
    ∃ cs, getSubdivisionIntervals argsort setIter (fun _ => splitM) (fun _ => 0) ti false level = .ok cs ∧
      cs.length = 2 ∧ ¬ GoodSubdivision (fun _ => splitM) (fun _ => 0) ti cs := by
  have hd := splitM_dims ha ti hti level
  have hs : setIter {0} = [0] := by
    have := hset {0}
    rw [Finset.toList_singleton] at this
    exact List.perm_singleton.1 this
  have hrun : getSubdivisionIntervals argsort setIter (fun _ => splitM) (fun _ => 0) ti false level = .ok
      [⟨fun _ => (splitPoly ti.nextTransformPoints false 0 false (splitM, 0)).1,
        fun _ => (splitPoly ti.nextTransformPoints false 0 false (splitM, 0)).2,
        splitInterval ti.nextTransformPoints 0 false ti⟩,
       ⟨fun _ => (splitPoly ti.nextTransformPoints false 0 true (splitM, 0)).1,
        fun _ => (splitPoly ti.nextTransformPoints false 0 true (splitM, 0)).2,
        splitInterval ti.nextTransformPoints 0 true ti⟩] := by
    unfold getSubdivisionIntervals
    simp only [hd]
    have hu : (Finset.univ.biUnion fun _ : Fin 1 => [(0 : Fin 1)].toFinset) = {0} := by decide
    rw [hu, hs, if_neg (by simp), mapM_ok _ (fun _ : Fin 1 => splitAll (splitPoly (K := ℝ) ti.nextTransformPoints false) [0] [(splitM, 0)])
      _ (fun _ _ => by simp [polyChildren])]
    simp only [List.finRange_succ, List.finRange_zero, List.map_cons, List.map_nil, splitAll, List.foldl_cons,
      List.foldl_nil, List.flatMap_cons, List.flatMap_nil, List.append_nil]
    simp only [bind, Except.bind]
    simp [zipChildren, childPoly]
  refine ⟨_, hrun, rfl, fun hg => ?_⟩
  obtain ⟨S, -, -, hmap, hev⟩ := hg.child _ (List.mem_cons_of_mem _ (List.mem_singleton.2 rfl))
  have hcube : InCube ti.nextTransformPoints := by
    intro i; rw [Subsingleton.elim i 0, hmid]; simp
  have hS : S.map (fun _ => 1) = fun _ => 1 := by
    have h := congrFun (hmap fun _ => 1) 0
    rw [(splitInterval_spec ti.nextTransformPoints hcube 0 true ti).2] at h
    have h' : (halfBox ti.nextTransformPoints 0 true ti.interval).map (fun _ => 1) 0 = ti.interval.hi 0 := by
      rw [Box.map, (halfBox_same ti.nextTransformPoints 0 true ti.interval).2]
      simp only [if_true]
      ring
    rw [h'] at h
    generalize S.map (fun _ => 1) = y at h
    simp only [Box.map] at h
    funext i
    rw [Subsingleton.elim i 0]
    have h5 : (ti.interval.hi 0 - ti.interval.lo 0) * (y 0 - 1) = 0 := by linarith
    rcases mul_eq_zero.1 h5 with h6 | h6 <;> linarith
  have h1 := hev 0 (fun _ => 1) (fun _ => by simp)
  rw [hS, splitM_eval_one] at h1
  simp only [splitPoly, if_true, splitM_error, hmid] at h1
  rw [show -(((0 : ℝ) - 1) / 2) = 1 / 2 by norm_num, show ((0 : ℝ) + 1) / 2 = 1 / 2 by norm_num, splitM_half] at h1
  have h2 := (le_abs_self _).trans h1
  have hfin : (130 * 2 ^ 129 : ℝ) < 2 ^ 52 * (2 ^ 129 - (((SplitLoss.hRun 128).2.sum : ℤ) : ℝ)) := by
    exact_mod_cast SplitLoss.hRun_sum
  generalize (((SplitLoss.hRun 128).2.sum : ℤ) : ℝ) = s at h2 hfin
  have h3 : s / 2 ^ 129 * 2 ^ 129 = s := by field_simp
  have hpos : (0 : ℝ) < 2 ^ 129 := by positivity
  generalize (2 : ℝ) ^ 129 = E at *
  have h4 : E - s = (1 - s / E) * E := by rw [sub_mul, h3, one_mul]
  rw [h4] at hfin
  rw [add_zero, sub_zero, le_div_iff₀ (by positivity)] at h2
  nlinarith

/-- The intervals in question occur: the left part of the initial interval. -/
example : ∃ ti : TrackedInterval 1 ℝ, ti = splitInterval (fun _ => TrackedInterval.splitPoint) 0 false
      (TrackedInterval.new (Box.unit 1 ℝ)) ∧ ti.interval.lo 0 < ti.interval.hi 0 ∧ ti.nextTransformPoints 0 = 0 := by
  refine ⟨_, rfl, ?_, by simp [splitInterval]⟩
  rw [(splitInterval_spec _ (fun i => by norm_num [TrackedInterval.splitPoint, abs_le]) 0 false _).2,
    (halfBox_same _ 0 false _).1, (halfBox_same _ 0 false _).2]
  norm_num [TrackedInterval.new, Box.unit, TrackedInterval.splitPoint, Box.map]

/-- An order of ties and of sets as assumed. -/
example : (∀ l, (argsortDistinct l).Perm (List.range l.length)) ∧
    ∀ s : Finset (Fin 1), (s.sort (· ≤ ·)).Perm s.toList :=
  ⟨argsort_perm, fun s => Finset.sort_perm_toList s _⟩

end YRoots
