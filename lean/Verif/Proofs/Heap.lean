import Verif.Model.Heap

/-!
# Lemmas on the reference model of `TrackedInterval`
-/

set_option linter.unusedSectionVars false
set_option linter.unusedVariables false
set_option linter.unusedSimpArgs false

namespace YRoots

namespace Heap

variable {n : ℕ} {K : Type*}

/-! ### Extension: nothing in use has changed -/

/-- `h'` arises from `h` without changing any cell in use. -/
structure Ext (h h' : Heap n K) : Prop where
  next_le : h.next ≤ h'.next
  box : ∀ a < h.next, h'.box a = h.box a
  trs : ∀ a < h.next, h'.trs a = h.trs a
  pts : ∀ a < h.next, h'.pts a = h.pts a
  vec : ∀ a < h.next, h'.vec a = h.vec a
  tensor : ∀ a < h.next, h'.tensor a = h.tensor a
  mlist : ∀ a < h.next, h'.mlist a = h.mlist a
  obj : ∀ a < h.next, h'.obj a = h.obj a

theorem Ext.refl (h : Heap n K) : Ext h h :=
  ⟨le_rfl, fun _ _ => rfl, fun _ _ => rfl, fun _ _ => rfl, fun _ _ => rfl, fun _ _ => rfl, fun _ _ => rfl,
    fun _ _ => rfl⟩

theorem Ext.trans {h h' h'' : Heap n K} (a : Ext h h') (b : Ext h' h'') : Ext h h'' :=
  ⟨a.next_le.trans b.next_le,
    fun i hi => (b.box i (hi.trans_le a.next_le)).trans (a.box i hi),
    fun i hi => (b.trs i (hi.trans_le a.next_le)).trans (a.trs i hi),
    fun i hi => (b.pts i (hi.trans_le a.next_le)).trans (a.pts i hi),
    fun i hi => (b.vec i (hi.trans_le a.next_le)).trans (a.vec i hi),
    fun i hi => (b.tensor i (hi.trans_le a.next_le)).trans (a.tensor i hi),
    fun i hi => (b.mlist i (hi.trans_le a.next_le)).trans (a.mlist i hi),
    fun i hi => (b.obj i (hi.trans_le a.next_le)).trans (a.obj i hi)⟩

section Ops

variable {h0 h : Heap n K} (e : Ext h0 h)

include e

theorem Ext.lt_ne {a : ℕ} (ha : a < h0.next) : a ≠ h.next := (ha.trans_le e.next_le).ne

theorem Ext.allocBox (v) : Ext h0 (h.allocBox v).1 :=
  ⟨e.next_le.trans (Nat.le_succ _), fun a ha => by
    simp only [Heap.allocBox, Function.update_of_ne (e.lt_ne ha)]; exact e.box a ha,
    e.trs, e.pts, e.vec, e.tensor, e.mlist, e.obj⟩

theorem Ext.allocTrs (v) : Ext h0 (h.allocTrs v).1 :=
  ⟨e.next_le.trans (Nat.le_succ _), e.box, fun a ha => by
    simp only [Heap.allocTrs, Function.update_of_ne (e.lt_ne ha)]; exact e.trs a ha,
    e.pts, e.vec, e.tensor, e.mlist, e.obj⟩

theorem Ext.allocPts (v) : Ext h0 (h.allocPts v).1 :=
  ⟨e.next_le.trans (Nat.le_succ _), e.box, e.trs, fun a ha => by
    simp only [Heap.allocPts, Function.update_of_ne (e.lt_ne ha)]; exact e.pts a ha,
    e.vec, e.tensor, e.mlist, e.obj⟩

theorem Ext.allocVec (v) : Ext h0 (h.allocVec v).1 :=
  ⟨e.next_le.trans (Nat.le_succ _), e.box, e.trs, e.pts, fun a ha => by
    simp only [Heap.allocVec, Function.update_of_ne (e.lt_ne ha)]; exact e.vec a ha,
    e.tensor, e.mlist, e.obj⟩

theorem Ext.allocTensor (v) : Ext h0 (h.allocTensor v).1 :=
  ⟨e.next_le.trans (Nat.le_succ _), e.box, e.trs, e.pts, e.vec, fun a ha => by
    simp only [Heap.allocTensor, Function.update_of_ne (e.lt_ne ha)]; exact e.tensor a ha,
    e.mlist, e.obj⟩

theorem Ext.allocMlist (v) : Ext h0 (h.allocMlist v).1 :=
  ⟨e.next_le.trans (Nat.le_succ _), e.box, e.trs, e.pts, e.vec, e.tensor, fun a ha => by
    simp only [Heap.allocMlist, Function.update_of_ne (e.lt_ne ha)]; exact e.mlist a ha,
    e.obj⟩

theorem Ext.allocObj (v) : Ext h0 (h.allocObj v).1 :=
  ⟨e.next_le.trans (Nat.le_succ _), e.box, e.trs, e.pts, e.vec, e.tensor, e.mlist, fun a ha => by
    simp only [Heap.allocObj, Function.update_of_ne (e.lt_ne ha)]; exact e.obj a ha⟩

theorem Ext.setBox {c : ℕ} (hc : h0.next ≤ c) (v) : Ext h0 (h.setBox c v) :=
  ⟨e.next_le, fun a ha => by
    simp only [Heap.setBox, Function.update_of_ne (ha.trans_le hc).ne]; exact e.box a ha,
    e.trs, e.pts, e.vec, e.tensor, e.mlist, e.obj⟩

theorem Ext.setTrs {c : ℕ} (hc : h0.next ≤ c) (v) : Ext h0 (h.setTrs c v) :=
  ⟨e.next_le, e.box, fun a ha => by
    simp only [Heap.setTrs, Function.update_of_ne (ha.trans_le hc).ne]; exact e.trs a ha,
    e.pts, e.vec, e.tensor, e.mlist, e.obj⟩

theorem Ext.setPts {c : ℕ} (hc : h0.next ≤ c) (v) : Ext h0 (h.setPts c v) :=
  ⟨e.next_le, e.box, e.trs, fun a ha => by
    simp only [Heap.setPts, Function.update_of_ne (ha.trans_le hc).ne]; exact e.pts a ha,
    e.vec, e.tensor, e.mlist, e.obj⟩

theorem Ext.setVec {c : ℕ} (hc : h0.next ≤ c) (v) : Ext h0 (h.setVec c v) :=
  ⟨e.next_le, e.box, e.trs, e.pts, fun a ha => by
    simp only [Heap.setVec, Function.update_of_ne (ha.trans_le hc).ne]; exact e.vec a ha,
    e.tensor, e.mlist, e.obj⟩

theorem Ext.setTensor {c : ℕ} (hc : h0.next ≤ c) (v) : Ext h0 (h.setTensor c v) :=
  ⟨e.next_le, e.box, e.trs, e.pts, e.vec, fun a ha => by
    simp only [Heap.setTensor, Function.update_of_ne (ha.trans_le hc).ne]; exact e.tensor a ha,
    e.mlist, e.obj⟩

theorem Ext.setMlist {c : ℕ} (hc : h0.next ≤ c) (v) : Ext h0 (h.setMlist c v) :=
  ⟨e.next_le, e.box, e.trs, e.pts, e.vec, e.tensor, fun a ha => by
    simp only [Heap.setMlist, Function.update_of_ne (ha.trans_le hc).ne]; exact e.mlist a ha,
    e.obj⟩

theorem Ext.setObj {c : ℕ} (hc : h0.next ≤ c) (v) : Ext h0 (h.setObj c v) :=
  ⟨e.next_le, e.box, e.trs, e.pts, e.vec, e.tensor, e.mlist, fun a ha => by
    simp only [Heap.setObj, Function.update_of_ne (ha.trans_le hc).ne]; exact e.obj a ha⟩

end Ops

/-- The addresses in an object are in use. -/
structure Valid (h : Heap n K) (o : ℕ) : Prop where
  self : o < h.next
  top : (h.obj o).topInterval < h.next
  interval : (h.obj o).interval < h.next
  transforms : (h.obj o).transforms < h.next
  dup : (h.obj o).possibleDuplicateRoots < h.next
  nxt : (h.obj o).nextTransformPoints < h.next
  preI : (h.obj o).preFinalInterval < h.next
  preT : (h.obj o).preFinalTransforms < h.next

theorem Valid.ext {h h' : Heap n K} {o : ℕ} (v : Valid h o) (e : Ext h h') : Valid h' o := by
  have eo := e.obj o v.self
  exact ⟨v.self.trans_le e.next_le, by rw [eo]; exact v.top.trans_le e.next_le,
    by rw [eo]; exact v.interval.trans_le e.next_le, by rw [eo]; exact v.transforms.trans_le e.next_le,
    by rw [eo]; exact v.dup.trans_le e.next_le, by rw [eo]; exact v.nxt.trans_le e.next_le,
    by rw [eo]; exact v.preI.trans_le e.next_le, by rw [eo]; exact v.preT.trans_le e.next_le⟩

/-- An extension does not change what is observed through the objects. -/
theorem Ext.view {h h' : Heap n K} (e : Ext h h') {o : ℕ} (v : Valid h o) : h'.view o = h.view o := by
  simp only [Heap.view, e.obj o v.self, e.box _ v.top, e.box _ v.interval, e.trs _ v.transforms, e.pts _ v.dup,
    e.vec _ v.nxt, e.box _ v.preI, e.trs _ v.preT]

variable [Field K] [LinearOrder K]

/-! ### Constructor and copy -/

theorem Ext.newTI {h0 h : Heap n K} (e : Ext h0 h) (a : ℕ) : Ext h0 (h.newTI a).1 := by
  unfold Heap.newTI
  exact ((((e.allocTrs _).allocPts _).allocVec _).allocTrs _).allocObj _

theorem newTI_snd (h : Heap n K) (a : ℕ) : (h.newTI a).2 = h.next + 4 := rfl

theorem newTI_next (h : Heap n K) (a : ℕ) : (h.newTI a).1.next = h.next + 5 := rfl

theorem newTI_obj (h : Heap n K) (a : ℕ) : (h.newTI a).1.obj = Function.update h.obj (h.next + 4)
    ⟨a, a, h.next, false, false, false, h.next + 1, false, h.next + 2, a, h.next + 3, false⟩ := rfl

theorem newTI_view (h : Heap n K) (a : ℕ) (ha : a < h.next) :
    (h.newTI a).1.view (h.newTI a).2 = TrackedInterval.new (h.box a) := by
  simp (disch := omega) [Heap.newTI, Heap.view, TrackedInterval.new, allocTrs, allocPts, allocVec, allocObj,
    Function.update_of_ne]

theorem Ext.copyTI {h0 h : Heap n K} (e : Ext h0 h) (o : ℕ) : Ext h0 (h.copyTI o).1 := by
  have hc : h0.next ≤ h.next + 4 := e.next_le.trans (by omega)
  unfold Heap.copyTI
  simp only
  split_ifs
  · exact (((((((((((((((e.newTI _).allocBox _).setObj hc _).allocTrs _).setObj hc _).setObj hc _).allocVec _).setObj hc _).setObj
      hc _).setObj hc _).allocPts _).setObj hc _).setObj hc _).allocBox _).setObj hc _).allocTrs _ |>.setObj hc _
  · exact ((((((((e.newTI _).allocBox _).setObj hc _).allocTrs _).setObj hc _).setObj hc _).allocVec _).setObj hc _)

theorem copyTI_snd (h : Heap n K) (o : ℕ) : (h.copyTI o).2 = h.next + 4 := by
  unfold Heap.copyTI
  simp only
  split_ifs <;> rfl

theorem copyTI_next (h : Heap n K) (o : ℕ) :
    (h.copyTI o).1.next = if (h.obj o).finalStep then h.next + 11 else h.next + 8 := by
  unfold Heap.copyTI
  simp only
  split_ifs <;> rfl

/-- The attributes of a copy. -/
theorem copyTI_obj (h : Heap n K) (o : ℕ) : (h.copyTI o).1.obj (h.copyTI o).2 =
    if (h.obj o).finalStep then
      { topInterval := (h.obj o).topInterval, interval := h.next + 5, transforms := h.next + 6,
        empty := (h.obj o).empty, finalStep := true, canThrowOutFinalStep := (h.obj o).canThrowOutFinalStep,
        possibleDuplicateRoots := h.next + 8, possibleExtraRoot := (h.obj o).possibleExtraRoot,
        nextTransformPoints := h.next + 7, preFinalInterval := h.next + 9, preFinalTransforms := h.next + 10,
        reRun := false }
    else
      { topInterval := (h.obj o).topInterval, interval := h.next + 5, transforms := h.next + 6,
        empty := (h.obj o).empty, finalStep := false, canThrowOutFinalStep := false,
        possibleDuplicateRoots := h.next + 1, possibleExtraRoot := false,
        nextTransformPoints := h.next + 7, preFinalInterval := (h.obj o).topInterval,
        preFinalTransforms := h.next + 3, reRun := false } := by
  unfold Heap.copyTI
  simp only
  split_ifs <;>
    simp [Heap.newTI, allocTrs, allocPts, allocVec, allocObj, allocBox, setObj]

/-- The copy is observed as the copy of the value model. -/
theorem copyTI_view (h : Heap n K) (o : ℕ) (v : Valid h o) :
    (h.copyTI o).1.view (h.copyTI o).2 = (h.view o).copy := by
  have h1 := v.top
  have h2 := v.interval
  have h3 := v.transforms
  have h4 := v.dup
  have h5 := v.nxt
  have h6 := v.preI
  have h7 := v.preT
  by_cases hf : (h.obj o).finalStep = true
  · simp only [Heap.view, copyTI_obj, hf, if_true]
    simp (disch := omega) [Heap.copyTI, TrackedInterval.copy, TrackedInterval.new, Heap.newTI, allocTrs, allocPts,
      allocVec, allocObj, allocBox, setObj, hf, Function.update_of_ne]
  · simp only [Heap.view, copyTI_obj, hf, if_false]
    simp (disch := omega) [Heap.copyTI, TrackedInterval.copy, TrackedInterval.new, Heap.newTI, allocTrs, allocPts,
      allocVec, allocObj, allocBox, setObj, hf, Function.update_of_ne]

/-! ### `addTransform` -/

theorem setBox_setBox (h : Heap n K) (a : ℕ) (v w : Box n K) : (h.setBox a v).setBox a w = h.setBox a w := by
  simp [setBox, Function.update_idem]

theorem setBox_self (h : Heap n K) (a : ℕ) : h.setBox a (h.box a) = h := by
  simp [setBox]

theorem setBox_box (h : Heap n K) (a : ℕ) (v : Box n K) : (h.setBox a v).box a = v := by simp [setBox]

theorem setBox_box_ne (h : Heap n K) {a b : ℕ} (hab : b ≠ a) (v : Box n K) : (h.setBox a v).box b = h.box b := by
  simp [setBox, Function.update_of_ne hab]

theorem stepDim_eq {iv sub : ℕ} (hne : sub ≠ iv) {α β : Fin n → K} (h : Heap n K) (i : Fin n)
    (hα : α i = ((h.box iv).hi i - (h.box iv).lo i) / 2) (hβ : β i = ((h.box iv).hi i + (h.box iv).lo i) / 2) :
    stepDim iv sub α β h i = h.setBox iv
      ⟨Function.update (h.box iv).lo i (TrackedInterval.stepBounds ((h.box iv).lo i) ((h.box iv).hi i)
          ((h.box sub).lo i) ((h.box sub).hi i)).1,
        Function.update (h.box iv).hi i (TrackedInterval.stepBounds ((h.box iv).lo i) ((h.box iv).hi i)
          ((h.box sub).lo i) ((h.box sub).hi i)).2⟩ := by
  unfold stepDim TrackedInterval.stepBounds setLo setHi
  simp only [hα, hβ]
  have key : ∀ u : K, ∀ h' : Heap n K, h' = h.setBox iv { h.box iv with lo := Function.update (h.box iv).lo i u } →
      (h'.box sub).hi i = (h.box sub).hi i ∧ (h'.box iv).lo i = u ∧ (h'.box iv).hi i = (h.box iv).hi i ∧
        ∀ w : K, h'.setBox iv { h'.box iv with hi := Function.update (h'.box iv).hi i w } =
          h.setBox iv ⟨Function.update (h.box iv).lo i u, Function.update (h.box iv).hi i w⟩ := by
    rintro u h' rfl
    refine ⟨by rw [setBox_box_ne h hne], by rw [setBox_box]; simp, by rw [setBox_box], fun w => ?_⟩
    rw [setBox_setBox, setBox_box]
  have fin : ∀ u : K, ∀ h' : Heap n K, h' = h.setBox iv { h.box iv with lo := Function.update (h.box iv).lo i u } →
      (if (h'.box sub).hi i = -1 then
          h'.setBox iv { h'.box iv with hi := Function.update (h'.box iv).hi i ((h'.box iv).lo i) }
        else if (h'.box sub).hi i = 1 then
          h'.setBox iv { h'.box iv with hi := Function.update (h'.box iv).hi i ((h'.box iv).hi i) }
        else h'.setBox iv { h'.box iv with hi := Function.update (h'.box iv).hi i <|
          ((h.box iv).hi i - (h.box iv).lo i) / 2 * (h'.box sub).hi i + ((h.box iv).hi i + (h.box iv).lo i) / 2 }) =
      h.setBox iv ⟨Function.update (h.box iv).lo i u, Function.update (h.box iv).hi i
        (if (h.box sub).hi i = -1 then u else if (h.box sub).hi i = 1 then (h.box iv).hi i
          else ((h.box iv).hi i - (h.box iv).lo i) / 2 * (h.box sub).hi i + ((h.box iv).hi i + (h.box iv).lo i) / 2)⟩ := by
    intro u h' he
    obtain ⟨k1, k2, k3, k4⟩ := key u h' he
    rw [k4, k4, k4, k1, k2, k3]
    split_ifs <;> rfl
  by_cases h1 : (h.box sub).lo i = -1
  · rw [if_pos h1, if_pos h1]; exact fin _ _ rfl
  · rw [if_neg h1, if_neg h1]
    by_cases h2 : (h.box sub).lo i = 1
    · rw [if_pos h2, if_pos h2]; exact fin _ _ rfl
    · rw [if_neg h2, if_neg h2]; exact fin _ _ rfl

theorem foldl_stepDim {iv sub : ℕ} (hne : sub ≠ iv) {α β : Fin n → K} (l : List (Fin n)) (hl : l.Nodup) (h : Heap n K)
    (hα : ∀ i ∈ l, α i = ((h.box iv).hi i - (h.box iv).lo i) / 2)
    (hβ : ∀ i ∈ l, β i = ((h.box iv).hi i + (h.box iv).lo i) / 2) :
    l.foldl (stepDim iv sub α β) h = h.setBox iv
      ⟨fun i => if i ∈ l then (TrackedInterval.stepBounds ((h.box iv).lo i) ((h.box iv).hi i)
          ((h.box sub).lo i) ((h.box sub).hi i)).1 else (h.box iv).lo i,
        fun i => if i ∈ l then (TrackedInterval.stepBounds ((h.box iv).lo i) ((h.box iv).hi i)
          ((h.box sub).lo i) ((h.box sub).hi i)).2 else (h.box iv).hi i⟩ := by
  induction l generalizing h with
  | nil => simpa using (setBox_self h iv).symm
  | cons j l ih =>
    rw [List.foldl_cons, stepDim_eq hne h j (hα j (by simp)) (hβ j (by simp))]
    rw [List.nodup_cons] at hl
    have hj : ∀ i ∈ l, i ≠ j := fun i hi he => hl.1 (he ▸ hi)
    rw [ih hl.2]
    · rw [setBox_setBox, setBox_box, setBox_box_ne h hne]
      congr 1
      ext i
      · by_cases hi : i = j
        · subst hi; simp [hl.1]
        · simp [hi, Function.update_of_ne hi]
      · by_cases hi : i = j
        · subst hi; simp [hl.1]
        · simp [hi, Function.update_of_ne hi]
    · intro i hi
      rw [setBox_box]
      simp only [Function.update_of_ne (hj i hi)]
      exact hα i (by simp [hi])
    · intro i hi
      rw [setBox_box]
      simp only [Function.update_of_ne (hj i hi)]
      exact hβ i (by simp [hi])

/-- The two outcomes of `addTransform`, when the argument is not the interval array itself. -/
theorem addTransform_eq (h : Heap n K) (o sub : ℕ) (hne : sub ≠ (h.obj o).interval) :
    ((∃ i, (h.box sub).lo i > (h.box sub).hi i) ∧ (h.view o).canThrowOut = true ∧
      h.addTransform o sub = h.setObj o { h.obj o with empty := true }) ∨
    (¬ ((∃ i, (h.box sub).lo i > (h.box sub).hi i) ∧ (h.view o).canThrowOut = true) ∧ ∃ S : Box n K,
      (h.view o).addTransform (h.box sub) = (h.view o).applySub S ∧
      h.addTransform o sub = ((h.setBox sub S).setTrs (h.obj o).transforms ((h.view o).applySub S).transforms).setBox
        (h.obj o).interval ((h.view o).applySub S).interval) := by
  have hct : (h.view o).canThrowOut = (!(h.obj o).finalStep || (h.obj o).canThrowOutFinalStep) := rfl
  by_cases h1 : (∃ i, (h.box sub).lo i > (h.box sub).hi i) ∧ (h.view o).canThrowOut = true
  · left
    refine ⟨h1.1, h1.2, ?_⟩
    unfold Heap.addTransform
    rw [← hct, if_pos h1]
  · right
    refine ⟨h1, ?_⟩
    have main : ∀ S : Box n K, ∀ h1 : Heap n K, h1 = h.setBox sub S →
        (List.finRange n).foldl
          (stepDim ((h1.setTrs (h1.obj o).transforms (h1.trs (h1.obj o).transforms ++
              [(fun i => ((h1.box sub).hi i - (h1.box sub).lo i) / 2, fun i => ((h1.box sub).hi i + (h1.box sub).lo i) / 2)])).obj o).interval
            sub
            (fun i => ((h1.box (h1.obj o).interval).hi i - (h1.box (h1.obj o).interval).lo i) / 2)
            (fun i => ((h1.box (h1.obj o).interval).hi i + (h1.box (h1.obj o).interval).lo i) / 2))
          (h1.setTrs (h1.obj o).transforms (h1.trs (h1.obj o).transforms ++
              [(fun i => ((h1.box sub).hi i - (h1.box sub).lo i) / 2, fun i => ((h1.box sub).hi i + (h1.box sub).lo i) / 2)])) =
        ((h.setBox sub S).setTrs (h.obj o).transforms ((h.view o).applySub S).transforms).setBox
          (h.obj o).interval ((h.view o).applySub S).interval := by
      rintro S h1 rfl
      refine (foldl_stepDim hne _ (List.nodup_finRange n) _ ?_ ?_).trans ?_
      · intro i _; rfl
      · intro i _; rfl
      · simp only [List.mem_finRange, if_true]
        have e1 : ((h.setBox sub S).setTrs ((h.setBox sub S).obj o).transforms
          ((h.setBox sub S).trs ((h.setBox sub S).obj o).transforms ++
              [(fun i => (((h.setBox sub S).box sub).hi i - ((h.setBox sub S).box sub).lo i) / 2,
                fun i => (((h.setBox sub S).box sub).hi i + ((h.setBox sub S).box sub).lo i) / 2)])).box
            = (h.setBox sub S).box := rfl
        have e2 : ∀ v, ((h.setBox sub S).setTrs ((h.setBox sub S).obj o).transforms v).obj = h.obj := fun _ => rfl
        rw [e1, setBox_box, setBox_box_ne h (Ne.symm hne)]
        rfl
    have h1' : ¬ ((∃ i, (h.box sub).lo i > (h.box sub).hi i) ∧
      (!(h.obj o).finalStep || (h.obj o).canThrowOutFinalStep) = true) := h1
    by_cases h2 : ∃ i, (h.box sub).lo i > (h.box sub).hi i
    · refine ⟨TrackedInterval.clampSub (h.box sub), ?_, ?_⟩
      · unfold TrackedInterval.addTransform
        rw [if_neg h1, if_pos h2]
      · unfold Heap.addTransform
        rw [if_neg h1']
        simp only
        rw [if_pos h2]
        exact main _ _ rfl
    · refine ⟨h.box sub, ?_, ?_⟩
      · unfold TrackedInterval.addTransform
        rw [if_neg h1, if_neg h2]
      · unfold Heap.addTransform
        rw [if_neg h1']
        simp only
        rw [if_neg h2]
        exact main _ _ (setBox_self h sub).symm

theorem addTransform_next (h : Heap n K) (o sub : ℕ) (hne : sub ≠ (h.obj o).interval) :
    (h.addTransform o sub).next = h.next := by
  rcases addTransform_eq h o sub hne with ⟨_, _, e⟩ | ⟨_, S, _, e⟩ <;> rw [e] <;> rfl

/-- The addresses in the objects do not change. -/
theorem addTransform_obj (h : Heap n K) (o sub : ℕ) (hne : sub ≠ (h.obj o).interval) :
    ∃ b : Bool, (h.addTransform o sub).obj = Function.update h.obj o { h.obj o with empty := b } := by
  rcases addTransform_eq h o sub hne with ⟨_, _, e⟩ | ⟨_, S, _, e⟩ <;> rw [e]
  · exact ⟨true, rfl⟩
  · refine ⟨(h.obj o).empty, ?_⟩
    show h.obj = _
    simp

end Heap

end YRoots
