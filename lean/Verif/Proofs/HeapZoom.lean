import Verif.Proofs.HeapTouch

/-!
# Reference model of the solver: trimming and zooming
-/

set_option linter.unusedSectionVars false
set_option linter.unusedVariables false
set_option linter.unusedSimpArgs false

namespace YRoots

namespace Heap

variable {n : ℕ} {K : Type*} [Field K] [LinearOrder K] [FloorSemiring K]

/-! ### Trimming -/

/-- What `trimMs` writes: the list `m` and the vector `e`. -/
structure TrimFrame (m e : ℕ) (h h' : Heap n K) : Prop where
  next_le : h.next ≤ h'.next
  obj : h'.obj = h.obj
  box : h'.box = h.box
  trs : h'.trs = h.trs
  pts : h'.pts = h.pts
  vec : ∀ a, a ≠ e → h'.vec a = h.vec a
  tensor : ∀ a < h.next, h'.tensor a = h.tensor a
  mlist : ∀ a, a ≠ m → h'.mlist a = h.mlist a

theorem TrimFrame.trans {m e : ℕ} {h h' h'' : Heap n K} (a : TrimFrame m e h h') (b : TrimFrame m e h' h'') :
    TrimFrame m e h h'' :=
  ⟨a.next_le.trans b.next_le, b.obj.trans a.obj, b.box.trans a.box, b.trs.trans a.trs, b.pts.trans a.pts,
    fun x hx => (b.vec x hx).trans (a.vec x hx),
    fun x hx => (b.tensor x (hx.trans_le a.next_le)).trans (a.tensor x hx),
    fun x hx => (b.mlist x hx).trans (a.mlist x hx)⟩

theorem TrimFrame.ext {m e : ℕ} {h0 h h' : Heap n K} (t : TrimFrame m e h h') (x : Ext h0 h) (hm : h0.next ≤ m)
    (he : h0.next ≤ e) : Ext h0 h' := by
  have hn := x.next_le
  constructor
  · exact hn.trans t.next_le
  · intro a ha; rw [t.box]; exact x.box a ha
  · intro a ha; rw [t.trs]; exact x.trs a ha
  · intro a ha; rw [t.pts]; exact x.pts a ha
  · intro a ha; rw [t.vec a (by omega)]; exact x.vec a ha
  · intro a ha; rw [t.tensor a (by omega)]; exact x.tensor a ha
  · intro a ha; rw [t.mlist a (by omega)]; exact x.mlist a ha
  · intro a ha; rw [t.obj]; exact x.obj a ha

/-- Objects whose split points are another vector. -/
theorem TrimFrame.obj_rel {m e : ℕ} {h h' : Heap n K} (t : TrimFrame m e h h') {o : ℕ} {x : TrackedInterval n K}
    (r : ObjRel h o x) (hne : (h.obj o).nextTransformPoints ≠ e) : ObjRel h' o x := by
  have v := r.valid
  have hn := t.next_le
  constructor
  · refine ⟨v.self.trans_le hn, ?_, ?_, ?_, ?_, ?_, ?_, ?_⟩ <;> rw [t.obj]
    exacts [v.top.trans_le hn, v.interval.trans_le hn, v.transforms.trans_le hn, v.dup.trans_le hn, v.nxt.trans_le hn,
      v.preI.trans_le hn, v.preT.trans_le hn]
  · rw [← r.eq]
    simp only [Heap.view, t.obj, t.box, t.trs, t.pts]
    rw [t.vec _ hne]

theorem TrimFrame.ms_rel {m e : ℕ} {h h' : Heap n K} (t : TrimFrame m e h h') {m' : ℕ} {Ms : Fin n → Tensor n K}
    (r : MsRel h m' Ms) (hne : m' ≠ m) : MsRel h' m' Ms := by
  have hm := t.mlist m' hne
  refine ⟨r.lt.trans_le t.next_le, fun i => by rw [hm]; exact (r.elem_lt i).trans_le t.next_le, ?_⟩
  rw [← r.eq]
  funext i
  unfold tensors
  rw [hm, t.tensor _ (r.elem_lt i)]

theorem trimMsH_spec (h : Heap n K) {m e : ℕ} {Ms : Fin n → Tensor n K} {errs : Fin n → K} (hm : MsRel h m Ms)
    (he : VecRel h e errs) (relTol absTol : K) :
    TrimFrame m e h (trimMsH h m e relTol absTol) ∧
      MsRel (trimMsH h m e relTol absTol) m (trimMs Ms errs relTol absTol).1 ∧
      VecRel (trimMsH h m e relTol absTol) e (trimMs Ms errs relTol absTol).2 := by
  unfold trimMsH
  have key : ∀ l : List (Fin n), l.Nodup → ∀ h : Heap n K, ∀ Ms : Fin n → Tensor n K, ∀ errs : Fin n → K,
      MsRel h m Ms → VecRel h e errs →
      let h' := l.foldl (fun h i =>
        let s := trimPoly (h.tensor (h.mlist m i)) (h.vec e i) relTol absTol
        let r := h.allocTensor s.M
        let h := r.1.setMlist m (Function.update (r.1.mlist m) i r.2)
        h.setVec e (Function.update (h.vec e) i s.err)) h
      TrimFrame m e h h' ∧
      MsRel h' m (fun i => if i ∈ l then (trimPoly (Ms i) (errs i) relTol absTol).M else Ms i) ∧
      VecRel h' e (fun i => if i ∈ l then (trimPoly (Ms i) (errs i) relTol absTol).err else errs i) := by
    intro l
    induction l with
    | nil =>
      intro _ h Ms errs hm he
      refine ⟨?_, by simpa using hm, by simpa using he⟩
      constructor <;> simp
    | cons j l ih =>
      intro hl h Ms errs hm he
      obtain ⟨hj, hl⟩ := List.nodup_cons.1 hl
      rw [List.foldl_cons]
      have hMj : h.tensor (h.mlist m j) = Ms j := congrFun hm.eq j
      have hEj : h.vec e j = errs j := by rw [he.eq]
      obtain ⟨s, hs⟩ : ∃ s, s = trimPoly (Ms j) (errs j) relTol absTol := ⟨_, rfl⟩
      obtain ⟨h1, hh1⟩ : ∃ h1, h1 = ((h.allocTensor s.M).1.setMlist m
        (Function.update ((h.allocTensor s.M).1.mlist m) j (h.allocTensor s.M).2)).setVec e
          (Function.update (h.vec e) j s.err) := ⟨_, rfl⟩
      have f1 : TrimFrame m e h h1 := by
        rw [hh1]
        constructor <;> simp [setVec, setMlist, allocTensor]
        · intro a ha; rw [Function.update_of_ne ha]
        · intro a ha; rw [Function.update_of_ne ha.ne]
        · intro a ha; rw [Function.update_of_ne ha]
      have m1 : MsRel h1 m (Function.update Ms j s.M) := by
        rw [hh1]
        have hmlt := hm.lt
        refine ⟨by simp [setVec, setMlist, allocTensor]; omega, fun i => ?_, ?_⟩
        · simp only [setVec, setMlist, allocTensor, Function.update_self]
          by_cases hi : i = j
          · subst hi; simp
          · rw [Function.update_of_ne hi]
            have := hm.elem_lt i
            omega
        · funext i
          simp only [tensors, setVec, setMlist, allocTensor, Function.update_self]
          by_cases hi : i = j
          · subst hi; simp
          · rw [Function.update_of_ne hi, Function.update_of_ne hi, Function.update_of_ne (hm.elem_lt i).ne]
            exact congrFun hm.eq i
      have e1 : VecRel h1 e (Function.update errs j s.err) := by
        rw [hh1]
        have := he.lt
        refine ⟨by simp [setVec, setMlist, allocTensor]; omega, ?_⟩
        simp [setVec, he.eq]
      obtain ⟨f2, m2, e2⟩ := ih hl h1 _ _ m1 e1
      have hstep : (let s := trimPoly (h.tensor (h.mlist m j)) (h.vec e j) relTol absTol
        let r := h.allocTensor s.M
        let h := r.1.setMlist m (Function.update (r.1.mlist m) j r.2)
        h.setVec e (Function.update (h.vec e) j s.err)) = h1 := by
        rw [hMj, hEj, hh1, hs]
        rfl
      rw [hstep]
      refine ⟨f1.trans f2, ?_, ?_⟩
      · convert m2 using 1
        funext i
        by_cases hi : i = j
        · subst hi
          simp [hj, hs]
        · simp [hi]
      · convert e2 using 1
        funext i
        by_cases hi : i = j
        · subst hi
          simp [hj, hs]
        · simp [hi]
  obtain ⟨f, mm, ee⟩ := key (List.finRange n) (List.nodup_finRange n) h Ms errs hm he
  refine ⟨f, ?_, ?_⟩
  · simpa [trimMs] using mm
  · simpa [trimMs] using ee

/-! ### Zooming -/

/-- Corresponding results of a zoom of the object `o`. -/
structure ZoomRel (h : Heap n K) (o : ℕ) (z : ZoomRef) (z' : ZoomResult n K) : Prop where
  ti : z.ti = o
  view : h.view o = z'.ti
  Ms : MsRel h z.Ms z'.Ms
  errors : VecRel h z.errors z'.errors
  changed : z.changed = z'.changed
  shouldStop : z.shouldStop = z'.shouldStop

theorem allocBox_setBox (h : Heap n K) (v w : Box n K) :
    (h.allocBox v).1.setBox h.next w = (h.allocBox w).1 := by
  simp [allocBox, setBox, Function.update_idem]

theorem zoomIterH_spec (svd : SVD n K) (h : Heap n K) {m e o : ℕ} {Ms : Fin n → Tensor n K} {errs : Fin n → K}
    {t : TrackedInterval n K} (hm : MsRel h m Ms) (he : VecRel h e errs) (r : ObjRel h o t) (s : SelfSep h o)
    (exact : Bool) :
    Touch o h (zoomIterH svd h m e o exact).1 ∧
      ExcRel (ZoomRel (zoomIterH svd h m e o exact).1 o) (zoomIterH svd h m e o exact).2
        (zoomInOnIntervalIter svd Ms errs t exact) := by
  have v := r.valid
  have hfs : (h.obj o).finalStep = t.finalStep := by rw [← r.eq]; rfl
  have hiv : h.box (h.obj o).interval = t.interval := by rw [← r.eq]; rfl
  unfold zoomIterH zoomInOnIntervalIter
  rw [hm.eq, he.eq, hfs]
  obtain ⟨R, hR⟩ : ∃ R, R = boundingIntervalLinearSystem svd Ms errs t.finalStep := ⟨_, rfl⟩
  rw [← hR]
  have hbox : (h.allocBox R.interval).1.box ((h.allocBox R.interval).1.obj o).interval = t.interval := by
    rw [← hiv]
    simp [allocBox, Function.update_of_ne v.interval.ne]
  have hbox2 : (h.allocBox R.interval).1.box (h.allocBox R.interval).2 = R.interval := by simp [allocBox]
  simp only [hbox, hbox2]
  have hsnd : (h.allocBox R.interval).2 = h.next := rfl
  rw [hsnd, allocBox_setBox]
  obtain ⟨B, hB⟩ : ∃ B, B = skipPointDims t.interval R.interval := ⟨_, rfl⟩
  rw [← hB]
  have e1 : Ext h (h.allocBox B).1 := (Ext.refl h).allocBox B
  have r1 := r.ext e1
  have hct : ((h.allocBox B).1.view o).canThrowOut = t.canThrowOut := by rw [r1.eq]
  rw [hct]
  by_cases c1 : (R.throwOut && !(R.throwOut && !t.canThrowOut)) = true
  · simp only [if_pos c1]
    refine ⟨(e1.touch v).trans (touch_setObj _ rfl rfl rfl rfl rfl rfl rfl), ⟨rfl, ?_, ?_, ?_, rfl, rfl⟩⟩
    · rw [setObj_view, ← r1.eq]
      rfl
    · exact hm.mext (e1.mext.trans (touch_setObj (o := o) (h.allocBox B).1 (r := { (h.allocBox B).1.obj o with empty := true })
        rfl rfl rfl rfl rfl rfl rfl).mext)
    · exact he.mext (e1.mext.trans (touch_setObj (o := o) (h.allocBox B).1 (r := { (h.allocBox B).1.obj o with empty := true })
        rfl rfl rfl rfl rfl rfl rfl).mext)
  simp only [if_neg c1]
  by_cases c2 : (!(R.changed || R.throwOut && !t.canThrowOut)) = true
  · simp only [if_pos c2]
    exact ⟨e1.touch v, ⟨rfl, r1.eq, hm.mext e1.mext, he.mext e1.mext, rfl, rfl⟩⟩
  · simp only [if_neg c2]
    have t1 := addTransform_touch h v B
    have v1 := addTransform_new_view h v s B
    rw [r.eq] at v1
    obtain ⟨h1, hh1⟩ : ∃ h1, h1 = (h.allocBox B).1.addTransform o h.next := ⟨_, rfl⟩
    rw [← hh1] at t1 v1 ⊢
    have hlast : (h1.trs (h1.obj o).transforms).getLast? = (t.addTransform B).getLastTransform := by
      rw [← v1]; rfl
    rw [hlast]
    cases hl : (t.addTransform B).getLastTransform with
    | none => exact ⟨t1, rfl⟩
    | some ab =>
      obtain ⟨x1, x2, x3⟩ := transformChebToIntervalH_spec h1 (hm.mext t1.mext) (he.mext t1.mext) ab.1 ab.2 exact
      simp only
      obtain ⟨p, hp⟩ : ∃ p, p = transformChebToIntervalH h1 m ab.1 ab.2 e exact := ⟨_, rfl⟩
      rw [← hp] at x1 x2 x3 ⊢
      have ov : ObjRel h1 o (t.addTransform B) := ⟨t1.valid v, v1⟩
      have ov1 := ov.ext x1
      have hf1 : (p.1.obj o).finalStep = (t.addTransform B).finalStep := by rw [← ov1.eq]; rfl
      rw [hf1, ov1.eq]
      by_cases c3 : ((t.addTransform B).finalStep && (t.addTransform B).isPoint) = true
      · simp only [if_pos c3]
        exact ⟨t1.trans (x1.touch ov.valid), ⟨rfl, ov1.eq, x2, x3, rfl, rfl⟩⟩
      · simp only [if_neg c3]
        exact ⟨t1.trans (x1.touch ov.valid), ⟨rfl, ov1.eq, x2, x3, rfl, rfl⟩⟩

theorem zoomLoopH_spec (svd : SVD n K) (exact : Bool) (maxZoom : ℕ) (fuel : ℕ) (h : Heap n K) {m e o : ℕ}
    {Ms : Fin n → Tensor n K} {errs : Fin n → K} {t : TrackedInterval n K} (hm : MsRel h m Ms) (he : VecRel h e errs)
    (r : ObjRel h o t) (s : SelfSep h o) (sizes : Fin n → K) (count : ℕ) :
    Touch o h (zoomLoopH svd exact maxZoom fuel h m e o sizes count).1 ∧
      ExcRel (ZoomRel (zoomLoopH svd exact maxZoom fuel h m e o sizes count).1 o)
        (zoomLoopH svd exact maxZoom fuel h m e o sizes count).2
        (zoomLoop svd exact maxZoom fuel Ms errs t sizes count) := by
  induction fuel generalizing h m e Ms errs t sizes count with
  | zero => exact ⟨Touch.refl o h, rfl⟩
  | succ fuel ih =>
    obtain ⟨t1, f1⟩ := zoomIterH_spec svd h hm he r s exact
    unfold zoomLoopH zoomLoop
    rcases hz : zoomIterH svd h m e o exact with ⟨h1, z⟩
    rw [hz] at t1 f1
    cases z with
    | error x =>
      cases hz' : zoomInOnIntervalIter svd Ms errs t exact with
      | error y => rw [hz'] at f1; exact ⟨t1, f1⟩
      | ok z' => rw [hz'] at f1; exact f1.elim
    | ok z =>
      cases hz' : zoomInOnIntervalIter svd Ms errs t exact with
      | error y => rw [hz'] at f1; exact f1.elim
      | ok z' =>
        rw [hz'] at f1
        have f1 : ZoomRel h1 o z z' := f1
        have t1 : Touch o h h1 := t1
        have hemp : (h1.obj z.ti).empty = z'.ti.empty := by rw [f1.ti, ← f1.view]; rfl
        have hds : (h1.view z.ti).dimSize = z'.ti.dimSize := by rw [f1.ti, f1.view]
        simp only [hemp, hds, f1.changed]
        split_ifs with c1 c2 c3 c3
        · exact ⟨t1, f1⟩
        all_goals first
          | exact ⟨t1, f1⟩
          | (have hti := f1.ti
             rw [hti]
             obtain ⟨t2, f2⟩ := ih h1 f1.Ms f1.errors ⟨t1.valid r.valid, f1.view⟩ (t1.selfSep r.valid s) z'.ti.dimSize _
             exact ⟨t1.trans t2, f2⟩)

end Heap

end YRoots
