import Verif.Proofs.HeapSplit

/-!
# Reference model of the solver: combining
-/

set_option linter.unusedSectionVars false
set_option linter.unusedVariables false
set_option linter.unusedSimpArgs false

namespace YRoots

/-- Without the flag `reRun`. -/
def TrackedInterval.rr {n : ℕ} {K : Type*} (t : TrackedInterval n K) : TrackedInterval n K := { t with reRun := false }

namespace Heap

variable {n : ℕ} {K : Type*}

/-- The object at address `o` shows the value `t`, up to the flag `reRun`. -/
structure RRel (h : Heap n K) (o : ℕ) (t : TrackedInterval n K) : Prop where
  valid : Valid h o
  eq : (h.view o).rr = t.rr

theorem ObjRel.rrel {h : Heap n K} {o : ℕ} {t : TrackedInterval n K} (r : ObjRel h o t) : RRel h o t :=
  ⟨r.valid, by rw [r.eq]⟩

theorem RRel.ext {h h' : Heap n K} {o : ℕ} {t : TrackedInterval n K} (r : RRel h o t) (e : Ext h h') : RRel h' o t :=
  ⟨r.valid.ext e, by rw [e.view r.valid, r.eq]⟩

/-! ### Resetting `reRun` -/

/-- `o.reRun = False`. -/
def resetRR (h : Heap n K) (o : ℕ) : Heap n K := h.setObj o { h.obj o with reRun := false }

theorem resetRR_valid {h : Heap n K} {p : ℕ} (v : Valid h p) (o : ℕ) : Valid (h.resetRR o) p := by
  by_cases hp : p = o
  · subst hp
    constructor <;> simp only [resetRR, setObj, Function.update_self]
    exacts [v.self, v.top, v.interval, v.transforms, v.dup, v.nxt, v.preI, v.preT]
  · constructor <;> simp only [resetRR, setObj, Function.update_of_ne hp]
    exacts [v.self, v.top, v.interval, v.transforms, v.dup, v.nxt, v.preI, v.preT]

theorem resetRR_view (h : Heap n K) (o p : ℕ) :
    (h.resetRR o).view p = if p = o then (h.view p).rr else h.view p := by
  by_cases hp : p = o
  · subst hp
    simp [resetRR, setObj, Heap.view, TrackedInterval.rr]
  · simp [resetRR, setObj, Heap.view, Function.update_of_ne hp, hp]

theorem rr_rr (t : TrackedInterval n K) : t.rr.rr = t.rr := rfl

theorem resetRR_rrel {h : Heap n K} {p : ℕ} {t : TrackedInterval n K} (r : RRel h p t) (o : ℕ) :
    RRel (h.resetRR o) p t := by
  refine ⟨resetRR_valid r.valid o, ?_⟩
  rw [resetRR_view]
  split_ifs
  · rw [rr_rr, r.eq]
  · exact r.eq

theorem resetRR_rel {h : Heap n K} {p : ℕ} {t : TrackedInterval n K} (r : ObjRel h p t) (ht : t.reRun = false) (o : ℕ) :
    ObjRel (h.resetRR o) p t := by
  refine ⟨resetRR_valid r.valid o, ?_⟩
  rw [resetRR_view, r.eq]
  split_ifs
  · rw [TrackedInterval.rr, ← ht]
  · rfl

theorem resetRR_self {h : Heap n K} {p : ℕ} {t : TrackedInterval n K} (r : RRel h p t) :
    ObjRel (h.resetRR p) p t.rr := by
  refine ⟨resetRR_valid r.valid p, ?_⟩
  rw [resetRR_view, if_pos rfl, r.eq]

/-- What resetting the flag of some objects preserves. -/
structure Reset (h0 h h' : Heap n K) : Prop where
  ext : Ext h0 h'
  mext : MExt h h'
  rrel : ∀ p t, RRel h p t → RRel h' p t
  rel : ∀ p t, ObjRel h p t → t.reRun = false → ObjRel h' p t

theorem reset_fold {h0 : Heap n K} (l : List ℕ) {l' : List (TrackedInterval n K)} {h : Heap n K} (e : Ext h0 h)
    (hl : List.Forall₂ (fun x t => RRel h x t ∧ h0.next ≤ x) l l') :
    Reset h0 h (l.foldl (fun h o => h.setObj o { h.obj o with reRun := false }) h) ∧
      List.Forall₂ (fun x t => ObjRel (l.foldl (fun h o => h.setObj o { h.obj o with reRun := false }) h) x t ∧
        h0.next ≤ x) l (l'.map fun t => { t with reRun := false }) := by
  induction l generalizing l' h with
  | nil =>
    cases hl
    exact ⟨⟨e, MExt.refl h, fun _ _ r => r, fun _ _ r _ => r⟩, .nil⟩
  | cons a l ih =>
    cases hl with
    | cons ha hl =>
      rename_i t l'
      rw [List.foldl_cons]
      have e1 : Ext h0 (h.resetRR a) := e.setObj ha.2 _
      obtain ⟨r, f⟩ := ih e1 (hl.imp fun _ _ s => ⟨resetRR_rrel s.1 a, s.2⟩)
      have m1 : MExt h (h.resetRR a) := ⟨le_rfl, fun _ _ => rfl, fun _ _ => rfl, fun _ _ => rfl⟩
      refine ⟨⟨r.ext, m1.trans r.mext, fun p t s => r.rrel p t (resetRR_rrel s a),
        fun p t s ht => r.rel p t (resetRR_rel s ht a) ht⟩, .cons ⟨?_, ha.2⟩ f⟩
      exact r.rel _ _ (resetRR_self ha.1) rfl

variable [Field K] [LinearOrder K] [FloorSemiring K] [IsStrictOrderedRing K]

/-! ### The combined interval -/

/-- `combineIntervalsH` after the copy. -/
def combineBody (h : Heap n K) (c orig r1 r2 : ℕ) : Heap n K × ℕ :=
  let h := if (h.obj c).finalStep then
      let b := h.allocBox (h.box (h.obj c).preFinalInterval)
      let h := b.1.setObj c { b.1.obj c with interval := b.2 }
      let t := h.allocTrs (h.trs (h.obj c).preFinalTransforms)
      t.1.setObj c { t.1.obj c with transforms := t.2 }
    else h
  let newI := Box.hull (h.view r1).getIntervalForCombining (h.view r2).getIntervalForCombining
  let newFinal := Box.hull (h.view r1).getFinalInterval (h.view r2).getFinalInterval
  let s := h.allocBox (combinedSub (h.view orig).interval (h.view orig).getFinalInterval newI newFinal)
  let h := s.1.addTransform c s.2
  let b := h.allocBox newI
  let h := b.1.setObj c { b.1.obj c with interval := b.2 }
  let h := h.setObj c { h.obj c with reRun := true }
  (h, c)

theorem combineBody_spec (h H1 : Heap n K) {c orig r1 r2 : ℕ} {og u1 u2 : TrackedInterval n K}
    (ro : ObjRel h orig og) (s1 : ObjRel h r1 u1) (s2 : ObjRel h r2 u2) (C : ObjRel H1 c og.copy) (F : Fresh h H1 c)
    (S : SelfSep H1 c) (E : Ext h H1) :
    Ext h (combineBody H1 c orig r1 r2).1 ∧
      ObjRel (combineBody H1 c orig r1 r2).1 (combineBody H1 c orig r1 r2).2 (combineIntervals og u1 u2) ∧
      h.next ≤ (combineBody H1 c orig r1 r2).2 := by
  unfold combineBody
  have hfs : (H1.obj c).finalStep = og.copy.finalStep := by rw [← C.eq]; rfl
  -- the second heap
  obtain ⟨c2, hc2⟩ : ∃ c2, c2 = (if og.copy.finalStep then
    { og.copy with interval := og.copy.preFinalInterval, transforms := og.copy.preFinalTransforms } else og.copy) :=
    ⟨_, rfl⟩
  obtain ⟨H2, hH2⟩ : ∃ H2, H2 = (if (H1.obj c).finalStep = true then
      let b := H1.allocBox (H1.box (H1.obj c).preFinalInterval)
      let h := b.1.setObj c { b.1.obj c with interval := b.2 }
      let t := h.allocTrs (h.trs (h.obj c).preFinalTransforms)
      t.1.setObj c { t.1.obj c with transforms := t.2 }
    else H1) := ⟨_, rfl⟩
  have key : Ext h H2 ∧ ObjRel H2 c c2 ∧ SelfSep H2 c ∧ Fresh h H2 c := by
    by_cases hf : og.copy.finalStep = true
    · rw [hfs, if_pos hf] at hH2
      rw [if_pos hf] at hc2
      have hv := C.valid
      have g1 := hv.self
      have g2 := hv.top
      have g3 := hv.interval
      have g4 := hv.transforms
      have g5 := hv.dup
      have g6 := hv.nxt
      have g7 := hv.preI
      have g8 := hv.preT
      have ho : H2.obj c = { H1.obj c with interval := H1.next, transforms := H1.next + 1 } := by
        rw [hH2]; simp [setObj, allocBox, allocTrs]
      have hn : H2.next = H1.next + 2 := by rw [hH2]; rfl
      refine ⟨?_, ⟨⟨?_, ?_, ?_, ?_, ?_, ?_, ?_, ?_⟩, ?_⟩, ⟨?_, ?_, ?_⟩, ⟨F.self, ?_, ?_, ?_⟩⟩
      · rw [hH2]; exact (((E.allocBox _).setObj F.self _).allocTrs _).setObj F.self _
      · omega
      · rw [ho, hn]; dsimp only; omega
      · rw [ho, hn]; dsimp only; omega
      · rw [ho, hn]; dsimp only; omega
      · rw [ho, hn]; dsimp only; omega
      · rw [ho, hn]; dsimp only; omega
      · rw [ho, hn]; dsimp only; omega
      · rw [ho, hn]; dsimp only; omega
      · rw [hc2, ← C.eq]
        unfold Heap.view
        simp only [ho]
        rw [hH2]
        simp (disch := omega) [setObj, allocBox, allocTrs, Function.update_of_ne]
      · rw [ho]; dsimp only; omega
      · rw [ho]; dsimp only; omega
      · rw [ho]; dsimp only; omega
      · rw [ho]; dsimp only; exact E.next_le
      · rw [ho]; dsimp only; have := E.next_le; omega
      · rw [ho]; exact F.dup
    · rw [hfs, if_neg hf] at hH2
      rw [if_neg hf] at hc2
      rw [hH2, hc2]
      exact ⟨E, C, S, F⟩
  rw [← hH2]
  obtain ⟨E2, C2, S2, F2⟩ := key
  simp only
  rw [(s1.ext E2).eq, (s2.ext E2).eq, (ro.ext E2).eq]
  obtain ⟨newI, hnewI⟩ : ∃ x, x = Box.hull u1.getIntervalForCombining u2.getIntervalForCombining := ⟨_, rfl⟩
  obtain ⟨B, hB⟩ : ∃ B, B = combinedSub og.interval og.getFinalInterval newI
    (Box.hull u1.getFinalInterval u2.getFinalInterval) := ⟨_, rfl⟩
  have hcomb : combineIntervals og u1 u2 = { c2.addTransform B with interval := newI, reRun := true } := by
    rw [hB, hnewI, hc2]
    rfl
  rw [← hnewI, ← hB, hcomb]
  have T3 := addTransform_touch H2 C2.valid B
  have V3 := addTransform_new_view H2 C2.valid S2 B
  rw [C2.eq] at V3
  have hsnd : (H2.allocBox B).2 = H2.next := rfl
  rw [hsnd]
  have vd := T3.valid C2.valid
  have E3 := T3.ext E2 F2
  generalize (H2.allocBox B).1.addTransform c H2.next = H3 at T3 V3 vd E3 ⊢
  refine ⟨((E3.allocBox _).setObj F.self _).setObj F.self _, ?_, F.self⟩
  have g1 := vd.self
  have g2 := vd.top
  have g3 := vd.interval
  have g4 := vd.transforms
  have g5 := vd.dup
  have g6 := vd.nxt
  have g7 := vd.preI
  have g8 := vd.preT
  refine ⟨⟨?_, ?_, ?_, ?_, ?_, ?_, ?_, ?_⟩, ?_⟩
  · simp only [setObj, allocBox]; omega
  all_goals try (simp only [setObj, allocBox, Function.update_self]; omega)
  rw [← V3]
  simp (disch := omega) [Heap.view, setObj, allocBox, Function.update_of_ne]

theorem combineIntervalsH_spec (h : Heap n K) {orig r1 r2 : ℕ} {og u1 u2 : TrackedInterval n K}
    (ro : ObjRel h orig og) (s1 : ObjRel h r1 u1) (s2 : ObjRel h r2 u2) :
    Ext h (combineIntervalsH h orig r1 r2).1 ∧
      ObjRel (combineIntervalsH h orig r1 r2).1 (combineIntervalsH h orig r1 r2).2 (combineIntervals og u1 u2) ∧
      h.next ≤ (combineIntervalsH h orig r1 r2).2 :=
  combineBody_spec h (h.copyTI orig).1 ro s1 s2 (copyTI_rel h ro) (copyTI_fresh h orig) (copyTI_selfSep h ro.valid)
    ((Ext.refl h).copyTI orig)

/-! ### The loops -/

theorem forall₂_eraseIdx {A A' : Type*} {R : A → A' → Prop} {l : List A} {l' : List A'} (hl : List.Forall₂ R l l') (k : ℕ) :
    List.Forall₂ R (l.eraseIdx k) (l'.eraseIdx k) := by
  induction hl generalizing k with
  | nil => simp
  | cons h1 h2 ih =>
    cases k with
    | zero => simpa using h2
    | succ k => simpa using ⟨h1, ih k⟩

theorem forall₂_getElem? {A A' : Type*} {R : A → A' → Prop} {l : List A} {l' : List A'} (hl : List.Forall₂ R l l') (k : ℕ) :
    (l[k]? = none ∧ l'[k]? = none) ∨ ∃ a a', l[k]? = some a ∧ l'[k]? = some a' ∧ R a a' := by
  by_cases hk : k < l.length
  · have hk' : k < l'.length := hl.length_eq ▸ hk
    right
    exact ⟨l[k], l'[k], List.getElem?_eq_getElem hk, List.getElem?_eq_getElem hk', hl.get hk hk'⟩
  · have hk' : ¬ k < l'.length := hl.length_eq ▸ hk
    left
    exact ⟨List.getElem?_eq_none (by omega), List.getElem?_eq_none (by omega)⟩

theorem combineRunH_spec (k : ℕ) {orig : ℕ} {og : TrackedInterval n K} (fuel : ℕ) (h : Heap n K) (ro : ObjRel h orig og)
    (hk : k ≤ h.next) {l : List ℕ} {l' : List (TrackedInterval n K)}
    (hl : List.Forall₂ (fun x t => ObjRel h x t ∧ k ≤ x) l l') (i j : ℕ) :
    Ext h (combineRunH orig fuel h ⟨l, i, j⟩).1 ∧
      ExcRel (List.Forall₂ fun x t => ObjRel (combineRunH orig fuel h ⟨l, i, j⟩).1 x t ∧ k ≤ x)
        (combineRunH orig fuel h ⟨l, i, j⟩).2
        (combineRun TrackedInterval.overlapsWith (combineIntervals og) fuel ⟨l', i, j⟩) := by
  induction fuel generalizing h l l' i j with
  | zero => exact ⟨Ext.refl h, rfl⟩
  | succ fuel ih =>
    unfold combineRunH combineRun combineStepH combineStep
    simp only
    rcases forall₂_getElem? hl i with ⟨x, y⟩ | ⟨a, a', x, y, ra⟩
    · rw [x, y]
      exact ⟨Ext.refl h, hl⟩
    · rw [x, y]
      simp only
      rcases forall₂_getElem? hl j with ⟨x, y⟩ | ⟨b, b', x, y, rb⟩
      · rw [x, y]
        exact ih h ro hk hl _ _
      · rw [x, y]
        simp only
        rw [ra.1.eq, rb.1.eq]
        by_cases hc : a'.overlapsWith b' = true
        · simp only [if_pos hc]
          obtain ⟨e1, o1, n1⟩ := combineIntervalsH_spec h ro ra.1 rb.1
          have hl1 : List.Forall₂ (fun x t => ObjRel (combineIntervalsH h orig a b).1 x t ∧ k ≤ x)
              ((l.eraseIdx j).eraseIdx i ++ [(combineIntervalsH h orig a b).2])
              ((l'.eraseIdx j).eraseIdx i ++ [combineIntervals og a' b']) :=
            List.rel_append ((forall₂_eraseIdx (forall₂_eraseIdx hl j) i).imp fun _ _ s => ⟨s.1.ext e1, s.2⟩)
              (.cons ⟨o1, hk.trans n1⟩ .nil)
          obtain ⟨e2, f2⟩ := ih _ (ro.ext e1) (hk.trans e1.next_le) hl1 i (i + 1)
          exact ⟨e1.trans e2, f2⟩
        · simp only [if_neg hc]
          exact ih h ro hk hl _ _

theorem combineExteriorH_spec {h0 h : Heap n K} (e : Ext h0 h) {orig : ℕ} {og : TrackedInterval n K}
    (ro : ObjRel h orig og) (hrr : og.reRun = false) {l : List ℕ} {l' : List (TrackedInterval n K)}
    (hl : List.Forall₂ (fun x t => RRel h x t ∧ h0.next ≤ x) l l') :
    Reset h0 h (combineExteriorH h orig l).1 ∧
      ExcRel (List.Forall₂ fun x t => ObjRel (combineExteriorH h orig l).1 x t ∧ h0.next ≤ x)
        (combineExteriorH h orig l).2 (combineExterior og l') := by
  obtain ⟨r, f⟩ := reset_fold l e hl
  unfold combineExteriorH combineExterior combineAll
  simp only
  generalize l.foldl (fun h o => h.setObj o { h.obj o with reRun := false }) h = h1 at r f ⊢
  have hlen : (l'.map fun t => ({ t with reRun := false } : TrackedInterval n K)).length = l.length := f.length_eq.symm
  rw [hlen]
  obtain ⟨e2, f2⟩ := combineRunH_spec h0.next ((l.length + 2) ^ 3) h1 (r.rel _ _ ro hrr) r.ext.next_le f 0 1
  exact ⟨⟨r.ext.trans e2, r.mext.trans e2.mext, fun p t s => (r.rrel p t s).ext e2, fun p t s ht => (r.rel p t s ht).ext e2⟩,
    f2⟩

end Heap

end YRoots
