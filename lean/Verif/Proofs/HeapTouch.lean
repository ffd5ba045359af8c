import Verif.Proofs.HeapLoops

/-!
# Reference model of the solver: operations on one interval object
-/

set_option linter.unusedSectionVars false
set_option linter.unusedVariables false
set_option linter.unusedSimpArgs false

namespace YRoots

namespace Heap

variable {n : ℕ} {K : Type*}

/-- The interval array and the list of transforms of the object are not its other arrays and lists. -/
structure SelfSep (h : Heap n K) (o : ℕ) : Prop where
  top : (h.obj o).topInterval ≠ (h.obj o).interval
  preI : (h.obj o).preFinalInterval ≠ (h.obj o).interval
  preT : (h.obj o).preFinalTransforms ≠ (h.obj o).transforms

/-- What belongs to `o` is newer than `h0`. -/
structure Fresh (h0 h : Heap n K) (o : ℕ) : Prop where
  self : h0.next ≤ o
  interval : h0.next ≤ (h.obj o).interval
  transforms : h0.next ≤ (h.obj o).transforms
  dup : h0.next ≤ (h.obj o).possibleDuplicateRoots

/-- The object `p` does not see what belongs to `o`. -/
structure Apart (h : Heap n K) (o p : ℕ) : Prop where
  self : p ≠ o
  top : (h.obj p).topInterval ≠ (h.obj o).interval
  interval : (h.obj p).interval ≠ (h.obj o).interval
  preI : (h.obj p).preFinalInterval ≠ (h.obj o).interval
  transforms : (h.obj p).transforms ≠ (h.obj o).transforms
  preT : (h.obj p).preFinalTransforms ≠ (h.obj o).transforms
  dup : (h.obj p).possibleDuplicateRoots ≠ (h.obj o).possibleDuplicateRoots

/-- Of the cells in use only those that belong to `o` may have changed. -/
structure Touch (o : ℕ) (h h' : Heap n K) : Prop where
  next_le : h.next ≤ h'.next
  obj : ∀ a < h.next, a ≠ o → h'.obj a = h.obj a
  box : ∀ a < h.next, a ≠ (h.obj o).interval → h'.box a = h.box a
  trs : ∀ a < h.next, a ≠ (h.obj o).transforms → h'.trs a = h.trs a
  pts : ∀ a < h.next, a ≠ (h.obj o).possibleDuplicateRoots → h'.pts a = h.pts a
  vec : ∀ a < h.next, h'.vec a = h.vec a
  tensor : ∀ a < h.next, h'.tensor a = h.tensor a
  mlist : ∀ a < h.next, h'.mlist a = h.mlist a
  top : (h'.obj o).topInterval = (h.obj o).topInterval
  interval : (h'.obj o).interval = (h.obj o).interval
  transforms : (h'.obj o).transforms = (h.obj o).transforms
  dup : (h'.obj o).possibleDuplicateRoots = (h.obj o).possibleDuplicateRoots
  nxt : (h'.obj o).nextTransformPoints = (h.obj o).nextTransformPoints
  preI : (h'.obj o).preFinalInterval = (h.obj o).preFinalInterval ∨
    (h.next ≤ (h'.obj o).preFinalInterval ∧ (h'.obj o).preFinalInterval < h'.next)
  preT : (h'.obj o).preFinalTransforms = (h.obj o).preFinalTransforms ∨
    (h.next ≤ (h'.obj o).preFinalTransforms ∧ (h'.obj o).preFinalTransforms < h'.next)

theorem Touch.refl (o : ℕ) (h : Heap n K) : Touch o h h := by constructor <;> simp

theorem Ext.touch {h h' : Heap n K} (e : Ext h h') {o : ℕ} (v : Valid h o) : Touch o h h' := by
  have ho := e.obj o v.self
  constructor
  · exact e.next_le
  · exact fun a ha _ => e.obj a ha
  · exact fun a ha _ => e.box a ha
  · exact fun a ha _ => e.trs a ha
  · exact fun a ha _ => e.pts a ha
  · exact e.vec
  · exact e.tensor
  · exact e.mlist
  all_goals rw [ho]
  all_goals exact Or.inl rfl

theorem Touch.valid {o : ℕ} {h h' : Heap n K} (t : Touch o h h') (v : Valid h o) : Valid h' o := by
  have hn := t.next_le
  refine ⟨v.self.trans_le hn, by rw [t.top]; exact v.top.trans_le hn, by rw [t.interval]; exact v.interval.trans_le hn,
    by rw [t.transforms]; exact v.transforms.trans_le hn, by rw [t.dup]; exact v.dup.trans_le hn,
    by rw [t.nxt]; exact v.nxt.trans_le hn, ?_, ?_⟩
  · rcases t.preI with e | e
    · rw [e]; exact v.preI.trans_le hn
    · exact e.2
  · rcases t.preT with e | e
    · rw [e]; exact v.preT.trans_le hn
    · exact e.2

theorem Touch.trans {o : ℕ} {h h' h'' : Heap n K} (a : Touch o h h') (b : Touch o h' h'') : Touch o h h'' := by
  have hn := a.next_le
  have hn' := b.next_le
  constructor
  · exact hn.trans hn'
  · exact fun x hx ne => (b.obj x (hx.trans_le hn) ne).trans (a.obj x hx ne)
  · exact fun x hx ne => (b.box x (hx.trans_le hn) (by rw [a.interval]; exact ne)).trans (a.box x hx ne)
  · exact fun x hx ne => (b.trs x (hx.trans_le hn) (by rw [a.transforms]; exact ne)).trans (a.trs x hx ne)
  · exact fun x hx ne => (b.pts x (hx.trans_le hn) (by rw [a.dup]; exact ne)).trans (a.pts x hx ne)
  · exact fun x hx => (b.vec x (hx.trans_le hn)).trans (a.vec x hx)
  · exact fun x hx => (b.tensor x (hx.trans_le hn)).trans (a.tensor x hx)
  · exact fun x hx => (b.mlist x (hx.trans_le hn)).trans (a.mlist x hx)
  · rw [b.top, a.top]
  · rw [b.interval, a.interval]
  · rw [b.transforms, a.transforms]
  · rw [b.dup, a.dup]
  · rw [b.nxt, a.nxt]
  · rcases b.preI with e | e
    · rw [e]
      rcases a.preI with f | f
      · exact Or.inl f
      · exact Or.inr ⟨f.1, f.2.trans_le hn'⟩
    · exact Or.inr ⟨hn.trans e.1, e.2⟩
  · rcases b.preT with e | e
    · rw [e]
      rcases a.preT with f | f
      · exact Or.inl f
      · exact Or.inr ⟨f.1, f.2.trans_le hn'⟩
    · exact Or.inr ⟨hn.trans e.1, e.2⟩

theorem Touch.mext {o : ℕ} {h h' : Heap n K} (t : Touch o h h') : MExt h h' := ⟨t.next_le, t.vec, t.tensor, t.mlist⟩

/-- Cells older than everything that belongs to `o` have not changed. -/
theorem Touch.ext {o : ℕ} {h0 h h' : Heap n K} (t : Touch o h h') (e : Ext h0 h) (f : Fresh h0 h o) : Ext h0 h' := by
  have hn := e.next_le
  constructor
  · exact hn.trans t.next_le
  · intro a ha
    exact (t.box a (ha.trans_le hn) (by have := f.interval; omega)).trans (e.box a ha)
  · intro a ha
    exact (t.trs a (ha.trans_le hn) (by have := f.transforms; omega)).trans (e.trs a ha)
  · intro a ha
    exact (t.pts a (ha.trans_le hn) (by have := f.dup; omega)).trans (e.pts a ha)
  · intro a ha
    exact (t.vec a (ha.trans_le hn)).trans (e.vec a ha)
  · intro a ha
    exact (t.tensor a (ha.trans_le hn)).trans (e.tensor a ha)
  · intro a ha
    exact (t.mlist a (ha.trans_le hn)).trans (e.mlist a ha)
  · intro a ha
    exact (t.obj a (ha.trans_le hn) (by have := f.self; omega)).trans (e.obj a ha)

theorem Touch.fresh {o : ℕ} {h0 h h' : Heap n K} (t : Touch o h h') (f : Fresh h0 h o) : Fresh h0 h' o :=
  ⟨f.self, by rw [t.interval]; exact f.interval, by rw [t.transforms]; exact f.transforms, by rw [t.dup]; exact f.dup⟩

theorem Touch.selfSep {o : ℕ} {h h' : Heap n K} (t : Touch o h h') (v : Valid h o) (s : SelfSep h o) :
    SelfSep h' o := by
  refine ⟨by rw [t.top, t.interval]; exact s.top, ?_, ?_⟩
  · rw [t.interval]
    rcases t.preI with e | e
    · rw [e]; exact s.preI
    · have := v.interval; omega
  · rw [t.transforms]
    rcases t.preT with e | e
    · rw [e]; exact s.preT
    · have := v.transforms; omega

theorem Touch.apart {o p : ℕ} {h h' : Heap n K} (t : Touch o h h') (v : Valid h p) (a : Apart h o p) :
    Apart h' o p := by
  have hp := t.obj p v.self a.self
  refine ⟨a.self, ?_, ?_, ?_, ?_, ?_, ?_⟩ <;> rw [hp]
  · rw [t.interval]; exact a.top
  · rw [t.interval]; exact a.interval
  · rw [t.interval]; exact a.preI
  · rw [t.transforms]; exact a.transforms
  · rw [t.transforms]; exact a.preT
  · rw [t.dup]; exact a.dup

theorem Touch.other {o p : ℕ} {h h' : Heap n K} (t : Touch o h h') (a : Apart h o p) {x : TrackedInterval n K}
    (r : ObjRel h p x) : ObjRel h' p x := by
  have v := r.valid
  have hp := t.obj p v.self a.self
  have hn := t.next_le
  constructor
  · refine ⟨v.self.trans_le hn, ?_, ?_, ?_, ?_, ?_, ?_, ?_⟩ <;> rw [hp]
    exacts [v.top.trans_le hn, v.interval.trans_le hn, v.transforms.trans_le hn, v.dup.trans_le hn, v.nxt.trans_le hn,
      v.preI.trans_le hn, v.preT.trans_le hn]
  · rw [← r.eq]
    simp only [Heap.view, hp]
    rw [t.box _ v.top a.top, t.box _ v.interval a.interval, t.box _ v.preI a.preI, t.trs _ v.transforms a.transforms,
      t.trs _ v.preT a.preT, t.pts _ v.dup a.dup, t.vec _ v.nxt]

/-! ### Writing attributes -/

theorem touch_setObj {o : ℕ} (h : Heap n K) {r : TIRef} (h1 : r.topInterval = (h.obj o).topInterval)
    (h2 : r.interval = (h.obj o).interval) (h3 : r.transforms = (h.obj o).transforms)
    (h4 : r.possibleDuplicateRoots = (h.obj o).possibleDuplicateRoots)
    (h5 : r.nextTransformPoints = (h.obj o).nextTransformPoints)
    (h6 : r.preFinalInterval = (h.obj o).preFinalInterval)
    (h7 : r.preFinalTransforms = (h.obj o).preFinalTransforms) : Touch o h (h.setObj o r) := by
  constructor <;> simp [setObj, h1, h2, h3, h4, h5, h6, h7]
  intro a _ hne
  rw [Function.update_of_ne hne]

theorem setObj_view {o : ℕ} (h : Heap n K) {r : TIRef} : (h.setObj o r).view o =
    { topInterval := h.box r.topInterval
      interval := h.box r.interval
      transforms := h.trs r.transforms
      empty := r.empty
      finalStep := r.finalStep
      canThrowOutFinalStep := r.canThrowOutFinalStep
      possibleDuplicateRoots := h.pts r.possibleDuplicateRoots
      possibleExtraRoot := r.possibleExtraRoot
      nextTransformPoints := h.vec r.nextTransformPoints
      preFinalInterval := h.box r.preFinalInterval
      preFinalTransforms := h.trs r.preFinalTransforms
      reRun := r.reRun } := by
  simp [Heap.view, setObj]

theorem touch_setPts {o : ℕ} (h : Heap n K) (v : List (Fin n → K)) :
    Touch o h (h.setPts (h.obj o).possibleDuplicateRoots v) := by
  constructor <;> simp [setPts]
  intro a _ hne
  rw [Function.update_of_ne hne]

variable [Field K] [LinearOrder K]

theorem startFinalStep_touch (h : Heap n K) {o : ℕ} (v : Valid h o) : Touch o h (h.startFinalStep o) := by
  constructor <;> simp (disch := omega) [Heap.startFinalStep, setObj, allocBox, allocTrs]
  · omega
  · intro a ha hne
    simp [Function.update_of_ne hne]
  · intro a ha _
    rw [Function.update_of_ne ha.ne]
  · intro a ha _
    rw [Function.update_of_ne (by omega)]

theorem startFinalStep_view (h : Heap n K) {o : ℕ} (v : Valid h o) :
    (h.startFinalStep o).view o = (h.view o).startFinalStep := by
  have h1 := v.top
  have h2 := v.interval
  have h3 := v.transforms
  simp (disch := omega) [Heap.startFinalStep, TrackedInterval.startFinalStep, Heap.view, setObj, allocBox, allocTrs,
    Function.update_of_ne]

/-! ### Copies -/

theorem copyTI_valid' (h : Heap n K) {o : ℕ} (v : Valid h o) : Valid (h.copyTI o).1 (h.copyTI o).2 := by
  have h1 := v.top
  have e := (Ext.refl h).copyTI o
  have hn := copyTI_next h o
  refine ⟨?_, ?_, ?_, ?_, ?_, ?_, ?_, ?_⟩
  · rw [hn, copyTI_snd]; split_ifs <;> omega
  all_goals
    rw [copyTI_obj, hn]
    split_ifs <;> dsimp only <;> omega

theorem copyTI_rel (h : Heap n K) {o : ℕ} {t : TrackedInterval n K} (r : ObjRel h o t) :
    ObjRel (h.copyTI o).1 (h.copyTI o).2 t.copy :=
  ⟨copyTI_valid' h r.valid, by rw [copyTI_view h o r.valid, r.eq]⟩

theorem copyTI_fresh (h : Heap n K) (o : ℕ) : Fresh h (h.copyTI o).1 (h.copyTI o).2 := by
  refine ⟨by rw [copyTI_snd]; omega, ?_, ?_, ?_⟩ <;> rw [copyTI_obj] <;> split_ifs <;> dsimp only <;> omega

theorem copyTI_selfSep (h : Heap n K) {o : ℕ} (v : Valid h o) : SelfSep (h.copyTI o).1 (h.copyTI o).2 := by
  have h1 := v.top
  refine ⟨?_, ?_, ?_⟩ <;> rw [copyTI_obj] <;> split_ifs <;> dsimp only <;> omega

/-- The object and its copy: writing to the object does not change the copy, provided the top interval is not its
interval array. -/
theorem copyTI_apart (h : Heap n K) {o : ℕ} (v : Valid h o) (s : SelfSep h o) :
    Apart (h.copyTI o).1 o (h.copyTI o).2 := by
  have ho : (h.copyTI o).1.obj o = h.obj o := ((Ext.refl h).copyTI o).obj o v.self
  have h0 := v.self
  have h1 := v.top
  have h2 := v.interval
  have h3 := v.transforms
  have h4 := v.dup
  have h5 := s.top
  refine ⟨by rw [copyTI_snd]; omega, ?_, ?_, ?_, ?_, ?_, ?_⟩ <;> rw [copyTI_obj, ho] <;> split_ifs <;> dsimp only <;>
    first | omega | exact h5

/-! ### `addTransform` -/

/-- The cells that `addTransform` leaves alone. -/
theorem addTransform_frame (h : Heap n K) (o sub : ℕ) (hne : sub ≠ (h.obj o).interval) :
    (h.addTransform o sub).next = h.next ∧ (h.addTransform o sub).pts = h.pts ∧ (h.addTransform o sub).vec = h.vec ∧
    (h.addTransform o sub).tensor = h.tensor ∧ (h.addTransform o sub).mlist = h.mlist ∧
    (∀ a, a ≠ o → (h.addTransform o sub).obj a = h.obj a) ∧
    (∃ b : Bool, (h.addTransform o sub).obj o = { h.obj o with empty := b }) ∧
    (∀ a, a ≠ (h.obj o).interval → a ≠ sub → (h.addTransform o sub).box a = h.box a) ∧
    (∀ a, a ≠ (h.obj o).transforms → (h.addTransform o sub).trs a = h.trs a) := by
  rcases addTransform_eq h o sub hne with ⟨_, _, e⟩ | ⟨_, S, _, e⟩ <;> rw [e]
  · refine ⟨rfl, rfl, rfl, rfl, rfl, ?_, ⟨true, by simp [setObj]⟩, fun _ _ _ => rfl, fun _ _ => rfl⟩
    intro a ha
    simp [setObj, Function.update_of_ne ha]
  · refine ⟨rfl, rfl, rfl, rfl, rfl, fun _ _ => rfl, ⟨(h.obj o).empty, rfl⟩, ?_, ?_⟩
    · intro a h1 h2
      simp [setBox, setTrs, Function.update_of_ne h1, Function.update_of_ne h2]
    · intro a h1
      simp [setBox, setTrs, Function.update_of_ne h1]

/-- What the argument array holds afterwards. -/
theorem addTransform_sub (h : Heap n K) (o sub : ℕ) (hne : sub ≠ (h.obj o).interval) :
    (h.addTransform o sub).box sub = h.box sub ∨
      (h.addTransform o sub).box sub = TrackedInterval.clampSub (h.box sub) := by
  unfold Heap.addTransform
  have key : ∀ h1 : Heap n K, ∀ iv, sub ≠ iv → ∀ α β : Fin n → K, ∀ l : List (Fin n),
      (l.foldl (stepDim iv sub α β) h1).box sub = h1.box sub := by
    intro h1 iv hiv α β l
    induction l generalizing h1 with
    | nil => rfl
    | cons i l ih =>
      rw [List.foldl_cons, ih]
      unfold stepDim
      simp only [setLo, setHi]
      split_ifs <;> simp [setBox, Function.update_of_ne hiv]
  split_ifs with h1 h2
  · left; rfl
  · right
    refine (key _ _ hne _ _ _).trans ?_
    simp [setBox, setTrs]
  · left
    refine (key _ _ hne _ _ _).trans ?_
    rfl

theorem addTransform_view (h : Heap n K) {o sub : ℕ} (s : SelfSep h o) (hne : sub ≠ (h.obj o).interval)
    (ht : (h.obj o).topInterval ≠ sub) (hp : (h.obj o).preFinalInterval ≠ sub) :
    (h.addTransform o sub).view o = (h.view o).addTransform (h.box sub) := by
  have s1 := s.top
  have s2 := s.preI
  have s3 := s.preT
  rcases addTransform_eq h o sub hne with ⟨h1, h2, e⟩ | ⟨_, S, h2, e⟩ <;> rw [e]
  · unfold TrackedInterval.addTransform
    rw [if_pos ⟨h1, h2⟩]
    simp [Heap.view, setObj]
  · rw [h2]
    simp [Heap.view, TrackedInterval.applySub, setBox, setTrs, Function.update_of_ne s1, Function.update_of_ne s2,
      Function.update_of_ne s3, Function.update_of_ne ht, Function.update_of_ne hp]

theorem addTransform_other (h : Heap n K) {o sub p : ℕ} (hne : sub ≠ (h.obj o).interval) (a : Apart h o p)
    (h1 : (h.obj p).topInterval ≠ sub) (h2 : (h.obj p).interval ≠ sub) (h3 : (h.obj p).preFinalInterval ≠ sub) :
    (h.addTransform o sub).view p = h.view p := by
  obtain ⟨f1, f2, f3, f4, f5, f6, f7, f8, f9⟩ := addTransform_frame h o sub hne
  simp only [Heap.view, f6 p a.self, f2, f3]
  rw [f8 _ a.top h1, f8 _ a.interval h2, f8 _ a.preI h3, f9 _ a.transforms, f9 _ a.preT]

/-- `addTransform` with an argument that is a new array. -/
theorem addTransform_touch (h : Heap n K) {o : ℕ} (v : Valid h o) (B : Box n K) :
    Touch o h ((h.allocBox B).1.addTransform o h.next) := by
  have v1 := v.interval
  have hne : h.next ≠ ((h.allocBox B).1.obj o).interval := v1.ne'
  obtain ⟨f1, f2, f3, f4, f5, f6, ⟨b, f7⟩, f8, f9⟩ := addTransform_frame (h.allocBox B).1 o h.next hne
  constructor
  · rw [f1]; exact Nat.le_succ _
  · intro a ha hao; rw [f6 a hao]; rfl
  · intro a ha hai
    rw [f8 a hai ha.ne]
    simp [allocBox, Function.update_of_ne ha.ne]
  · intro a ha hai; rw [f9 a hai]; rfl
  · intro a ha hai; rw [f2]; rfl
  · intro a ha; rw [f3]; rfl
  · intro a ha; rw [f4]; rfl
  · intro a ha; rw [f5]; rfl
  · rw [f7]; rfl
  · rw [f7]; rfl
  · rw [f7]; rfl
  · rw [f7]; rfl
  · rw [f7]; rfl
  · rw [f7]; exact Or.inl rfl
  · rw [f7]; exact Or.inl rfl

theorem addTransform_new_view (h : Heap n K) {o : ℕ} (v : Valid h o) (s : SelfSep h o) (B : Box n K) :
    ((h.allocBox B).1.addTransform o h.next).view o = (h.view o).addTransform B := by
  have v1 := v.interval
  have v2 := v.top
  have v3 := v.preI
  have e := (Ext.refl h).allocBox B
  rw [addTransform_view (h := (h.allocBox B).1) (o := o) (sub := h.next) ⟨s.top, s.preI, s.preT⟩ v1.ne' v2.ne v3.ne,
    e.view v]
  simp [allocBox]

end Heap

end YRoots
