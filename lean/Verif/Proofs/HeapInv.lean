import Verif.Proofs.Heap

/-!
# Invariants of programs on `TrackedInterval` objects
-/

set_option linter.unusedSectionVars false
set_option linter.unusedVariables false
set_option linter.unusedSimpArgs false

namespace YRoots

namespace Heap

variable {n : ℕ} {K : Type*} [Field K] [LinearOrder K]

/-- Who shares what: an interval array different from the top interval belongs to one object only, and so do the list
of transforms and the vector of split points. -/
structure Inv (s : TIState n K) : Prop where
  valid : ∀ o ∈ s.live, Valid s.heap o
  top_ne : ∀ o ∈ s.live, (s.heap.obj o).interval ≠ (s.heap.obj o).topInterval → ∀ o' ∈ s.live,
    (s.heap.obj o').topInterval ≠ (s.heap.obj o).interval ∧ (s.heap.obj o').preFinalInterval ≠ (s.heap.obj o).interval
  int_ne : ∀ o ∈ s.live, (s.heap.obj o).interval ≠ (s.heap.obj o).topInterval → ∀ o' ∈ s.live, o' ≠ o →
    (s.heap.obj o').interval ≠ (s.heap.obj o).interval
  trs_ne : ∀ o ∈ s.live, ∀ o' ∈ s.live, o' ≠ o → (s.heap.obj o').transforms ≠ (s.heap.obj o).transforms
  pre_ne : ∀ o ∈ s.live, ∀ o' ∈ s.live, (s.heap.obj o').preFinalTransforms ≠ (s.heap.obj o).transforms
  nxt_ne : ∀ o ∈ s.live, ∀ o' ∈ s.live, o' ≠ o →
    (s.heap.obj o').nextTransformPoints ≠ (s.heap.obj o).nextTransformPoints

theorem Inv.init : Inv (TIState.init n K) := by
  constructor <;> simp [TIState.init]

/-- What may happen to the objects in use without endangering the invariant. -/
structure SameRefs (h h' : Heap n K) (o : ℕ) : Prop where
  top : (h'.obj o).topInterval = (h.obj o).topInterval
  interval : (h'.obj o).interval = (h.obj o).interval
  transforms : (h'.obj o).transforms = (h.obj o).transforms
  dup : (h'.obj o).possibleDuplicateRoots = (h.obj o).possibleDuplicateRoots
  nxt : (h'.obj o).nextTransformPoints = (h.obj o).nextTransformPoints
  preI : (h'.obj o).preFinalInterval = (h.obj o).preFinalInterval ∨
    (h.next ≤ (h'.obj o).preFinalInterval ∧ (h'.obj o).preFinalInterval < h'.next)
  preT : (h'.obj o).preFinalTransforms = (h.obj o).preFinalTransforms ∨
    (h.next ≤ (h'.obj o).preFinalTransforms ∧ (h'.obj o).preFinalTransforms < h'.next)

theorem SameRefs.refl (h : Heap n K) (o : ℕ) : SameRefs h h o :=
  ⟨rfl, rfl, rfl, rfl, rfl, Or.inl rfl, Or.inl rfl⟩

theorem SameRefs.of_eq {h h' : Heap n K} {o : ℕ} (e : h'.obj o = h.obj o) : SameRefs h h' o := by
  constructor <;> rw [e] <;> first | rfl | exact Or.inl rfl

theorem Inv.update {s : TIState n K} (i : Inv s) {h' : Heap n K} (hn : s.heap.next ≤ h'.next)
    (hs : ∀ o ∈ s.live, SameRefs s.heap h' o) : Inv ⟨h', s.live⟩ := by
  constructor
  · intro o ho
    have v := i.valid o ho
    have r := hs o ho
    refine ⟨v.self.trans_le hn, by rw [r.top]; exact v.top.trans_le hn, by rw [r.interval]; exact v.interval.trans_le hn,
      by rw [r.transforms]; exact v.transforms.trans_le hn, by rw [r.dup]; exact v.dup.trans_le hn,
      by rw [r.nxt]; exact v.nxt.trans_le hn, ?_, ?_⟩
    · rcases r.preI with e | e
      · rw [e]; exact v.preI.trans_le hn
      · exact e.2
    · rcases r.preT with e | e
      · rw [e]; exact v.preT.trans_le hn
      · exact e.2
  · intro o ho hne o' ho'
    have r := hs o ho
    have r' := hs o' ho'
    dsimp only at hne ⊢
    rw [r.interval, r.top] at hne
    rw [r.interval, r'.top]
    have h1 := i.top_ne o ho hne o' ho'
    refine ⟨h1.1, ?_⟩
    rcases r'.preI with e | e
    · rw [e]; exact h1.2
    · have := (i.valid o ho).interval; omega
  · intro o ho hne o' ho' hoo
    dsimp only at hne ⊢
    rw [(hs o ho).interval, (hs o ho).top] at hne
    rw [(hs o ho).interval, (hs o' ho').interval]
    exact i.int_ne o ho hne o' ho' hoo
  · intro o ho o' ho' hoo
    dsimp only
    rw [(hs o ho).transforms, (hs o' ho').transforms]
    exact i.trs_ne o ho o' ho' hoo
  · intro o ho o' ho'
    dsimp only
    rw [(hs o ho).transforms]
    rcases (hs o' ho').preT with e | e
    · rw [e]; exact i.pre_ne o ho o' ho'
    · have := (i.valid o ho).transforms; omega
  · intro o ho o' ho' hoo
    dsimp only
    rw [(hs o ho).nxt, (hs o' ho').nxt]
    exact i.nxt_ne o ho o' ho' hoo

/-- A new object that shares at most its top interval, with a live object. -/
theorem Inv.add {s : TIState n K} (i : Inv s) {h' : Heap n K} (e : Ext s.heap h') {c : ℕ} (hc : s.heap.next ≤ c)
    (v : Valid h' c)
    (ht : s.heap.next ≤ (h'.obj c).topInterval ∨ ∃ o ∈ s.live, (h'.obj c).topInterval = (s.heap.obj o).topInterval)
    (hi : (h'.obj c).interval = (h'.obj c).topInterval ∨ (s.heap.next ≤ (h'.obj c).interval ∧
      (h'.obj c).interval ≠ (h'.obj c).topInterval ∧ (h'.obj c).interval ≠ (h'.obj c).preFinalInterval))
    (hp : (h'.obj c).preFinalInterval = (h'.obj c).topInterval ∨ s.heap.next ≤ (h'.obj c).preFinalInterval)
    (htr : s.heap.next ≤ (h'.obj c).transforms) (hpt : s.heap.next ≤ (h'.obj c).preFinalTransforms)
    (hne : (h'.obj c).preFinalTransforms ≠ (h'.obj c).transforms)
    (hnx : s.heap.next ≤ (h'.obj c).nextTransformPoints) : Inv ⟨h', s.live ++ [c]⟩ := by
  have eo : ∀ o ∈ s.live, h'.obj o = s.heap.obj o := fun o ho => e.obj o (i.valid o ho).self
  have vo := i.valid
  have memc : ∀ {o : ℕ}, o ∈ s.live ++ [c] → o ∈ s.live ∨ o = c := by
    intro o ho
    simpa using ho
  have nc : ∀ o ∈ s.live, o ≠ c := fun o ho => by have := (vo o ho).self; omega
  constructor
  · intro o M
    rcases memc M with ho | rfl
    · exact (vo o ho).ext e
    · exact v
  · intro o M hn o' M'
    dsimp only at hn ⊢
    rcases memc M with ho | rfl
    · rw [eo o ho] at hn ⊢
      have lt := (vo o ho).interval
      rcases memc M' with ho' | rfl
      · rw [eo o' ho']; exact i.top_ne o ho hn o' ho'
      · have t : (h'.obj o').topInterval ≠ (s.heap.obj o).interval := by
          rcases ht with h1 | ⟨o2, ho2, h1⟩
          · omega
          · rw [h1]; exact (i.top_ne o ho hn o2 ho2).1
        refine ⟨t, ?_⟩
        rcases hp with h1 | h1
        · rw [h1]; exact t
        · omega
    · rcases hi with h1 | ⟨h1, h2, h3⟩
      · exact absurd h1 hn
      · rcases memc M' with ho' | rfl
        · rw [eo o' ho']
          have a1 := (vo o' ho').top
          have a2 := (vo o' ho').preI
          constructor <;> omega
        · exact ⟨h2.symm, h3.symm⟩
  · intro o M hn o' M' hoo
    dsimp only at hn ⊢
    rcases memc M with ho | rfl
    · rw [eo o ho] at hn ⊢
      have lt := (vo o ho).interval
      rcases memc M' with ho' | rfl
      · rw [eo o' ho']; exact i.int_ne o ho hn o' ho' hoo
      · rcases hi with h1 | ⟨h1, h2, h3⟩
        · rw [h1]
          rcases ht with h1 | ⟨o2, ho2, h1⟩
          · omega
          · rw [h1]; exact (i.top_ne o ho hn o2 ho2).1
        · omega
    · rcases hi with h1 | ⟨h1, h2, h3⟩
      · exact absurd h1 hn
      · rcases memc M' with ho' | rfl
        · rw [eo o' ho']
          have := (vo o' ho').interval
          omega
        · exact absurd rfl hoo
  · intro o M o' M' hoo
    dsimp only
    rcases memc M with ho | rfl <;> rcases memc M' with ho' | rfl
    · rw [eo o ho, eo o' ho']; exact i.trs_ne o ho o' ho' hoo
    · rw [eo o ho]; have := (vo o ho).transforms; omega
    · rw [eo o' ho']; have := (vo o' ho').transforms; omega
    · exact absurd rfl hoo
  · intro o M o' M'
    dsimp only
    rcases memc M with ho | rfl <;> rcases memc M' with ho' | rfl
    · rw [eo o ho, eo o' ho']; exact i.pre_ne o ho o' ho'
    · rw [eo o ho]; have := (vo o ho).transforms; omega
    · rw [eo o' ho']; have := (vo o' ho').preT; omega
    · exact hne
  · intro o M o' M' hoo
    dsimp only
    rcases memc M with ho | rfl <;> rcases memc M' with ho' | rfl
    · rw [eo o ho, eo o' ho']; exact i.nxt_ne o ho o' ho' hoo
    · rw [eo o ho]; have := (vo o ho).nxt; omega
    · rw [eo o' ho']; have := (vo o' ho').nxt; omega
    · exact absurd rfl hoo

/-! ### One step -/

theorem copyTI_valid (h : Heap n K) (o : ℕ) (v : Valid h o) : Valid (h.copyTI o).1 (h.copyTI o).2 := by
  have h1 := v.top
  have e := copyTI_obj h o
  have hx := copyTI_next h o
  have h2 := copyTI_snd h o
  by_cases hf : (h.obj o).finalStep = true
  · rw [if_pos hf] at e hx
    constructor <;> first | rw [e, hx] | rw [h2, hx]
    all_goals (try dsimp only)
    all_goals omega
  · rw [if_neg hf] at e hx
    constructor <;> first | rw [e, hx] | rw [h2, hx]
    all_goals (try dsimp only)
    all_goals omega

theorem Inv.newTI {s : TIState n K} (i : Inv s) {h : Heap n K} (e : Ext s.heap h) {a : ℕ} (ha : a < h.next)
    (ht : s.heap.next ≤ a ∨ ∃ o ∈ s.live, a = (s.heap.obj o).topInterval) :
    Inv ⟨(h.newTI a).1, s.live ++ [(h.newTI a).2]⟩ := by
  have h1 := e.next_le
  have eo : (h.newTI a).1.obj (h.newTI a).2 =
    ⟨a, a, h.next, false, false, false, h.next + 1, false, h.next + 2, a, h.next + 3, false⟩ := by
    rw [newTI_obj, newTI_snd, Function.update_self]
  have hn := newTI_next h a
  have hs := newTI_snd h a
  have v : Valid (h.newTI a).1 (h.newTI a).2 := by
    constructor <;> first | rw [eo, hn] | rw [hs, hn]
    all_goals (try dsimp only)
    all_goals omega
  apply i.add (e.newTI a) (by rw [hs]; omega) v <;> rw [eo] <;> dsimp only
  · exact ht
  · exact Or.inl rfl
  · exact Or.inl rfl
  · omega
  · omega
  · omega
  · omega

theorem Inv.copyTI {s : TIState n K} (i : Inv s) {o : ℕ} (ho : o ∈ s.live) :
    Inv ⟨(s.heap.copyTI o).1, s.live ++ [(s.heap.copyTI o).2]⟩ := by
  have v := i.valid o ho
  have e := copyTI_obj s.heap o
  have h1 := v.top
  apply i.add ((Ext.refl _).copyTI o) (by rw [copyTI_snd]; omega) (copyTI_valid _ _ v) <;> rw [e] <;>
    by_cases hf : (s.heap.obj o).finalStep = true <;> simp only [hf, if_true, if_false]
  · exact Or.inr ⟨o, ho, rfl⟩
  · exact Or.inr ⟨o, ho, rfl⟩
  · right; refine ⟨by omega, by omega, by omega⟩
  · right; simp only [Bool.false_eq_true, if_false]; refine ⟨by omega, by omega, by omega⟩
  · right; omega
  · left; rfl
  all_goals first | omega | (simp only [Bool.false_eq_true, if_false]; omega)

theorem startFinalStep_obj (h : Heap n K) (o : ℕ) : (h.startFinalStep o).obj = Function.update h.obj o
    { h.obj o with finalStep := true, preFinalInterval := h.next, preFinalTransforms := h.next + 1 } := by
  simp [Heap.startFinalStep, allocBox, allocTrs, setObj]

theorem startFinalStep_next (h : Heap n K) (o : ℕ) : (h.startFinalStep o).next = h.next + 2 := rfl

theorem Inv.step {s : TIState n K} (i : Inv s) (op : TIOp n K) : Inv (s.step op) := by
  cases op with
  | new B =>
    have e := (Ext.refl s.heap).allocBox B
    exact i.newTI e (a := s.heap.next) (Nat.lt_succ_self _) (Or.inl le_rfl)
  | newSame o =>
    simp only [TIState.step]
    split_ifs with ho
    · exact i.newTI (Ext.refl _) (i.valid o ho).top (Or.inr ⟨o, ho, rfl⟩)
    · exact i
  | copy o =>
    simp only [TIState.step]
    split_ifs with ho
    · exact i.copyTI ho
    · exact i
  | addTransform o B =>
    simp only [TIState.step]
    split_ifs with ho
    · have hne : s.heap.next ≠ ((s.heap.allocBox B).1.obj o).interval := (i.valid o ho).interval.ne'
      obtain ⟨b, hb⟩ := addTransform_obj (s.heap.allocBox B).1 o s.heap.next hne
      have hx := addTransform_next (s.heap.allocBox B).1 o s.heap.next hne
      apply i.update
      · show s.heap.next ≤ ((s.heap.allocBox B).1.addTransform o s.heap.next).next
        rw [hx]
        exact Nat.le_succ _
      · intro o' ho'
        show SameRefs s.heap ((s.heap.allocBox B).1.addTransform o s.heap.next) o'
        by_cases h : o' = o
        · subst h
          constructor <;> rw [hb, Function.update_self] <;> first | rfl | exact Or.inl rfl
        · exact SameRefs.of_eq (by rw [hb, Function.update_of_ne h]; rfl)
    · exact i
  | startFinalStep o =>
    simp only [TIState.step]
    split_ifs with ho
    · apply i.update
      · rw [startFinalStep_next]; omega
      · intro o' ho'
        by_cases h : o' = o
        · subst h
          constructor <;> rw [startFinalStep_obj, Function.update_self]
          · right; rw [startFinalStep_next]; dsimp only; omega
          · right; rw [startFinalStep_next]; dsimp only; omega
        · exact SameRefs.of_eq (by rw [startFinalStep_obj, Function.update_of_ne h])
    · exact i
  | setCanThrow o =>
    simp only [TIState.step]
    split_ifs with ho
    · refine i.update (h' := s.heap.setObj o _) le_rfl ?_
      intro o' ho'
      by_cases h : o' = o
      · subst h
        constructor <;> simp [setObj]
      · exact SameRefs.of_eq (by simp [setObj, h])
    · exact i
  | setNext o j v =>
    simp only [TIState.step]
    split_ifs with ho
    · exact i.update le_rfl fun o' _ => SameRefs.of_eq rfl
    · exact i

theorem Inv.run {s : TIState n K} (i : Inv s) (ops : List (TIOp n K)) : Inv (s.run ops) := by
  induction ops generalizing s with
  | nil => exact i
  | cons op ops ih => exact ih (i.step op)

/-! ### Objects keep their arrays -/

theorem step_live {s : TIState n K} (op : TIOp n K) {o : ℕ} (ho : o ∈ s.live) : o ∈ (s.step op).live := by
  cases op <;> simp only [TIState.step] <;> try split_ifs
  all_goals first | exact ho | exact List.mem_append_left _ ho

theorem step_refs {s : TIState n K} (i : Inv s) (op : TIOp n K) {o : ℕ} (ho : o ∈ s.live) :
    ((s.step op).heap.obj o).interval = (s.heap.obj o).interval ∧
      ((s.step op).heap.obj o).topInterval = (s.heap.obj o).topInterval := by
  have v := i.valid o ho
  cases op with
  | new B =>
    have e := ((Ext.refl s.heap).allocBox B).newTI s.heap.next
    have : (s.step (.new B)).heap = ((s.heap.allocBox B).1.newTI s.heap.next).1 := rfl
    rw [this, e.obj o v.self]
    exact ⟨rfl, rfl⟩
  | newSame o' =>
    simp only [TIState.step]
    split_ifs with ho'
    · have e := (Ext.refl s.heap).newTI (s.heap.obj o').topInterval
      rw [e.obj o v.self]
      exact ⟨rfl, rfl⟩
    · exact ⟨rfl, rfl⟩
  | copy o' =>
    simp only [TIState.step]
    split_ifs with ho'
    · rw [((Ext.refl s.heap).copyTI o').obj o v.self]
      exact ⟨rfl, rfl⟩
    · exact ⟨rfl, rfl⟩
  | addTransform o' B =>
    simp only [TIState.step]
    split_ifs with ho'
    · have hne : s.heap.next ≠ ((s.heap.allocBox B).1.obj o').interval := (i.valid o' ho').interval.ne'
      obtain ⟨b, hb⟩ := addTransform_obj (s.heap.allocBox B).1 o' s.heap.next hne
      show (((s.heap.allocBox B).1.addTransform o' s.heap.next).obj o).interval = _ ∧
        (((s.heap.allocBox B).1.addTransform o' s.heap.next).obj o).topInterval = _
      rw [hb]
      by_cases h : o = o'
      · subst h; simp [allocBox]
      · simp [h, allocBox]
    · exact ⟨rfl, rfl⟩
  | startFinalStep o' =>
    simp only [TIState.step]
    split_ifs with ho'
    · rw [startFinalStep_obj]
      by_cases h : o = o'
      · subst h; simp
      · simp [h]
    · exact ⟨rfl, rfl⟩
  | setCanThrow o' =>
    simp only [TIState.step]
    split_ifs with ho'
    · by_cases h : o = o'
      · subst h; simp [setObj]
      · simp [h, setObj]
    · exact ⟨rfl, rfl⟩
  | setNext o' j v =>
    simp only [TIState.step]
    split_ifs with ho' <;> exact ⟨rfl, rfl⟩

theorem run_live {s : TIState n K} (ops : List (TIOp n K)) {o : ℕ} (ho : o ∈ s.live) : o ∈ (s.run ops).live := by
  induction ops generalizing s with
  | nil => exact ho
  | cons op ops ih => exact ih (step_live op ho)

theorem run_refs {s : TIState n K} (i : Inv s) (ops : List (TIOp n K)) {o : ℕ} (ho : o ∈ s.live) :
    ((s.run ops).heap.obj o).interval = (s.heap.obj o).interval ∧
      ((s.run ops).heap.obj o).topInterval = (s.heap.obj o).topInterval := by
  induction ops generalizing s with
  | nil => exact ⟨rfl, rfl⟩
  | cons op ops ih =>
    have h1 := ih (i.step op) (step_live op ho)
    have h2 := step_refs i op ho
    exact ⟨h1.1.trans h2.1, h1.2.trans h2.2⟩

theorem copyTI_owned {s : TIState n K} (i : Inv s) {o : ℕ} (ho : o ∈ s.live) :
    ((s.heap.copyTI o).1.obj (s.heap.copyTI o).2).interval ≠
      ((s.heap.copyTI o).1.obj (s.heap.copyTI o).2).topInterval := by
  have h1 := (i.valid o ho).top
  rw [copyTI_obj]
  split_ifs <;> dsimp only <;> omega

/-! ### Transforming an object that owns its interval array -/

theorem addTransform_owned {s : TIState n K} (i : Inv s) {o : ℕ} (ho : o ∈ s.live)
    (hown : (s.heap.obj o).interval ≠ (s.heap.obj o).topInterval) (B : Box n K) :
    (s.step (.addTransform o B)).heap.view o = (s.heap.view o).addTransform B ∧
      (∀ o' ∈ s.live, o' ≠ o → (s.step (.addTransform o B)).heap.view o' = s.heap.view o') ∧
      ∀ a, a < s.heap.next → a ≠ (s.heap.obj o).interval → (s.step (.addTransform o B)).heap.box a = s.heap.box a := by
  have v := i.valid o ho
  simp only [TIState.step, if_pos ho]
  obtain ⟨h, hh⟩ : ∃ h, h = (s.heap.allocBox B).1 := ⟨_, rfl⟩
  have e : Ext s.heap h := by rw [hh]; exact (Ext.refl s.heap).allocBox B
  have hsub : h.box s.heap.next = B := by rw [hh]; simp [allocBox]
  have hobj : h.obj = s.heap.obj := by rw [hh]; rfl
  have hview : ∀ o' ∈ s.live, h.view o' = s.heap.view o' := fun o' ho' => e.view (i.valid o' ho')
  have hne : s.heap.next ≠ (h.obj o).interval := by rw [hobj]; exact v.interval.ne'
  have e2 : (s.heap.allocBox B).2 = s.heap.next := rfl
  rw [← hh, e2]
  have eq := addTransform_eq h o s.heap.next hne
  rw [hsub, hview o ho, hobj] at eq
  rcases eq with ⟨h1, h2, eq⟩ | ⟨h1, S, h2, eq⟩
  · rw [eq]
    refine ⟨?_, ?_, ?_⟩
    · unfold TrackedInterval.addTransform
      rw [if_pos ⟨h1, h2⟩, ← hview o ho]
      simp [Heap.view, setObj, hobj]
    · intro o' ho' hoo
      rw [← hview o' ho']
      simp [Heap.view, setObj, hoo]
    · intro a ha _
      exact e.box a ha
  · rw [eq, h2]
    have w := i.top_ne o ho hown
    have bx : ∀ a, a < s.heap.next → a ≠ (s.heap.obj o).interval → (((h.setBox s.heap.next S).setTrs
        (s.heap.obj o).transforms ((s.heap.view o).applySub S).transforms).setBox (s.heap.obj o).interval
          ((s.heap.view o).applySub S).interval).box a = s.heap.box a := by
      intro a ha hai
      rw [setBox_box_ne _ hai]
      show (h.setBox s.heap.next S).box a = _
      rw [setBox_box_ne _ ha.ne]
      exact e.box a ha
    have tx : ∀ a, a < s.heap.next → a ≠ (s.heap.obj o).transforms → (((h.setBox s.heap.next S).setTrs
        (s.heap.obj o).transforms ((s.heap.view o).applySub S).transforms).setBox (s.heap.obj o).interval
          ((s.heap.view o).applySub S).interval).trs a = s.heap.trs a := by
      intro a ha hai
      show (Function.update h.trs _ _) a = _
      rw [Function.update_of_ne hai]
      exact e.trs a ha
    refine ⟨?_, ?_, bx⟩
    · have b1 := bx _ v.top (w o ho).1
      have b2 := bx _ v.preI (w o ho).2
      have t2 := tx _ v.preT (i.pre_ne o ho o ho)
      have hv := hview o ho
      simp only [Heap.view, hobj] at hv b1 b2 t2 ⊢
      rw [TrackedInterval.mk.injEq] at hv
      simp only [TrackedInterval.applySub] at b1 b2 t2 ⊢
      simp only [setBox, setTrs, hobj, Function.update_self] at hv b1 b2 t2 ⊢
      rw [b1, b2, t2, hv.2.2.2.2.2.2.1, hv.2.2.2.2.2.2.2.2.1]
    · intro o' ho' hoo
      have v' := i.valid o' ho'
      have b0 := bx _ v'.interval (i.int_ne o ho hown o' ho' hoo)
      have b1 := bx _ v'.top (w o' ho').1
      have b2 := bx _ v'.preI (w o' ho').2
      have t1 := tx _ v'.transforms (i.trs_ne o ho o' ho' hoo)
      have t2 := tx _ v'.preT (i.pre_ne o ho o' ho')
      have hv := hview o' ho'
      simp only [Heap.view, hobj] at hv b0 b1 b2 t1 t2 ⊢
      rw [TrackedInterval.mk.injEq] at hv
      simp only [setBox, setTrs, hobj] at hv b0 b1 b2 t1 t2 ⊢
      rw [b0, b1, b2, t1, t2, hv.2.2.2.2.2.2.1, hv.2.2.2.2.2.2.2.2.1]

end Heap

end YRoots
