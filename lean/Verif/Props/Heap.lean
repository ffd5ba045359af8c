import Verif.Proofs.HeapInv
import Mathlib.Algebra.Order.Ring.Rat
import Mathlib.Tactic.NormNum

/-!
# Property C16: copies of tracked intervals are independent

Programs create `TrackedInterval` objects with the constructor and with `copy`, transform them and start the final
step, in any order.  Objects are observed through `Heap.view`.
-/

set_option linter.unusedSectionVars false

namespace YRoots

open Heap

variable {n : ℕ} {K : Type*} [Field K] [LinearOrder K]

/-- **C16 (first half).**  After any program, transforming an object that was made by `copy` acts on that object as in
the value model; it changes nothing that is observable through any other object, in particular through the original,
and it leaves the top interval of the copy itself unchanged. -/
theorem C16_copy_partial (ops₁ ops₂ : List (TIOp n K)) (src : ℕ) (B : Box n K) :
    let s₁ := (TIState.init n K).run ops₁
    src ∈ s₁.live →
    let c := (s₁.heap.copyTI src).2
    let s₂ := (s₁.step (.copy src)).run ops₂
    let s₃ := s₂.step (.addTransform c B)
    s₃.heap.view c = (s₂.heap.view c).addTransform B ∧
      (s₃.heap.view c).topInterval = (s₂.heap.view c).topInterval ∧
      ∀ o ∈ s₂.live, o ≠ c → s₃.heap.view o = s₂.heap.view o := by
  intro s₁ hsrc c s₂ s₃
  have i₁ : Inv s₁ := Inv.init.run ops₁
  have hstep : s₁.step (.copy src) = ⟨(s₁.heap.copyTI src).1, s₁.live ++ [c]⟩ := by
    simp only [TIState.step, if_pos hsrc]
    rfl
  have i' : Inv (s₁.step (.copy src)) := i₁.step _
  have hc : c ∈ (s₁.step (.copy src)).live := by rw [hstep]; simp
  have i₂ : Inv s₂ := i'.run ops₂
  have hc₂ : c ∈ s₂.live := run_live ops₂ hc
  have hown : (s₂.heap.obj c).interval ≠ (s₂.heap.obj c).topInterval := by
    rw [(run_refs i' ops₂ hc).1, (run_refs i' ops₂ hc).2, hstep]
    exact copyTI_owned i₁ hsrc
  obtain ⟨h1, h2, h3⟩ := addTransform_owned i₂ hc₂ hown B
  refine ⟨h1, ?_, h2⟩
  have h4 : s₃.heap.view c = (s₂.heap.view c).addTransform B := h1
  rw [h4]
  unfold TrackedInterval.addTransform TrackedInterval.applySub
  split_ifs <;> rfl

/-- The copy shows the same as the original, at the moment of copying. -/
theorem C16_copy_equal (ops : List (TIOp n K)) (src : ℕ) :
    let s := (TIState.init n K).run ops
    src ∈ s.live → (s.heap.copyTI src).1.view (s.heap.copyTI src).2 = (s.heap.view src).copy ∧
      ∀ o ∈ s.live, (s.heap.copyTI src).1.view o = s.heap.view o := by
  intro s hsrc
  have i : Inv s := Inv.init.run ops
  exact ⟨copyTI_view _ _ (i.valid src hsrc), fun o ho => ((Ext.refl _).copyTI src).view (i.valid o ho)⟩

/-- `addTransform` is called only on objects made by `copy`; `C` lists those made so far. -/
def OnlyCopies : TIState n K → List ℕ → List (TIOp n K) → Prop
  | _, _, [] => True
  | s, C, .copy o :: ops =>
    OnlyCopies (s.step (.copy o)) (if o ∈ s.live then (s.heap.copyTI o).2 :: C else C) ops
  | s, C, .addTransform o B :: ops => o ∈ C ∧ OnlyCopies (s.step (.addTransform o B)) C ops
  | s, C, op :: ops => OnlyCopies (s.step op) C ops

/-- Objects in `C` are live and own their interval array. -/
def OwnedList (s : TIState n K) (C : List ℕ) : Prop :=
  ∀ o ∈ C, o ∈ s.live ∧ (s.heap.obj o).interval ≠ (s.heap.obj o).topInterval

theorem OwnedList.step {s : TIState n K} {C : List ℕ} (h : OwnedList s C) (i : Inv s) (op : TIOp n K) :
    OwnedList (s.step op) C := by
  intro o ho
  obtain ⟨h1, h2⟩ := h o ho
  refine ⟨step_live op h1, ?_⟩
  rw [(step_refs i op h1).1, (step_refs i op h1).2]
  exact h2

/-- A step that transforms only an owned object leaves all top intervals as they are. -/
theorem step_top {s : TIState n K} (i : Inv s) (op : TIOp n K)
    (hop : ∀ o B, op = .addTransform o B → o ∈ s.live ∧ (s.heap.obj o).interval ≠ (s.heap.obj o).topInterval)
    {o : ℕ} (ho : o ∈ s.live) : ((s.step op).heap.view o).topInterval = (s.heap.view o).topInterval := by
  have v := i.valid o ho
  have ext : ∀ h' : Heap n K, Ext s.heap h' → (h'.view o).topInterval = (s.heap.view o).topInterval :=
    fun h' e => by rw [e.view v]
  cases op with
  | new B => exact ext _ (((Ext.refl s.heap).allocBox B).newTI _)
  | newSame o' =>
    simp only [TIState.step]
    split_ifs
    · exact ext _ ((Ext.refl s.heap).newTI _)
    · rfl
  | copy o' =>
    simp only [TIState.step]
    split_ifs
    · exact ext _ ((Ext.refl s.heap).copyTI _)
    · rfl
  | addTransform o' B =>
    obtain ⟨h1, h2⟩ := hop o' B rfl
    obtain ⟨_, _, h3⟩ := addTransform_owned i h1 h2 B
    have h4 := step_refs i (.addTransform o' B) ho
    show (s.step (.addTransform o' B)).heap.box ((s.step (.addTransform o' B)).heap.obj o).topInterval = _
    rw [h4.2, h3 _ v.top (i.top_ne o' h1 h2 o ho).1]
    rfl
  | startFinalStep o' =>
    have h4 := step_refs i (.startFinalStep o') ho
    show (s.step (.startFinalStep o')).heap.box ((s.step (.startFinalStep o')).heap.obj o).topInterval = _
    rw [h4.2]
    simp only [TIState.step]
    split_ifs
    · have : (s.heap.startFinalStep o').box =
          Function.update s.heap.box s.heap.next (s.heap.box (s.heap.obj o').interval) := by
        simp [Heap.startFinalStep, allocBox, allocTrs, setObj]
      rw [this, Function.update_of_ne v.top.ne]
      rfl
    · rfl
  | setCanThrow o' =>
    have h4 := step_refs i (.setCanThrow o') ho
    show (s.step (.setCanThrow o')).heap.box ((s.step (.setCanThrow o')).heap.obj o).topInterval = _
    rw [h4.2]
    simp only [TIState.step]
    split_ifs <;> rfl
  | setNext o' j w =>
    have h4 := step_refs i (.setNext o' j w) ho
    show (s.step (.setNext o' j w)).heap.box ((s.step (.setNext o' j w)).heap.obj o).topInterval = _
    rw [h4.2]
    simp only [TIState.step]
    split_ifs <;> rfl

theorem run_top {s : TIState n K} (i : Inv s) {C : List ℕ} (hC : OwnedList s C) (ops : List (TIOp n K))
    (hops : OnlyCopies s C ops) {o : ℕ} (ho : o ∈ s.live) :
    ((s.run ops).heap.view o).topInterval = (s.heap.view o).topInterval := by
  induction ops generalizing s C with
  | nil => rfl
  | cons op ops ih =>
    have key : ∀ C', OwnedList (s.step op) C' → OnlyCopies (s.step op) C' ops →
        (∀ o B, op = .addTransform o B → o ∈ s.live ∧ (s.heap.obj o).interval ≠ (s.heap.obj o).topInterval) →
        ((s.run (op :: ops)).heap.view o).topInterval = (s.heap.view o).topInterval := by
      intro C' h1 h2 h3
      exact (ih (i.step op) h1 h2 (step_live op ho)).trans (step_top i op h3 ho)
    cases op with
    | copy o' =>
      simp only [OnlyCopies] at hops
      refine key _ ?_ hops (by intro _ _ h; cases h)
      by_cases h : o' ∈ s.live
      · rw [if_pos h]
        intro c hc
        rcases List.mem_cons.1 hc with rfl | hc
        · have hstep : s.step (.copy o') = ⟨(s.heap.copyTI o').1, s.live ++ [(s.heap.copyTI o').2]⟩ := by
            simp only [TIState.step, if_pos h]
          rw [hstep]
          exact ⟨by simp, copyTI_owned i h⟩
        · exact hC.step i _ c hc
      · rw [if_neg h]
        exact hC.step i _
    | addTransform o' B =>
      simp only [OnlyCopies] at hops
      refine key _ (hC.step i _) hops.2 ?_
      intro o2 B2 h
      cases h
      exact hC o' hops.1
    | new B => exact key _ (hC.step i _) hops (by intro _ _ h; cases h)
    | newSame o' => exact key _ (hC.step i _) hops (by intro _ _ h; cases h)
    | startFinalStep o' => exact key _ (hC.step i _) hops (by intro _ _ h; cases h)
    | setCanThrow o' => exact key _ (hC.step i _) hops (by intro _ _ h; cases h)
    | setNext o' j v => exact key _ (hC.step i _) hops (by intro _ _ h; cases h)

theorem OnlyCopies.append {s : TIState n K} {C : List ℕ} {ops₁ ops₂ : List (TIOp n K)} (i : Inv s)
    (hC : OwnedList s C) (h : OnlyCopies s C (ops₁ ++ ops₂)) :
    ∃ C', OwnedList (s.run ops₁) C' ∧ OnlyCopies (s.run ops₁) C' ops₂ := by
  induction ops₁ generalizing s C with
  | nil => exact ⟨C, hC, h⟩
  | cons op ops ih =>
    cases op with
    | copy o' =>
      simp only [List.cons_append, OnlyCopies] at h
      refine ih (i.step _) ?_ h
      by_cases h : o' ∈ s.live
      · rw [if_pos h]
        intro c hc
        rcases List.mem_cons.1 hc with rfl | hc
        · have hstep : s.step (.copy o') = ⟨(s.heap.copyTI o').1, s.live ++ [(s.heap.copyTI o').2]⟩ := by
            simp only [TIState.step, if_pos h]
          rw [hstep]
          exact ⟨by simp, copyTI_owned i h⟩
        · exact hC.step i _ c hc
      · rw [if_neg h]
        exact hC.step i _
    | addTransform o' B =>
      simp only [List.cons_append, OnlyCopies] at h
      exact ih (i.step _) (hC.step i _) h.2
    | new B => exact ih (i.step _) (hC.step i _) h
    | newSame o' => exact ih (i.step _) (hC.step i _) h
    | startFinalStep o' => exact ih (i.step _) (hC.step i _) h
    | setCanThrow o' => exact ih (i.step _) (hC.step i _) h
    | setNext o' j v => exact ih (i.step _) (hC.step i _) h

/-- **C16 (second half).**  In a program that transforms only copies, the array given to the constructor keeps its
contents for ever: the object made from `B` shows the top interval `B` after any further operations. -/
theorem C16_top_partial (ops₁ ops₂ : List (TIOp n K)) (B : Box n K)
    (h : OnlyCopies (TIState.init n K) [] (ops₁ ++ .new B :: ops₂)) :
    let s := (TIState.init n K).run ops₁
    let o := ((s.heap.allocBox B).1.newTI s.heap.next).2
    (((TIState.init n K).run (ops₁ ++ .new B :: ops₂)).heap.view o).topInterval = B := by
  intro s o
  have i : Inv s := Inv.init.run ops₁
  obtain ⟨C, hC, hops⟩ := OnlyCopies.append Inv.init (by intro o ho; simp at ho) h
  have hops' : OnlyCopies (s.step (.new B)) C ops₂ := hops
  have ho : o ∈ (s.step (.new B)).live := by
    show o ∈ s.live ++ [o]
    simp
  have h1 := run_top (i.step (.new B)) (hC.step i _) ops₂ hops' ho
  have h2 : (TIState.init n K).run (ops₁ ++ .new B :: ops₂) = (s.step (.new B)).run ops₂ := by
    simp [TIState.run, s]
  rw [h2, h1]
  show (((s.heap.allocBox B).1.newTI s.heap.next).1.view ((s.heap.allocBox B).1.newTI s.heap.next).2).topInterval = B
  rw [newTI_view _ _ (Nat.lt_succ_self _)]
  simp [TrackedInterval.new, allocBox]

/-! ### The general claim is false -/

/-- The box `[l, r]`. -/
def box1 (l r : ℚ) : Box 1 ℚ := ⟨fun _ => l, fun _ => r⟩

/-- **C16, false for an object that is not a copy.**  After `t = TrackedInterval([[-1, 1]])` and
`t.addTransform([[-1, 0]])` the top interval of `t` is `[-1, 0]`: the constructor stores one array twice. -/
theorem C16_false_constructor :
    let s := (TIState.init 1 ℚ).run [.new (box1 (-1) 1), .addTransform 5 (box1 (-1) 0)]
    s.live = [5] ∧ (s.heap.view 5).topInterval.hi 0 = 0 := by
  decide +kernel

/-- **C16, false for the original of a copy.**  Transforming the original changes what the copy shows as its top
interval, because `copy` passes the array on by reference. -/
theorem C16_false_shared :
    let s := (TIState.init 1 ℚ).run [.new (box1 (-1) 1), .copy 5]
    let s' := s.step (.addTransform 5 (box1 (-1) 0))
    s.live = [5, 10] ∧ (s.heap.view 10).topInterval.hi 0 = 1 ∧ (s'.heap.view 10).topInterval.hi 0 = 0 ∧
      (s'.heap.view 10).interval.hi 0 = 1 := by
  decide +kernel

/-- A program as in the solver: the copy is transformed twice, the original stays as it is. -/
example :
    let s₁ := (TIState.init 1 ℚ).run [.new (box1 (-1) 1)]
    let s₂ := (s₁.step (.copy 5)).run [.addTransform 10 (box1 (-1) 0), .startFinalStep 10]
    let s₃ := s₂.step (.addTransform 10 (box1 0 1))
    5 ∈ s₁.live ∧ (s₁.heap.copyTI 5).2 = 10 ∧ (s₂.heap.view 10).interval.hi 0 = 0 ∧
      (s₃.heap.view 10).interval.lo 0 = -1 / 2 ∧ (s₃.heap.view 5).interval.lo 0 = -1 ∧
      (s₃.heap.view 10).preFinalInterval.lo 0 = -1 := by
  decide +kernel

/-- The first half of C16 on that program: the original is not touched. -/
example : let s₁ := (TIState.init 1 ℚ).run [.new (box1 (-1) 1)]
    let s₂ := (s₁.step (.copy 5)).run [.addTransform 10 (box1 (-1) 0), .startFinalStep 10]
    (s₂.step (.addTransform (s₁.heap.copyTI 5).2 (box1 0 1))).heap.view 5 = s₂.heap.view 5 :=
  (C16_copy_partial [.new (box1 (-1) 1)] [.addTransform 10 (box1 (-1) 0), .startFinalStep 10] 5 (box1 0 1) (by decide +kernel)).2.2 5
    (by decide +kernel) (by decide +kernel)

/-- A copy of a transformed copy shows what the copy shows. -/
example : let s := (TIState.init 1 ℚ).run [.new (box1 (-1) 1), .copy 5, .addTransform 10 (box1 (-1) 0)]
    (s.heap.copyTI 10).1.view (s.heap.copyTI 10).2 = (s.heap.view 10).copy :=
  (C16_copy_equal [.new (box1 (-1) 1), .copy 5, .addTransform 10 (box1 (-1) 0)] 10 (by decide +kernel)).1

/-- The hypothesis of the second half holds for a program with two generations of copies. -/
example : OnlyCopies (TIState.init 1 ℚ) []
    ([] ++ .new (box1 (-1) 1) :: [.copy 5, .addTransform 10 (box1 (-1) 0), .copy 10, .addTransform 19 (box1 0 1)]) := by
  simp only [List.nil_append, OnlyCopies]
  decide +kernel

end YRoots
