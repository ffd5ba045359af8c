import Verif.Proofs.Heap
import Verif.Model.HeapSolver

/-!
# Reference model of the solver: loops and transformations
-/

set_option linter.unusedSectionVars false
set_option linter.unusedVariables false
set_option linter.unusedSimpArgs false

namespace YRoots

namespace Heap

variable {n : ℕ} {K : Type*}

/-- Lists of tensors, tensors and vectors in use have not changed. -/
structure MExt (h h' : Heap n K) : Prop where
  next_le : h.next ≤ h'.next
  vec : ∀ a < h.next, h'.vec a = h.vec a
  tensor : ∀ a < h.next, h'.tensor a = h.tensor a
  mlist : ∀ a < h.next, h'.mlist a = h.mlist a

theorem Ext.mext {h h' : Heap n K} (e : Ext h h') : MExt h h' := ⟨e.next_le, e.vec, e.tensor, e.mlist⟩

theorem MExt.refl (h : Heap n K) : MExt h h := (Ext.refl h).mext

theorem MExt.trans {h h' h'' : Heap n K} (a : MExt h h') (b : MExt h' h'') : MExt h h'' :=
  ⟨a.next_le.trans b.next_le,
    fun i hi => (b.vec i (hi.trans_le a.next_le)).trans (a.vec i hi),
    fun i hi => (b.tensor i (hi.trans_le a.next_le)).trans (a.tensor i hi),
    fun i hi => (b.mlist i (hi.trans_le a.next_le)).trans (a.mlist i hi)⟩

/-- The list at address `m` holds the tensors `Ms`. -/
structure MsRel (h : Heap n K) (m : ℕ) (Ms : Fin n → Tensor n K) : Prop where
  lt : m < h.next
  elem_lt : ∀ i, h.mlist m i < h.next
  eq : h.tensors m = Ms

theorem MsRel.mext {h h' : Heap n K} {m : ℕ} {Ms : Fin n → Tensor n K} (r : MsRel h m Ms) (e : MExt h h') :
    MsRel h' m Ms := by
  have hm := e.mlist m r.lt
  refine ⟨r.lt.trans_le e.next_le, fun i => by rw [hm]; exact (r.elem_lt i).trans_le e.next_le, ?_⟩
  rw [← r.eq]
  funext i
  unfold tensors
  rw [hm, e.tensor _ (r.elem_lt i)]

/-- The vector at address `e` has the value `v`. -/
structure VecRel (h : Heap n K) (e : ℕ) (v : Fin n → K) : Prop where
  lt : e < h.next
  eq : h.vec e = v

theorem VecRel.mext {h h' : Heap n K} {e : ℕ} {v : Fin n → K} (r : VecRel h e v) (x : MExt h h') : VecRel h' e v :=
  ⟨r.lt.trans_le x.next_le, by rw [x.vec e r.lt, r.eq]⟩

/-- The object at address `o` shows the value `t`. -/
structure ObjRel (h : Heap n K) (o : ℕ) (t : TrackedInterval n K) : Prop where
  valid : Valid h o
  eq : h.view o = t

theorem ObjRel.ext {h h' : Heap n K} {o : ℕ} {t : TrackedInterval n K} (r : ObjRel h o t) (e : Ext h h') :
    ObjRel h' o t := ⟨r.valid.ext e, by rw [e.view r.valid, r.eq]⟩

variable [Field K] [LinearOrder K]

/-! ### Loops -/

theorem collect_spec {B : Type*} (f : Heap n K → Fin n → Heap n K × B) (d : B) (h0 : Heap n K)
    (P : Fin n → B → Heap n K → Prop) (stable : ∀ i b h h', Ext h h' → P i b h → P i b h')
    (hf : ∀ h, Ext h0 h → ∀ i, Ext h (f h i).1 ∧ P i (f h i).2 (f h i).1) :
    Ext h0 (collect f d h0).1 ∧ ∀ i, P i ((collect f d h0).2 i) (collect f d h0).1 := by
  unfold collect
  have key : ∀ l : List (Fin n), ∀ p : Heap n K × (Fin n → B), Ext h0 p.1 → ∀ S : Finset (Fin n),
      (∀ i ∈ S, P i (p.2 i) p.1) →
      let q := l.foldl (fun p i => let r := f p.1 i; (r.1, Function.update p.2 i r.2)) p
      Ext h0 q.1 ∧ ∀ i, (i ∈ S ∨ i ∈ l) → P i (q.2 i) q.1 := by
    intro l
    induction l with
    | nil => intro p hp S hS; exact ⟨hp, fun i hi => hS i (by simpa using hi)⟩
    | cons j l ih =>
      intro p hp S hS
      obtain ⟨h1, h2⟩ := hf p.1 hp j
      have := ih ((f p.1 j).1, Function.update p.2 j (f p.1 j).2) (hp.trans h1) (insert j S) ?_
      · refine ⟨this.1, fun i hi => this.2 i ?_⟩
        rcases hi with hi | hi
        · exact Or.inl (Finset.mem_insert_of_mem hi)
        · rcases List.mem_cons.1 hi with rfl | hi
          · exact Or.inl (Finset.mem_insert_self _ _)
          · exact Or.inr hi
      · intro i hi
        by_cases hij : i = j
        · subst hij; simpa using h2
        · rcases Finset.mem_insert.1 hi with h | h
          · exact absurd h hij
          · simp only [Function.update_of_ne hij]
            exact stable _ _ _ _ h1 (hS i h)
  have := key (List.finRange n) (h0, fun _ => d) (Ext.refl h0) ∅ (by simp)
  exact ⟨this.1, fun i => this.2 i (Or.inr (List.mem_finRange i))⟩

theorem flatMapH_spec {A A' B B' : Type*} (f : Heap n K → A → Heap n K × List B) (g : A' → List B') (h0 : Heap n K)
    (R : Heap n K → A → A' → Prop) (S : Heap n K → B → B' → Prop)
    (sR : ∀ a a' h h', Ext h h' → R h a a' → R h' a a') (sS : ∀ b b' h h', Ext h h' → S h b b' → S h' b b')
    (hf : ∀ h, Ext h0 h → ∀ a a', R h a a' → Ext h (f h a).1 ∧ List.Forall₂ (S (f h a).1) (f h a).2 (g a'))
    {l : List A} {l' : List A'} {h : Heap n K} (e : Ext h0 h) (hl : List.Forall₂ (R h) l l') :
    Ext h (flatMapH f l h).1 ∧ List.Forall₂ (S (flatMapH f l h).1) (flatMapH f l h).2 (l'.flatMap g) := by
  induction l generalizing l' h with
  | nil =>
    cases hl
    exact ⟨Ext.refl h, .nil⟩
  | cons a l ih =>
    cases hl with
    | cons ha hl =>
      rename_i a' l'
      obtain ⟨e1, f1⟩ := hf h e a a' ha
      have hl1 : List.Forall₂ (R (f h a).1) l l' := hl.imp fun _ _ hr => sR _ _ _ _ e1 hr
      obtain ⟨e2, f2⟩ := ih (e.trans e1) hl1
      refine ⟨e1.trans e2, ?_⟩
      simp only [flatMapH, List.flatMap_cons]
      exact List.rel_append (f1.imp fun _ _ hs => sS _ _ _ _ e2 hs) f2

theorem splitAllH_spec {A A' D : Type*} (f : D → Heap n K → A → Heap n K × List A) (g : D → Bool → A' → A')
    (h0 : Heap n K) (R : Heap n K → A → A' → Prop) (sR : ∀ a a' h h', Ext h h' → R h a a' → R h' a a')
    (hf : ∀ d h, Ext h0 h → ∀ a a', R h a a' →
      Ext h (f d h a).1 ∧ List.Forall₂ (R (f d h a).1) (f d h a).2 [g d false a', g d true a'])
    (dims : List D) {l : List A} {l' : List A'} {h : Heap n K} (e : Ext h0 h) (hl : List.Forall₂ (R h) l l') :
    Ext h (splitAllH f dims (h, l)).1 ∧
      List.Forall₂ (R (splitAllH f dims (h, l)).1) (splitAllH f dims (h, l)).2 (splitAll g dims l') := by
  induction dims generalizing l l' h with
  | nil => exact ⟨Ext.refl h, hl⟩
  | cons d dims ih =>
    obtain ⟨e1, f1⟩ := flatMapH_spec (f d) (fun a => [g d false a, g d true a]) h0 R R sR sR (hf d) e hl
    obtain ⟨e2, f2⟩ := ih (e.trans e1) f1
    exact ⟨e1.trans e2, f2⟩

/-- Corresponding outcomes. -/
def ExcRel {A B : Type*} (R : A → B → Prop) : Except Exc A → Except Exc B → Prop
  | .ok a, .ok b => R a b
  | .error e, .error e' => e = e'
  | _, _ => False

theorem mapMH_spec {A A' B B' : Type*} (f : Heap n K → A → Heap n K × Except Exc B) (g : A' → Except Exc B')
    (h0 : Heap n K) (R : Heap n K → A → A' → Prop) (S : Heap n K → B → B' → Prop)
    (sR : ∀ a a' h h', Ext h0 h → Ext h h' → R h a a' → R h' a a')
    (sS : ∀ b b' h h', Ext h0 h → Ext h h' → S h b b' → S h' b b')
    (hf : ∀ h, Ext h0 h → ∀ a a', R h a a' → Ext h (f h a).1 ∧ ExcRel (S (f h a).1) (f h a).2 (g a'))
    {l : List A} {l' : List A'} {h : Heap n K} (e : Ext h0 h) (hl : List.Forall₂ (R h) l l') :
    Ext h (mapMH f l h).1 ∧ ExcRel (List.Forall₂ (S (mapMH f l h).1)) (mapMH f l h).2 (l'.mapM g) := by
  induction l generalizing l' h with
  | nil =>
    cases hl
    exact ⟨Ext.refl h, by simp [mapMH, ExcRel, pure, Except.pure]⟩
  | cons a l ih =>
    cases hl with
    | cons ha hl =>
      rename_i a' l'
      obtain ⟨e1, f1⟩ := hf h e a a' ha
      rcases hfa : f h a with ⟨h1, r⟩
      rw [hfa] at e1 f1
      have hl1 : List.Forall₂ (R h1) l l' := hl.imp fun _ _ hr => sR _ _ _ _ e e1 hr
      obtain ⟨e2, f2⟩ := ih (e.trans e1) hl1
      rw [List.mapM_cons]
      simp only [mapMH, hfa]
      cases r with
      | error x =>
        cases hg : g a' with
        | error y =>
          rw [hg] at f1
          exact ⟨e1, f1⟩
        | ok b => rw [hg] at f1; exact f1.elim
      | ok b =>
        cases hg : g a' with
        | error y => rw [hg] at f1; exact f1.elim
        | ok b' =>
          rw [hg] at f1
          rcases hm : mapMH f l h1 with ⟨h2, r2⟩
          rw [hm] at e2 f2
          simp only [hm]
          cases r2 with
          | error x =>
            cases hg2 : l'.mapM g with
            | error y => rw [hg2] at f2; exact ⟨e1.trans e2, f2⟩
            | ok bs => rw [hg2] at f2; exact f2.elim
          | ok bs =>
            cases hg2 : l'.mapM g with
            | error y => rw [hg2] at f2; exact f2.elim
            | ok bs' =>
              rw [hg2] at f2
              refine ⟨e1.trans e2, ?_⟩
              exact List.Forall₂.cons (sS _ _ _ _ (e.trans e1) e2 f1) f2

/-! ### Transformations -/

theorem transformNDH_spec (h : Heap n K) {a : ℕ} (ha : a < h.next) (d : Fin n) (α β : K) (exact : Bool) :
    Ext h (transformNDH h a d α β exact).1 ∧ (transformNDH h a d α β exact).2 < (transformNDH h a d α β exact).1.next ∧
      (transformNDH h a d α β exact).1.tensor (transformNDH h a d α β exact).2 =
        transformND (h.tensor a) d α β exact := by
  unfold transformNDH
  split_ifs with hc
  · refine ⟨Ext.refl h, ha, ?_⟩
    unfold transformND
    rw [if_pos hc]
  · refine ⟨((Ext.refl h).allocTensor _).setTensor le_rfl _, Nat.lt_succ_self _, ?_⟩
    simp [setTensor, allocTensor, Function.update_of_ne ha.ne]

theorem transformChebH_spec (h : Heap n K) {a : ℕ} (ha : a < h.next) (α β : Fin n → K) (error : K) (exact : Bool) :
    Ext h (transformChebH h a α β error exact).1 ∧
      (transformChebH h a α β error exact).2.1 < (transformChebH h a α β error exact).1.next ∧
      ((transformChebH h a α β error exact).1.tensor (transformChebH h a α β error exact).2.1,
        (transformChebH h a α β error exact).2.2) = transformCheb (h.tensor a) α β error exact := by
  unfold transformChebH transformCheb
  have key : ∀ l : List (Fin n), ∀ h : Heap n K, ∀ a, a < h.next → ∀ error : K,
      let q := l.foldl (fun (p : Heap n K × ℕ × K) d =>
        let e := p.2.2 + getTransformationError (p.1.tensor p.2.1) d
        let r := transformNDH p.1 p.2.1 d (α d) (β d) exact
        (r.1, r.2, e)) (h, a, error)
      Ext h q.1 ∧ q.2.1 < q.1.next ∧ (q.1.tensor q.2.1, q.2.2) =
        l.foldl (fun p d => (transformND p.1 d (α d) (β d) exact, p.2 + getTransformationError p.1 d))
          (h.tensor a, error) := by
    intro l
    induction l with
    | nil => intro h a ha error; exact ⟨Ext.refl h, ha, rfl⟩
    | cons d l ih =>
      intro h a ha error
      obtain ⟨e1, l1, t1⟩ := transformNDH_spec h ha d (α d) (β d) exact
      obtain ⟨e2, l2, t2⟩ := ih _ _ l1 (error + getTransformationError (h.tensor a) d)
      refine ⟨e1.trans e2, l2, ?_⟩
      rw [List.foldl_cons, List.foldl_cons]
      rw [t1] at t2
      exact t2
  exact key _ h a ha error

theorem transformChebToIntervalH_spec (h : Heap n K) {m e : ℕ} {Ms : Fin n → Tensor n K} {errs : Fin n → K}
    (hm : MsRel h m Ms) (he : VecRel h e errs) (α β : Fin n → K) (exact : Bool) :
    Ext h (transformChebToIntervalH h m α β e exact).1 ∧
      MsRel (transformChebToIntervalH h m α β e exact).1 (transformChebToIntervalH h m α β e exact).2.1
        (transformChebToInterval Ms α β errs exact).1 ∧
      VecRel (transformChebToIntervalH h m α β e exact).1 (transformChebToIntervalH h m α β e exact).2.2
        (transformChebToInterval Ms α β errs exact).2 := by
  obtain ⟨e1, p1⟩ := collect_spec (fun h i =>
      let q := transformChebH h (h.mlist m i) α β (h.vec e i) exact
      (q.1, q.2.1, q.2.2)) (0, 0) h
    (fun i b h' => b.1 < h'.next ∧ (h'.tensor b.1, b.2) = transformCheb (Ms i) α β (errs i) exact)
    (fun i b h h' x hp => ⟨hp.1.trans_le x.next_le, by rw [x.tensor _ hp.1]; exact hp.2⟩)
    (fun h' x i => by
      have hm' := hm.mext x.mext
      have he' := he.mext x.mext
      obtain ⟨e1, l1, t1⟩ := transformChebH_spec h' (hm'.elem_lt i) α β (h'.vec e i) exact
      refine ⟨e1, l1, ?_⟩
      have h1 : h'.tensor (h'.mlist m i) = Ms i := congrFun hm'.eq i
      rw [h1, he'.eq] at t1
      simpa only [h1, he'.eq] using t1)
  unfold transformChebToIntervalH
  simp only
  refine ⟨(e1.allocMlist _).allocVec _, ?_, ?_⟩
  · refine ⟨by simp [allocMlist, allocVec], fun i => ?_, ?_⟩
    · simp only [allocMlist, allocVec, Function.update_self]
      exact lt_of_lt_of_le (p1 i).1 (Nat.le_add_right _ 2)
    · funext i
      simp only [tensors, allocMlist, allocVec, Function.update_self]
      exact congrArg Prod.fst (p1 i).2
  · refine ⟨by simp [allocMlist, allocVec], ?_⟩
    funext i
    simp only [allocMlist, allocVec, Function.update_self]
    exact congrArg Prod.snd (p1 i).2

end Heap

end YRoots
