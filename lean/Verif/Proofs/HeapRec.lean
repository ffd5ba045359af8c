import Verif.Proofs.HeapCombine

/-!
# Reference model of the solver: the recursion
-/

set_option linter.unusedSectionVars false
set_option linter.unusedVariables false
set_option linter.unusedSimpArgs false

namespace YRoots

namespace Heap

variable {n : ℕ} {K : Type*} [Field K] [LinearOrder K] [FloorSemiring K] [IsStrictOrderedRing K]

/-! ### Results -/

/-- Corresponding pairs of lists of objects; all addresses satisfy `Q`. -/
structure BoxesRel (Q : ℕ → Prop) (h : Heap n K) (b : BoxRefs) (b' : Boxes n K) : Prop where
  int : List.Forall₂ (fun x t => RRel h x t ∧ Q x) b.1 b'.1
  ext : List.Forall₂ (fun x t => RRel h x t ∧ Q x) b.2 b'.2

theorem BoxesRel.mono {Q : ℕ → Prop} {h h' : Heap n K} {b : BoxRefs} {b' : Boxes n K} (r : BoxesRel Q h b b')
    (e : Ext h h') : BoxesRel Q h' b b' :=
  ⟨r.int.imp fun _ _ s => ⟨s.1.ext e, s.2⟩, r.ext.imp fun _ _ s => ⟨s.1.ext e, s.2⟩⟩

theorem BoxesRel.imp {Q Q' : ℕ → Prop} {h : Heap n K} {b : BoxRefs} {b' : Boxes n K} (r : BoxesRel Q h b b')
    (hq : ∀ x, Q x → Q' x) : BoxesRel Q' h b b' :=
  ⟨r.int.imp fun _ _ s => ⟨s.1, hq _ s.2⟩, r.ext.imp fun _ _ s => ⟨s.1, hq _ s.2⟩⟩

theorem BoxesRel.nil (Q : ℕ → Prop) (h : Heap n K) : BoxesRel Q h ([], []) ([], []) := ⟨.nil, .nil⟩

theorem ExcRel.imp {A B : Type*} {R R' : A → B → Prop} (hr : ∀ a b, R a b → R' a b) {x : Except Exc A} {y : Except Exc B}
    (h : ExcRel R x y) : ExcRel R' x y := by
  cases x <;> cases y <;> simp only [ExcRel] at h ⊢
  · exact h
  · exact hr _ _ h

theorem returnOneH_rel {Q : ℕ → Prop} {h : Heap n K} {orig o : ℕ} {og t : TrackedInterval n K} (ro : ObjRel h orig og)
    (r : ObjRel h o t) (hq : Q o) : BoxesRel Q h (returnOneH h orig o) (returnOne og t) := by
  unfold returnOneH returnOne
  rw [ro.eq, r.eq]
  split_ifs
  · exact ⟨.nil, .cons ⟨r.rrel, hq⟩ .nil⟩
  · exact ⟨.cons ⟨r.rrel, hq⟩ .nil, .nil⟩

theorem forall₂_flatMap {A A' B B' : Type*} {R : A → A' → Prop} {S : B → B' → Prop} {f : A → List B} {g : A' → List B'}
    (hf : ∀ a a', R a a' → List.Forall₂ S (f a) (g a')) {l : List A} {l' : List A'} (hl : List.Forall₂ R l l') :
    List.Forall₂ S (l.flatMap f) (l'.flatMap g) := by
  induction hl with
  | nil => exact .nil
  | cons h1 h2 ih =>
    rw [List.flatMap_cons, List.flatMap_cons]
    exact List.rel_append (hf _ _ h1) ih

/-! ### The points of the final step -/

theorem dedupe_rr (l : List (TrackedInterval n K)) : dedupe (l.map TrackedInterval.rr) = (dedupe l).map TrackedInterval.rr := by
  unfold dedupe
  have key : ∀ l acc : List (TrackedInterval n K), (l.map TrackedInterval.rr).foldl (fun acc t =>
      if ∃ s ∈ acc, s.interval.lo = t.interval.lo then acc else acc ++ [t]) (acc.map TrackedInterval.rr) =
      (l.foldl (fun acc t => if ∃ s ∈ acc, s.interval.lo = t.interval.lo then acc else acc ++ [t]) acc).map
        TrackedInterval.rr := by
    intro l
    induction l with
    | nil => intro acc; rfl
    | cons a l ih =>
      intro acc
      rw [List.map_cons, List.foldl_cons, List.foldl_cons]
      have hiff : (∃ s ∈ acc.map TrackedInterval.rr, s.interval.lo = a.rr.interval.lo) ↔
          ∃ s ∈ acc, s.interval.lo = a.interval.lo := by
        simp only [List.mem_map, exists_exists_and_eq_and]
        rfl
      by_cases hc : ∃ s ∈ acc, s.interval.lo = a.interval.lo
      · rw [if_pos hc, if_pos (hiff.2 hc)]
        exact ih acc
      · rw [if_neg hc, if_neg (fun h => hc (hiff.1 h))]
        have := ih (acc ++ [a])
        rw [List.map_append] at this
        exact this
  exact key l []

theorem duplicateRoots_rr (l : List (TrackedInterval n K)) : duplicateRoots (l.map TrackedInterval.rr) = duplicateRoots l := by
  unfold duplicateRoots
  rw [List.flatMap_map]
  rfl

theorem duplicateRoots_rel {Q : ℕ → Prop} {h : Heap n K} {l : List ℕ} {l' : List (TrackedInterval n K)}
    (hl : List.Forall₂ (fun x t => RRel h x t ∧ Q x) l l') :
    duplicateRoots (dedupe (l.map h.view)) = duplicateRoots (dedupe l') := by
  have hm : (l.map h.view).map TrackedInterval.rr = l'.map TrackedInterval.rr := by
    induction hl with
    | nil => rfl
    | cons h1 h2 ih =>
      simp only [List.map_cons]
      rw [h1.1.eq, ih]
  rw [← duplicateRoots_rr, ← dedupe_rr, hm, dedupe_rr, duplicateRoots_rr]

/-! ### Reruns -/

/-- What the recursive call must satisfy. -/
def RecOK (rec : Heap n K → ℕ → ℕ → ℕ → Heap n K × Except Exc BoxRefs)
    (rec' : (Fin n → Tensor n K) → TrackedInterval n K → (Fin n → K) → Except Exc (Boxes n K)) : Prop :=
  ∀ h m o e Ms t errs, MsRel h m Ms → ObjRel h o t → VecRel h e errs →
    Ext h (rec h m o e).1 ∧ ExcRel (BoxesRel (fun x => h.next ≤ x ∨ x = o) (rec h m o e).1) (rec h m o e).2 (rec' Ms t errs)

theorem rerunOneH_spec {rec : Heap n K → ℕ → ℕ → ℕ → Heap n K × Except Exc BoxRefs}
    {rec' : (Fin n → Tensor n K) → TrackedInterval n K → (Fin n → K) → Except Exc (Boxes n K)} (hrec : RecOK rec rec')
    (k : ℕ) (exact : Bool) {om e orig : ℕ} {Ms : Fin n → Tensor n K} {errs : Fin n → K} {og : TrackedInterval n K}
    {h : Heap n K} (hk : k ≤ h.next) (hm : MsRel h om Ms) (he : VecRel h e errs) (ro : ObjRel h orig og) {o : ℕ}
    {t : TrackedInterval n K} (r : ObjRel h o t) (ho : k ≤ o) :
    Ext h (rerunOneH rec exact om e orig h o).1 ∧
      ExcRel (BoxesRel (k ≤ ·) (rerunOneH rec exact om e orig h o).1) (rerunOneH rec exact om e orig h o).2
        (rerunOne rec' exact Ms errs og t) := by
  unfold rerunOneH rerunOne
  have h1 : (h.obj o).reRun = t.reRun := by rw [← r.eq]; rfl
  have h2 : (h.trs (h.obj o).transforms).getLast? = t.getLastTransform := by rw [← r.eq]; rfl
  rw [h1, h2, r.eq, ro.eq]
  by_cases c1 : t.reRun = true
  · simp only [if_pos c1]
    by_cases c2 : ∀ i, t.interval.lo i = og.interval.lo i ∧ t.interval.hi i = og.interval.hi i
    · simp only [if_pos c2]
      exact ⟨Ext.refl h, ⟨.nil, .cons ⟨r.rrel, ho⟩ .nil⟩⟩
    · simp only [if_neg c2]
      cases hl : t.getLastTransform with
      | none => exact ⟨Ext.refl h, rfl⟩
      | some ab =>
        simp only
        obtain ⟨x1, x2, x3⟩ := transformChebToIntervalH_spec h hm he ab.1 ab.2 exact
        obtain ⟨y1, y2⟩ := hrec _ _ o _ _ t _ x2 (r.ext x1) x3
        refine ⟨x1.trans y1, y2.imp fun b b' s => s.imp ?_⟩
        rintro x (hx | rfl)
        · exact (hk.trans x1.next_le).trans hx
        · exact ho
  · simp only [if_neg c1]
    exact ⟨Ext.refl h, returnOneH_rel ro r ho⟩

/-! ### After the zoom -/

/-- The part of `solveH` after the zoom loop. -/
def tailH (env : Env n K) (opts : Opts) (rec : Heap n K → ℕ → ℕ → ℕ → Heap n K × Except Exc BoxRefs) (om orig : ℕ)
    (h : Heap n K) (z : ZoomRef) : Heap n K × Except Exc BoxRefs :=
  if (h.obj z.ti).empty then (h, .ok ([], []))
  else if z.shouldStop then
    if (h.obj z.ti).finalStep || !opts.useFinalStep then (h, .ok (returnOneH h orig z.ti))
    else rec (h.startFinalStep z.ti) z.Ms z.ti z.errors
  else if (h.obj z.ti).finalStep then
    let h := h.setObj z.ti { h.obj z.ti with canThrowOutFinalStep := true }
    match getSubdivisionIntervalsH env.argsort env.setIter h z.Ms z.errors z.ti opts.exact opts.level with
    | (h, .error x) => (h, .error x)
    | (h, .ok cs) =>
      match mapMH (fun h (c : ChildRef) => rec h c.Ms c.ti c.errors) cs h with
      | (h, .error x) => (h, .error x)
      | (h, .ok rs) =>
        let resultsAll := rs.flatMap fun r => r.1 ++ r.2
        if resultsAll.length = 0 then
          let h := h.setObj z.ti { h.obj z.ti with possibleExtraRoot := true }
          (h, .ok (returnOneH h orig z.ti))
        else
          let h := h.setPts (h.obj z.ti).possibleDuplicateRoots
            (h.pts (h.obj z.ti).possibleDuplicateRoots ++ duplicateRoots (dedupe (resultsAll.map h.view)))
          (h, .ok (returnOneH h orig z.ti))
  else
    match getSubdivisionIntervalsH env.argsort env.setIter h z.Ms z.errors z.ti opts.exact opts.level with
    | (h, .error x) => (h, .error x)
    | (h, .ok cs) =>
      match mapMH (fun h (c : ChildRef) => rec h c.Ms c.ti c.errors) cs h with
      | (h, .error x) => (h, .error x)
      | (h, .ok rs) =>
        match combineExteriorH h orig (rs.flatMap (·.2)) with
        | (h, .error x) => (h, .error x)
        | (h, .ok ext) =>
          match mapMH (rerunOneH rec opts.exact om z.errors orig) ext h with
          | (h, .error x) => (h, .error x)
          | (h, .ok rs') => (h, .ok (rs.flatMap (·.1) ++ rs'.flatMap (·.1), rs'.flatMap (·.2)))

/-- The part of `solvePolyRecursive` after the zoom loop. -/
def tailV (env : Env n K) (opts : Opts)
    (rec : (Fin n → Tensor n K) → TrackedInterval n K → (Fin n → K) → Except Exc (Boxes n K))
    (originalMs : Fin n → Tensor n K) (orig : TrackedInterval n K) (z : ZoomResult n K) : Except Exc (Boxes n K) :=
  if z.ti.empty then .ok ([], [])
  else if z.shouldStop then
    if z.ti.finalStep || !opts.useFinalStep then .ok (returnOne orig z.ti)
    else rec z.Ms z.ti.startFinalStep z.errors
  else if z.ti.finalStep then
    let t := { z.ti with canThrowOutFinalStep := true }
    match getSubdivisionIntervals env.argsort env.setIter z.Ms z.errors t opts.exact opts.level with
    | .error e => .error e
    | .ok cs =>
      match cs.mapM fun c => rec c.Ms c.ti c.errors with
      | .error e => .error e
      | .ok rs =>
        let resultsAll := rs.flatMap fun r => r.1 ++ r.2
        if resultsAll.length = 0 then .ok (returnOne orig { t with possibleExtraRoot := true })
        else
          .ok (returnOne orig { t with
            possibleDuplicateRoots := t.possibleDuplicateRoots ++ duplicateRoots (dedupe resultsAll) })
  else
    match getSubdivisionIntervals env.argsort env.setIter z.Ms z.errors z.ti opts.exact opts.level with
    | .error e => .error e
    | .ok cs =>
      match cs.mapM fun c => rec c.Ms c.ti c.errors with
      | .error e => .error e
      | .ok rs =>
        match combineExterior orig (rs.flatMap (·.2)) with
        | .error e => .error e
        | .ok ext =>
          match ext.mapM (rerunOne rec opts.exact originalMs z.errors orig) with
          | .error e => .error e
          | .ok rs' => .ok (rs.flatMap (·.1) ++ rs'.flatMap (·.1), rs'.flatMap (·.2))

/-- Children solved one after the other. -/
theorem children_spec {rec : Heap n K → ℕ → ℕ → ℕ → Heap n K × Except Exc BoxRefs}
    {rec' : (Fin n → Tensor n K) → TrackedInterval n K → (Fin n → K) → Except Exc (Boxes n K)} (hrec : RecOK rec rec')
    (k : ℕ) {h : Heap n K} (hk : k ≤ h.next) {cs : List ChildRef} {cs' : List (Child n K)}
    (hc : List.Forall₂ (fun c c' => ChildRel h c c' ∧ k ≤ c.ti) cs cs') :
    Ext h (mapMH (fun h (c : ChildRef) => rec h c.Ms c.ti c.errors) cs h).1 ∧
      ExcRel (List.Forall₂ (BoxesRel (k ≤ ·) (mapMH (fun h (c : ChildRef) => rec h c.Ms c.ti c.errors) cs h).1))
        (mapMH (fun h (c : ChildRef) => rec h c.Ms c.ti c.errors) cs h).2
        (cs'.mapM fun c => rec' c.Ms c.ti c.errors) := by
  refine mapMH_spec _ _ h (fun h c c' => ChildRel h c c' ∧ k ≤ c.ti) (BoxesRel (k ≤ ·))
    (fun _ _ _ _ _ e r => ⟨r.1.ext e, r.2⟩) (fun _ _ _ _ _ e r => r.mono e) ?_ (Ext.refl h) hc
  rintro h1 x c c' ⟨r, hti⟩
  obtain ⟨y1, y2⟩ := hrec h1 c.Ms c.ti c.errors _ _ _ r.Ms r.ti r.errors
  refine ⟨y1, y2.imp fun b b' s => s.imp ?_⟩
  rintro a (ha | rfl)
  · exact (hk.trans x.next_le).trans ha
  · exact hti

theorem tailH_spec (env : Env n K) (opts : Opts) {rec : Heap n K → ℕ → ℕ → ℕ → Heap n K × Except Exc BoxRefs}
    {rec' : (Fin n → Tensor n K) → TrackedInterval n K → (Fin n → K) → Except Exc (Boxes n K)} (hrec : RecOK rec rec')
    {h0 h : Heap n K} (e : Ext h0 h) {om orig o : ℕ} {Ms : Fin n → Tensor n K} {og : TrackedInterval n K}
    (hom : MsRel h om Ms) (ro : ObjRel h orig og) (hrr : og.reRun = false) (v : Valid h o) (f : Fresh h0 h o)
    (a : Apart h o orig) {z : ZoomRef} {z' : ZoomResult n K} (hz : ZoomRel h o z z') :
    Ext h0 (tailH env opts rec om orig h z).1 ∧
      ExcRel (BoxesRel (h0.next ≤ ·) (tailH env opts rec om orig h z).1) (tailH env opts rec om orig h z).2
        (tailV env opts rec' Ms og z') := by
  have r : ObjRel h o z'.ti := ⟨v, hz.view⟩
  have hemp : (h.obj o).empty = z'.ti.empty := by rw [← hz.view]; rfl
  have hfs : (h.obj o).finalStep = z'.ti.finalStep := by rw [← hz.view]; rfl
  unfold tailH tailV
  rw [hz.ti, hz.shouldStop, hemp, hfs]
  by_cases c1 : z'.ti.empty = true
  · simp only [if_pos c1]
    exact ⟨e, BoxesRel.nil _ _⟩
  simp only [if_neg c1]
  by_cases c2 : z'.shouldStop = true
  · simp only [if_pos c2]
    by_cases c3 : (z'.ti.finalStep || !opts.useFinalStep) = true
    · simp only [if_pos c3]
      exact ⟨e, returnOneH_rel ro r f.self⟩
    · simp only [if_neg c3]
      have T := startFinalStep_touch h v
      have V := startFinalStep_view h v
      rw [hz.view] at V
      obtain ⟨y1, y2⟩ := hrec (h.startFinalStep o) z.Ms o z.errors _ _ _ (hz.Ms.mext T.mext) ⟨T.valid v, V⟩
        (hz.errors.mext T.mext)
      have E1 := T.ext e f
      refine ⟨E1.trans y1, y2.imp fun b b' s => s.imp ?_⟩
      rintro x (hx | rfl)
      · exact E1.next_le.trans hx
      · exact f.self
  simp only [if_neg c2]
  by_cases c3 : z'.ti.finalStep = true
  · simp only [if_pos c3]
    -- line 1266
    have T1 : Touch o h (h.setObj o { h.obj o with canThrowOutFinalStep := true }) :=
      touch_setObj h rfl rfl rfl rfl rfl rfl rfl
    have V1 : (h.setObj o { h.obj o with canThrowOutFinalStep := true }).view o =
        { z'.ti with canThrowOutFinalStep := true } := by
      rw [setObj_view, ← hz.view]; rfl
    generalize h.setObj o { h.obj o with canThrowOutFinalStep := true } = h1 at T1 V1 ⊢
    have r1 : ObjRel h1 o { z'.ti with canThrowOutFinalStep := true } := ⟨T1.valid v, V1⟩
    obtain ⟨e2, f2⟩ := getSubdivisionIntervalsH_spec env.argsort env.setIter h1 (hz.Ms.mext T1.mext)
      (hz.errors.mext T1.mext) r1 opts.exact opts.level
    generalize getSubdivisionIntervalsH env.argsort env.setIter h1 z.Ms z.errors o opts.exact opts.level = p at e2 f2 ⊢
    generalize getSubdivisionIntervals env.argsort env.setIter z'.Ms z'.errors
      { z'.ti with canThrowOutFinalStep := true } opts.exact opts.level = p' at f2 ⊢
    obtain ⟨h2, p⟩ := p
    have T2 := T1.trans (e2.touch r1.valid)
    cases p with
    | error x =>
      cases p' with
      | error y => exact ⟨T2.ext e f, f2⟩
      | ok y => exact f2.elim
    | ok cs =>
      cases p' with
      | error y => exact f2.elim
      | ok cs' =>
        simp only at e2 f2 T2 ⊢
        have E2 : Ext h0 h2 := T2.ext e f
        have r2 := r1.ext e2
        have hcs : List.Forall₂ (fun c c' => ChildRel h2 c c' ∧ h0.next ≤ c.ti) cs cs' := by
          refine List.Forall₂.imp ?_ f2
          rintro c c' ⟨s1, s2⟩
          refine ⟨s1, ?_⟩
          rcases s2 with s2 | s2
          · exact (T1.ext e f).next_le.trans s2
          · rw [s2]; exact f.self
        obtain ⟨e3, f3⟩ := children_spec hrec h0.next E2.next_le hcs
        generalize mapMH (fun h (c : ChildRef) => rec h c.Ms c.ti c.errors) cs h2 = q at e3 f3 ⊢
        generalize (cs'.mapM fun c => rec' c.Ms c.ti c.errors) = q' at f3 ⊢
        obtain ⟨h3, q⟩ := q
        have T3 := T2.trans (e3.touch r2.valid)
        cases q with
        | error x =>
          cases q' with
          | error y => exact ⟨T3.ext e f, f3⟩
          | ok y => exact f3.elim
        | ok rs =>
          cases q' with
          | error y => exact f3.elim
          | ok rs' =>
            simp only at e3 f3 T3 ⊢
            have f3 : List.Forall₂ (BoxesRel (h0.next ≤ ·) h3) rs rs' := f3
            have r3 := r2.ext e3
            have hall : List.Forall₂ (fun x t => RRel h3 x t ∧ h0.next ≤ x) (rs.flatMap fun r => r.1 ++ r.2)
                (rs'.flatMap fun r => r.1 ++ r.2) :=
              forall₂_flatMap (fun b b' s => List.rel_append s.int s.ext) f3
            have hlen := hall.length_eq
            rw [hlen]
            by_cases c4 : (rs'.flatMap fun r => r.1 ++ r.2).length = 0
            · simp only [if_pos c4]
              have T4 : Touch o h3 (h3.setObj o { h3.obj o with possibleExtraRoot := true }) :=
                touch_setObj h3 rfl rfl rfl rfl rfl rfl rfl
              have V4 : (h3.setObj o { h3.obj o with possibleExtraRoot := true }).view o =
                  { z'.ti with canThrowOutFinalStep := true, possibleExtraRoot := true } := by
                rw [setObj_view]
                have := r3.eq
                rw [← hz.view] at this ⊢
                simp only [Heap.view, TrackedInterval.mk.injEq] at this ⊢
                simp [this]
              have T5 := T3.trans T4
              exact ⟨T5.ext e f, returnOneH_rel (T5.other a ro) ⟨T5.valid v, V4⟩ f.self⟩
            · simp only [if_neg c4]
              rw [duplicateRoots_rel hall]
              have hpts : h3.pts (h3.obj o).possibleDuplicateRoots = z'.ti.possibleDuplicateRoots := by
                have := congrArg TrackedInterval.possibleDuplicateRoots r3.eq
                exact this
              rw [hpts]
              have T4 : Touch o h3 (h3.setPts (h3.obj o).possibleDuplicateRoots
                (z'.ti.possibleDuplicateRoots ++ duplicateRoots (dedupe (rs'.flatMap fun r => r.1 ++ r.2)))) :=
                touch_setPts h3 _
              have V4 : (h3.setPts (h3.obj o).possibleDuplicateRoots (z'.ti.possibleDuplicateRoots ++
                  duplicateRoots (dedupe (rs'.flatMap fun r => r.1 ++ r.2)))).view o =
                  { z'.ti with canThrowOutFinalStep := true, possibleDuplicateRoots := z'.ti.possibleDuplicateRoots ++
                    duplicateRoots (dedupe (rs'.flatMap fun r => r.1 ++ r.2)) } := by
                have := r3.eq
                simp only [Heap.view, TrackedInterval.mk.injEq] at this ⊢
                simp only [setPts, Function.update_self]
                rw [← hz.view] at this ⊢
                simp only [Heap.view] at this ⊢
                simp [this]
              have T5 := T3.trans T4
              exact ⟨T5.ext e f, returnOneH_rel (T5.other a ro) ⟨T5.valid v, V4⟩ f.self⟩
  · simp only [if_neg c3]
    obtain ⟨e2, f2⟩ := getSubdivisionIntervalsH_spec env.argsort env.setIter h hz.Ms hz.errors r opts.exact opts.level
    generalize getSubdivisionIntervalsH env.argsort env.setIter h z.Ms z.errors o opts.exact opts.level = p at e2 f2 ⊢
    generalize getSubdivisionIntervals env.argsort env.setIter z'.Ms z'.errors z'.ti opts.exact opts.level = p' at f2 ⊢
    obtain ⟨h2, p⟩ := p
    cases p with
    | error x =>
      cases p' with
      | error y => exact ⟨e.trans e2, f2⟩
      | ok y => exact f2.elim
    | ok cs =>
      cases p' with
      | error y => exact f2.elim
      | ok cs' =>
        simp only at e2 f2 ⊢
        have E2 : Ext h0 h2 := e.trans e2
        have hcs : List.Forall₂ (fun c c' => ChildRel h2 c c' ∧ h0.next ≤ c.ti) cs cs' := by
          refine List.Forall₂.imp ?_ f2
          rintro c c' ⟨s1, s2⟩
          refine ⟨s1, ?_⟩
          rcases s2 with s2 | s2
          · exact e.next_le.trans s2
          · rw [s2]; exact f.self
        obtain ⟨e3, f3⟩ := children_spec hrec h0.next E2.next_le hcs
        generalize mapMH (fun h (c : ChildRef) => rec h c.Ms c.ti c.errors) cs h2 = q at e3 f3 ⊢
        generalize (cs'.mapM fun c => rec' c.Ms c.ti c.errors) = q' at f3 ⊢
        obtain ⟨h3, q⟩ := q
        cases q with
        | error x =>
          cases q' with
          | error y => exact ⟨E2.trans e3, f3⟩
          | ok y => exact f3.elim
        | ok rs =>
          cases q' with
          | error y => exact f3.elim
          | ok rs' =>
            simp only at e3 f3 ⊢
            have f3 : List.Forall₂ (BoxesRel (h0.next ≤ ·) h3) rs rs' := f3
            have X3 := e2.trans e3
            obtain ⟨s4, f4⟩ := combineExteriorH_spec (E2.trans e3) (ro.ext X3) hrr
              (forall₂_flatMap (f := fun b : BoxRefs => b.2) (g := fun b : Boxes n K => b.2) (fun b b' s => s.ext) f3)
            generalize combineExteriorH h3 orig (rs.flatMap fun b => b.2) = w at s4 f4 ⊢
            generalize combineExterior og (rs'.flatMap fun b => b.2) = w' at f4 ⊢
            obtain ⟨h4, w⟩ := w
            cases w with
            | error x =>
              cases w' with
              | error y => exact ⟨s4.ext, f4⟩
              | ok y => exact f4.elim
            | ok ext =>
              cases w' with
              | error y => exact f4.elim
              | ok ext' =>
                simp only at s4 f4 ⊢
                have f4 : List.Forall₂ (fun x t => ObjRel h4 x t ∧ h0.next ≤ x) ext ext' := f4
                have hom4 : MsRel h4 om Ms := (hom.mext X3.mext).mext s4.mext
                have her4 : VecRel h4 z.errors z'.errors := (hz.errors.mext X3.mext).mext s4.mext
                have ro4 : ObjRel h4 orig og := s4.rel _ _ (ro.ext X3) hrr
                obtain ⟨e5, f5⟩ := mapMH_spec (rerunOneH rec opts.exact om z.errors orig)
                  (rerunOne rec' opts.exact Ms z'.errors og) h4 (fun h x t => ObjRel h x t ∧ h0.next ≤ x)
                  (BoxesRel (h0.next ≤ ·)) (fun _ _ _ _ _ e r => ⟨r.1.ext e, r.2⟩) (fun _ _ _ _ _ e r => r.mono e)
                  (fun h5 x5 a a' s => rerunOneH_spec hrec h0.next opts.exact (s4.ext.next_le.trans x5.next_le)
                    (hom4.mext x5.mext) (her4.mext x5.mext) (ro4.ext x5) s.1 s.2) (Ext.refl h4) f4
                generalize mapMH (rerunOneH rec opts.exact om z.errors orig) ext h4 = y at e5 f5 ⊢
                generalize ext'.mapM (rerunOne rec' opts.exact Ms z'.errors og) = y' at f5 ⊢
                obtain ⟨h5, y⟩ := y
                cases y with
                | error x =>
                  cases y' with
                  | error y => exact ⟨s4.ext.trans e5, f5⟩
                  | ok y => exact f5.elim
                | ok rs5 =>
                  cases y' with
                  | error y => exact f5.elim
                  | ok rs5' =>
                    simp only at e5 f5 ⊢
                    have f5 : List.Forall₂ (BoxesRel (h0.next ≤ ·) h5) rs5 rs5' := f5
                    have f3' : List.Forall₂ (fun x t => RRel h5 x t ∧ h0.next ≤ x) (rs.flatMap fun b => b.1)
                        (rs'.flatMap fun b => b.1) := by
                      refine List.Forall₂.imp ?_ (forall₂_flatMap (f := fun b : BoxRefs => b.1)
                        (g := fun b : Boxes n K => b.1) (fun b b' s => s.int) f3)
                      rintro x t ⟨u1, u2⟩
                      exact ⟨(s4.rrel _ _ u1).ext e5, u2⟩
                    exact ⟨s4.ext.trans e5, ⟨List.rel_append f3' (forall₂_flatMap (fun b b' s => s.int) f5),
                      forall₂_flatMap (fun b b' s => s.ext) f5⟩⟩

/-! ### The recursion -/

theorem copy_reRun (t : TrackedInterval n K) : t.copy.reRun = false := by
  unfold TrackedInterval.copy
  simp only
  split_ifs <;> rfl

/-- The part of `solveH` after the checks. -/
def mainH (env : Env n K) (fuel : ℕ) (opts : Opts) (rec : Heap n K → ℕ → ℕ → ℕ → Heap n K × Except Exc BoxRefs)
    (h : Heap n K) (m1 om t e1 : ℕ) (errs : Fin n → K) : Heap n K × Except Exc BoxRefs :=
  let e := h.allocVec errs
  let h := trimMsH e.1 m1 e.2 (1 / 10 ^ 3) 0
  let orig := h.copyTI t
  match zoomLoopH env.svd opts.exact opts.maxZoomCount fuel orig.1 m1 e.2 t (orig.1.view t).dimSize 0 with
  | (h, .error x) => (h, .error x)
  | (h, .ok z) => tailH env opts rec om orig.2 h z

theorem mainH_spec (env : Env n K) (fuel : ℕ) (opts : Opts)
    {rec : Heap n K → ℕ → ℕ → ℕ → Heap n K × Except Exc BoxRefs}
    {rec' : (Fin n → Tensor n K) → TrackedInterval n K → (Fin n → K) → Except Exc (Boxes n K)} (hrec : RecOK rec rec')
    {h0 h : Heap n K} (e : Ext h0 h) {m1 om o : ℕ} {Ms : Fin n → Tensor n K} {t : TrackedInterval n K}
    (errs : Fin n → K) (hm : MsRel h m1 Ms) (hom : MsRel h om Ms) (hne : om ≠ m1) (hm1 : h0.next ≤ m1)
    (r : ObjRel h o t) (s : SelfSep h o) (f : Fresh h0 h o) :
    Ext h0 (mainH env fuel opts rec h m1 om o 0 errs).1 ∧
      ExcRel (BoxesRel (h0.next ≤ ·) (mainH env fuel opts rec h m1 om o 0 errs).1)
        (mainH env fuel opts rec h m1 om o 0 errs).2
        (match zoomLoop env.svd opts.exact opts.maxZoomCount fuel (trimMs Ms errs (1 / 10 ^ 3) 0).1
            (trimMs Ms errs (1 / 10 ^ 3) 0).2 t t.dimSize 0 with
        | .error e => .error e
        | .ok z => tailV env opts rec' Ms t.copy z) := by
  unfold mainH
  have E1 : Ext h (h.allocVec errs).1 := (Ext.refl h).allocVec errs
  have he1 : VecRel (h.allocVec errs).1 (h.allocVec errs).2 errs := ⟨Nat.lt_succ_self _, by simp [allocVec]⟩
  have hnx : (h.obj o).nextTransformPoints ≠ (h.allocVec errs).2 := r.valid.nxt.ne
  have hob1 : (h.allocVec errs).1.obj = h.obj := rfl
  have hsn : h0.next ≤ (h.allocVec errs).2 := e.next_le
  simp only
  generalize (h.allocVec errs).2 = e1 at he1 hnx hsn ⊢
  generalize (h.allocVec errs).1 = h1 at E1 he1 hob1 ⊢
  obtain ⟨F2, M2, V2⟩ := trimMsH_spec h1 (hm.mext E1.mext) he1 (1 / 10 ^ 3) 0
  have r2 := F2.obj_rel (r.ext E1) (by rw [hob1]; exact hnx)
  have om2 := F2.ms_rel (hom.mext E1.mext) hne
  have E2 : Ext h0 (trimMsH h1 m1 e1 (1 / 10 ^ 3) 0) := F2.ext (e.trans E1) hm1 hsn
  have ob2 : (trimMsH h1 m1 e1 (1 / 10 ^ 3) 0).obj = h.obj := F2.obj.trans hob1
  generalize trimMsH h1 m1 e1 (1 / 10 ^ 3) 0 = h2 at M2 V2 r2 om2 E2 ob2 ⊢
  have s2 : SelfSep h2 o := by
    refine ⟨?_, ?_, ?_⟩ <;> rw [ob2]
    exacts [s.top, s.preI, s.preT]
  have f2 : Fresh h0 h2 o := by
    refine ⟨f.self, ?_, ?_, ?_⟩ <;> rw [ob2]
    exacts [f.interval, f.transforms, f.dup]
  have C := copyTI_rel h2 r2
  have A := copyTI_apart h2 r2.valid s2
  have E3 : Ext h2 (h2.copyTI o).1 := (Ext.refl h2).copyTI o
  generalize (h2.copyTI o).2 = orig at C A ⊢
  generalize (h2.copyTI o).1 = h3 at C A E3 ⊢
  have T3 := E3.touch r2.valid
  have r3 := r2.ext E3
  have s3 := T3.selfSep r2.valid s2
  rw [r3.eq]
  obtain ⟨T4, f4⟩ := zoomLoopH_spec env.svd opts.exact opts.maxZoomCount fuel h3 (M2.mext E3.mext) (V2.mext E3.mext) r3 s3
    t.dimSize 0
  generalize zoomLoopH env.svd opts.exact opts.maxZoomCount fuel h3 m1 e1 o t.dimSize 0 = p at T4 f4 ⊢
  generalize zoomLoop env.svd opts.exact opts.maxZoomCount fuel (trimMs Ms errs (1 / 10 ^ 3) 0).1
    (trimMs Ms errs (1 / 10 ^ 3) 0).2 t t.dimSize 0 = p' at f4 ⊢
  obtain ⟨h4, p⟩ := p
  have X3 : Ext h0 h3 := E2.trans E3
  have F3 := T3.fresh f2
  have X4 : Ext h0 h4 := T4.ext X3 F3
  cases p with
  | error x =>
    cases p' with
    | error y => exact ⟨X4, f4⟩
    | ok y => exact f4.elim
  | ok z =>
    cases p' with
    | error y => exact f4.elim
    | ok z' =>
      simp only at T4 f4 ⊢
      exact tailH_spec env opts hrec X4 ((om2.mext E3.mext).mext T4.mext) (T4.other A C) (copy_reRun t)
        (T4.valid r3.valid) (T4.fresh F3) (T4.apart C.valid A) f4

theorem solveH_spec (env : Env n K) (fuel : ℕ) (opts : Opts) :
    RecOK (fun h m o e => solveH env fuel opts h m o e) (fun Ms t e => solvePolyRecursive env fuel opts Ms t e) := by
  induction fuel generalizing opts with
  | zero =>
    intro h m o e Ms t errs hm r he
    exact ⟨Ext.refl h, rfl⟩
  | succ fuel ih =>
    intro h m o e Ms t errs hm r he
    have hL : solveH env (fuel + 1) opts h m o e =
        if (h.view o).isPoint then (h, .ok ([], [o]))
        else if opts.constant_check && constantCheck (h.tensors m) (h.vec e) then (h, .ok ([], []))
        else if quadraticDiscard env { opts with level := opts.level + 1 } (h.tensors m) (h.vec e) then (h, .ok ([], []))
        else mainH env fuel { opts with level := opts.level + 1 }
          (fun h m o e => solveH env fuel { opts with level := opts.level + 1 } h m o e)
          (((h.allocMlist (h.mlist m)).1.allocMlist ((h.allocMlist (h.mlist m)).1.mlist (h.allocMlist (h.mlist m)).2)).1.copyTI o).1
          (h.allocMlist (h.mlist m)).2
          ((h.allocMlist (h.mlist m)).1.allocMlist ((h.allocMlist (h.mlist m)).1.mlist (h.allocMlist (h.mlist m)).2)).2
          (((h.allocMlist (h.mlist m)).1.allocMlist ((h.allocMlist (h.mlist m)).1.mlist (h.allocMlist (h.mlist m)).2)).1.copyTI o).2
          0
          ((((h.allocMlist (h.mlist m)).1.allocMlist ((h.allocMlist (h.mlist m)).1.mlist (h.allocMlist (h.mlist m)).2)).1.copyTI o).1.vec e) := by
      rfl
    have hR : solvePolyRecursive env (fuel + 1) opts Ms t errs =
        if t.isPoint then .ok ([], [t])
        else if opts.constant_check && constantCheck Ms errs then .ok ([], [])
        else if quadraticDiscard env { opts with level := opts.level + 1 } Ms errs then .ok ([], [])
        else match zoomLoop env.svd opts.exact opts.maxZoomCount fuel (trimMs Ms errs (1 / 10 ^ 3) 0).1
            (trimMs Ms errs (1 / 10 ^ 3) 0).2 t.copy t.copy.dimSize 0 with
          | .error e => .error e
          | .ok z => tailV env { opts with level := opts.level + 1 }
              (fun Ms t e => solvePolyRecursive env fuel { opts with level := opts.level + 1 } Ms t e) Ms t.copy.copy z := by
      rfl
    beta_reduce
    rw [hL, hR, r.eq, hm.eq, he.eq]
    by_cases c1 : t.isPoint = true
    · simp only [if_pos c1]
      exact ⟨Ext.refl h, ⟨.nil, .cons ⟨r.rrel, Or.inr rfl⟩ .nil⟩⟩
    simp only [if_neg c1]
    by_cases c2 : (opts.constant_check && constantCheck Ms errs) = true
    · simp only [if_pos c2]
      exact ⟨Ext.refl h, BoxesRel.nil _ _⟩
    simp only [if_neg c2]
    by_cases c3 : quadraticDiscard env { opts with level := opts.level + 1 } Ms errs = true
    · simp only [if_pos c3]
      exact ⟨Ext.refl h, BoxesRel.nil _ _⟩
    simp only [if_neg c3]
    -- lines 1227-1230
    have E1 : Ext h (h.allocMlist (h.mlist m)).1 := (Ext.refl h).allocMlist _
    have M1 : MsRel (h.allocMlist (h.mlist m)).1 (h.allocMlist (h.mlist m)).2 Ms := by
      refine ⟨Nat.lt_succ_self _, fun i => ?_, ?_⟩
      · simp only [allocMlist, Function.update_self]
        exact (hm.elem_lt i).trans_le (Nat.le_succ _)
      · rw [← hm.eq]
        funext i
        simp [tensors, allocMlist]
    have N1 : h.next ≤ (h.allocMlist (h.mlist m)).2 := le_rfl
    generalize (h.allocMlist (h.mlist m)).2 = m1 at M1 N1 ⊢
    generalize (h.allocMlist (h.mlist m)).1 = h1 at E1 M1 ⊢
    have E2 : Ext h1 (h1.allocMlist (h1.mlist m1)).1 := (Ext.refl h1).allocMlist _
    have M2 : MsRel (h1.allocMlist (h1.mlist m1)).1 (h1.allocMlist (h1.mlist m1)).2 Ms := by
      refine ⟨Nat.lt_succ_self _, fun i => ?_, ?_⟩
      · simp only [allocMlist, Function.update_self]
        exact (M1.elem_lt i).trans_le (Nat.le_succ _)
      · rw [← M1.eq]
        funext i
        simp [tensors, allocMlist]
    have N2 : (h1.allocMlist (h1.mlist m1)).2 ≠ m1 := M1.lt.ne'
    generalize (h1.allocMlist (h1.mlist m1)).2 = om at M2 N2 ⊢
    generalize (h1.allocMlist (h1.mlist m1)).1 = h2 at E2 M2 ⊢
    have X2 : Ext h h2 := E1.trans E2
    have r2 := r.ext X2
    have C := copyTI_rel h2 r2
    have F := copyTI_fresh h2 o
    have S := copyTI_selfSep h2 r2.valid
    have E3 : Ext h2 (h2.copyTI o).1 := (Ext.refl h2).copyTI o
    generalize (h2.copyTI o).2 = t2 at C F S ⊢
    generalize (h2.copyTI o).1 = h3 at C F S E3 ⊢
    have X3 := X2.trans E3
    have F3 : Fresh h h3 t2 := ⟨X2.next_le.trans F.self, X2.next_le.trans F.interval, X2.next_le.trans F.transforms,
      X2.next_le.trans F.dup⟩
    rw [(he.mext X3.mext).eq]
    obtain ⟨e4, f4⟩ := mainH_spec env fuel { opts with level := opts.level + 1 } (ih { opts with level := opts.level + 1 })
      X3 errs ((M1.mext E2.mext).mext E3.mext) (M2.mext E3.mext) N2 N1 C S F3
    exact ⟨e4, f4.imp fun b b' s => s.imp fun x hx => Or.inl hx⟩

theorem solveChebyshevSubdivisionH_spec (env : Env n K) (fuel : ℕ) (h : Heap n K) {m e : ℕ} {Ms : Fin n → Tensor n K}
    {errs : Fin n → K} (hm : MsRel h m Ms) (he : VecRel h e errs) (exact cc lq aq : Bool) :
    Ext h (solveChebyshevSubdivisionH env fuel h m e exact cc lq aq).1 ∧
      ExcRel (fun p p' => p.1 = p'.1 ∧
          List.Forall₂ (fun x t => RRel (solveChebyshevSubdivisionH env fuel h m e exact cc lq aq).1 x t ∧ h.next ≤ x) p.2 p'.2)
        (solveChebyshevSubdivisionH env fuel h m e exact cc lq aq).2
        (solveChebyshevSubdivision env fuel Ms errs exact cc lq aq) := by
  unfold solveChebyshevSubdivisionH solveChebyshevSubdivision
  have E1 : Ext h (h.allocBox (Box.unit n K)).1 := (Ext.refl h).allocBox _
  have E2 : Ext h ((h.allocBox (Box.unit n K)).1.newTI (h.allocBox (Box.unit n K)).2).1 := E1.newTI _
  have V2 : ((h.allocBox (Box.unit n K)).1.newTI (h.allocBox (Box.unit n K)).2).1.view
      ((h.allocBox (Box.unit n K)).1.newTI (h.allocBox (Box.unit n K)).2).2 = TrackedInterval.new (Box.unit n K) := by
    rw [newTI_view _ _ (Nat.lt_succ_self _)]
    simp [allocBox]
  have W2 : Valid ((h.allocBox (Box.unit n K)).1.newTI (h.allocBox (Box.unit n K)).2).1
      ((h.allocBox (Box.unit n K)).1.newTI (h.allocBox (Box.unit n K)).2).2 := by
    constructor <;> simp only [newTI_snd, newTI_next, newTI_obj, Function.update_self, allocBox] <;> omega
  have N2 : h.next ≤ ((h.allocBox (Box.unit n K)).1.newTI (h.allocBox (Box.unit n K)).2).2 := by
    rw [newTI_snd]; simp only [allocBox]; omega
  simp only
  generalize ((h.allocBox (Box.unit n K)).1.newTI (h.allocBox (Box.unit n K)).2).2 = o at V2 W2 N2 ⊢
  generalize ((h.allocBox (Box.unit n K)).1.newTI (h.allocBox (Box.unit n K)).2).1 = h2 at E2 V2 W2 ⊢
  obtain ⟨e3, f3⟩ := solveH_spec env fuel ⟨exact, cc, lq, aq, 25, 0, true⟩ h2 m o e Ms _ errs (hm.mext E2.mext) ⟨W2, V2⟩
    (he.mext E2.mext)
  beta_reduce at e3 f3
  generalize solveH env fuel ⟨exact, cc, lq, aq, 25, 0, true⟩ h2 m o e = p at e3 f3 ⊢
  generalize solvePolyRecursive env fuel ⟨exact, cc, lq, aq, 25, 0, true⟩ Ms (TrackedInterval.new (Box.unit n K)) errs = p'
    at f3 ⊢
  obtain ⟨h3, p⟩ := p
  cases p with
  | error x =>
    cases p' with
    | error y => exact ⟨E2.trans e3, f3⟩
    | ok y => exact f3.elim
  | ok b =>
    cases p' with
    | error y => exact f3.elim
    | ok b' =>
      simp only at e3 f3 ⊢
      have f3 : BoxesRel (fun x => h2.next ≤ x ∨ x = o) h3 b b' := f3
      have hall : List.Forall₂ (fun x t => RRel h3 x t ∧ h.next ≤ x) (b.1 ++ b.2) (b'.1 ++ b'.2) := by
        refine List.Forall₂.imp ?_ (List.rel_append f3.int f3.ext)
        rintro x t ⟨s1, s2⟩
        refine ⟨s1, ?_⟩
        rcases s2 with s2 | rfl
        · exact E2.next_le.trans s2
        · exact N2
      refine ⟨E2.trans e3, ?_, hall⟩
      show ((b.1 ++ b.2).flatMap fun t => reportedRoots (h3.view t)) = (b'.1 ++ b'.2).flatMap reportedRoots
      have hrep : ∀ t : TrackedInterval n K, reportedRoots t = reportedRoots t.rr := fun t => rfl
      generalize b.1 ++ b.2 = l at hall ⊢
      generalize b'.1 ++ b'.2 = l' at hall ⊢
      induction hall with
      | nil => rfl
      | cons h1 h2 ih =>
        rw [List.flatMap_cons, List.flatMap_cons, ih, hrep, h1.1.eq, ← hrep]

end Heap

end YRoots
