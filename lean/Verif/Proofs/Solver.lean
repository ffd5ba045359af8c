import Verif.Model.Solver
import Verif.Proofs.Combine
import Verif.Proofs.Subdivide
import Verif.Proofs.Trim
import Verif.Props.Zoom
import Verif.Props.Combine
import Verif.Props.Subdivide

/-!
# Helper lemmas: the recursive solver
-/

set_option linter.unusedSectionVars false
set_option linter.unusedVariables false
set_option linter.unusedSimpArgs false

namespace YRoots

variable {n : ℕ} {K : Type*} [Field K] [LinearOrder K] [IsStrictOrderedRing K] [FloorSemiring K]

theorem mapM_forall₂ {A B : Type*} {f : A → Except Exc B} {l : List A} {rs : List B} (h : l.mapM f = .ok rs) :
    List.Forall₂ (fun a r => f a = .ok r) l rs := by
  induction l generalizing rs with
  | nil => cases h; exact .nil
  | cons a l ih =>
    rw [List.mapM_cons] at h
    cases ha : f a with
    | error e => rw [ha] at h; cases h
    | ok r =>
      rw [ha] at h
      cases hl : l.mapM f with
      | error e => rw [hl] at h; cases h
      | ok rs' =>
        rw [hl] at h
        cases h
        exact .cons ha (ih hl)

theorem mapM_mem {A B : Type*} {f : A → Except Exc B} {l : List A} {rs : List B} (h : l.mapM f = .ok rs)
    {r : B} (hr : r ∈ rs) : ∃ a ∈ l, f a = .ok r := by
  have h2 := mapM_forall₂ h
  clear h
  induction h2 with
  | nil => simp at hr
  | cons hab _ ih =>
    rcases List.mem_cons.1 hr with rfl | hr
    · exact ⟨_, List.mem_cons_self, hab⟩
    · obtain ⟨a, ha, h⟩ := ih hr
      exact ⟨a, List.mem_cons_of_mem _ ha, h⟩

theorem mapM_mem' {A B : Type*} {f : A → Except Exc B} {l : List A} {rs : List B} (h : l.mapM f = .ok rs)
    {a : A} (ha : a ∈ l) : ∃ r ∈ rs, f a = .ok r := by
  have h2 := mapM_forall₂ h
  clear h
  induction h2 with
  | nil => simp at ha
  | cons hab _ ih =>
    rcases List.mem_cons.1 ha with rfl | ha
    · exact ⟨_, List.mem_cons_self, hab⟩
    · obtain ⟨r, hr, h⟩ := ih ha
      exact ⟨r, List.mem_cons_of_mem _ hr, h⟩

theorem forall₂_mem_right {A B : Type*} {R : A → B → Prop} {l : List A} {rs : List B} (h : List.Forall₂ R l rs)
    {r : B} (hr : r ∈ rs) : ∃ a ∈ l, R a r := by
  induction h with
  | nil => simp at hr
  | cons hab _ ih =>
    rcases List.mem_cons.1 hr with rfl | hr
    · exact ⟨_, List.mem_cons_self, hab⟩
    · obtain ⟨a, ha, h⟩ := ih hr
      exact ⟨a, List.mem_cons_of_mem _ ha, h⟩

/-! ### Inversion of one call -/

/-- The cases of a call that returns. -/
inductive SolveCase (env : Env n K) (fuel : ℕ) (opts : Opts) (Ms : Fin n → Tensor n K)
    (ti : TrackedInterval n K) (errors : Fin n → K) (b : Boxes n K) : Prop
  | point (h : ti.isPoint = true) (hb : b = ([], [ti]))
  | const (hp : ti.isPoint = false) (ho : opts.constant_check = true) (h : constantCheck Ms errors = true)
      (hb : b = ([], []))
  | quad (hp : ti.isPoint = false) (h : quadraticDiscard env opts Ms errors = true) (hb : b = ([], []))
  | zoomed (hp : ti.isPoint = false) (hc : opts.constant_check = true → constantCheck Ms errors = false)
      (hq : quadraticDiscard env opts Ms errors = false) (z : ZoomResult n K)
      (hz : zoomLoop env.svd opts.exact opts.maxZoomCount fuel (trimMs Ms errors (1 / 10 ^ 3) 0).1
        (trimMs Ms errors (1 / 10 ^ 3) 0).2 ti.copy ti.copy.dimSize 0 = .ok z)
      (h : (z.ti.empty = true ∧ b = ([], [])) ∨
        (z.ti.empty = false ∧ z.shouldStop = true ∧ (z.ti.finalStep = true ∨ opts.useFinalStep = false) ∧
          b = returnOne ti.copy.copy z.ti) ∨
        (z.ti.empty = false ∧ z.ti.finalStep = false ∧
          solvePolyRecursive env fuel { opts with level := opts.level + 1 } z.Ms z.ti.startFinalStep z.errors
            = .ok b) ∨
        (z.ti.empty = false ∧ z.shouldStop = false ∧ z.ti.finalStep = true ∧ ∃ cs rs,
          getSubdivisionIntervals env.argsort env.setIter z.Ms z.errors
            { z.ti with canThrowOutFinalStep := true } opts.exact (opts.level + 1) = .ok cs ∧
          (cs.mapM fun c => solvePolyRecursive env fuel { opts with level := opts.level + 1 } c.Ms c.ti c.errors)
            = .ok rs ∧
          (((rs.flatMap fun r => r.1 ++ r.2) = [] ∧
              b = returnOne ti.copy.copy { z.ti with canThrowOutFinalStep := true, possibleExtraRoot := true }) ∨
            ((rs.flatMap fun r => r.1 ++ r.2) ≠ [] ∧ b = returnOne ti.copy.copy { z.ti with
              canThrowOutFinalStep := true
              possibleDuplicateRoots := z.ti.possibleDuplicateRoots
                ++ duplicateRoots (dedupe (rs.flatMap fun r => r.1 ++ r.2)) }))) ∨
        (z.ti.empty = false ∧ z.ti.finalStep = false ∧ ∃ cs rs ext rs',
          getSubdivisionIntervals env.argsort env.setIter z.Ms z.errors z.ti opts.exact (opts.level + 1) = .ok cs ∧
          (cs.mapM fun c => solvePolyRecursive env fuel { opts with level := opts.level + 1 } c.Ms c.ti c.errors)
            = .ok rs ∧
          combineExterior ti.copy.copy (rs.flatMap (·.2)) = .ok ext ∧
          ext.mapM (rerunOne (fun Ms t e => solvePolyRecursive env fuel { opts with level := opts.level + 1 } Ms t e)
            opts.exact Ms z.errors ti.copy.copy) = .ok rs' ∧
          b = (rs.flatMap (·.1) ++ rs'.flatMap (·.1), rs'.flatMap (·.2))))

theorem solve_cases {env : Env n K} {fuel : ℕ} {opts : Opts} {Ms : Fin n → Tensor n K}
    {ti : TrackedInterval n K} {errors : Fin n → K} {b : Boxes n K}
    (h : solvePolyRecursive env (fuel + 1) opts Ms ti errors = .ok b) :
    SolveCase env fuel opts Ms ti errors b := by
  unfold solvePolyRecursive at h
  by_cases hp : ti.isPoint = true
  · rw [if_pos hp] at h
    cases h
    exact .point hp rfl
  · have hp' : ti.isPoint = false := by simpa using hp
    rw [if_neg hp] at h
    simp only at h
    by_cases hc : (opts.constant_check && constantCheck Ms errors) = true
    · rw [if_pos hc] at h
      cases h
      rw [Bool.and_eq_true] at hc
      exact .const hp' hc.1 hc.2 rfl
    · rw [if_neg hc] at h
      have hc' : opts.constant_check = true → constantCheck Ms errors = false := by
        intro ho
        rw [ho, Bool.true_and] at hc
        simpa using hc
      have eq : quadraticDiscard env { opts with level := opts.level + 1 } Ms errors
          = quadraticDiscard env opts Ms errors := rfl
      rw [eq] at h
      by_cases hq : quadraticDiscard env opts Ms errors = true
      · rw [if_pos hq] at h
        cases h
        exact .quad hp' hq rfl
      · rw [if_neg hq] at h
        have hq' : quadraticDiscard env opts Ms errors = false := by simpa using hq
        split at h
        · cases h
        · rename_i z hz
          refine .zoomed hp' hc' hq' z hz ?_
          by_cases he : z.ti.empty = true
          · rw [if_pos he] at h
            cases h
            exact .inl ⟨he, rfl⟩
          · rw [if_neg he] at h
            have he' : z.ti.empty = false := by simpa using he
            right
            by_cases hs : z.shouldStop = true
            · rw [if_pos hs] at h
              by_cases hf : (z.ti.finalStep || !opts.useFinalStep) = true
              · rw [if_pos hf] at h
                cases h
                refine .inl ⟨he', hs, ?_, rfl⟩
                rw [Bool.or_eq_true] at hf
                simpa using hf
              · rw [if_neg hf] at h
                refine .inr (.inl ⟨he', ?_, h⟩)
                cases hh : z.ti.finalStep
                · rfl
                · rw [hh] at hf; simp at hf
            · rw [if_neg hs] at h
              by_cases hf : z.ti.finalStep = true
              · rw [if_pos hf] at h
                right; right; left
                split at h
                · cases h
                · rename_i cs hcs
                  split at h
                  · cases h
                  · rename_i rs hrs
                    refine ⟨he', by simpa using hs, hf, cs, rs, hcs, hrs, ?_⟩
                    split_ifs at h with h0
                    · cases h; exact .inl ⟨List.eq_nil_of_length_eq_zero h0, rfl⟩
                    · cases h; exact .inr ⟨fun h1 => h0 (by rw [h1]; rfl), rfl⟩
              · rw [if_neg hf] at h
                right; right; right
                have hf' : z.ti.finalStep = false := by simpa using hf
                split at h
                · cases h
                · rename_i cs hcs
                  split at h
                  · cases h
                  · rename_i rs hrs
                    split at h
                    · cases h
                    · rename_i ext hext
                      split at h
                      · cases h
                      · rename_i rs' hrs'
                        cases h
                        exact ⟨he', hf', cs, rs, ext, rs', hcs, hrs, hext, hrs', rfl⟩

theorem returnOne_mem {orig t r : TrackedInterval n K} : r ∈ (returnOne orig t).1 ++ (returnOne orig t).2 ↔ r = t := by
  unfold returnOne
  split_ifs <;> simp

theorem returnOne_list (orig t : TrackedInterval n K) : (returnOne orig t).1 ++ (returnOne orig t).2 = [t] := by
  unfold returnOne
  split_ifs <;> simp

theorem flatMap_pair_mem {rs : List (Boxes n K)} {r : TrackedInterval n K} :
    (r ∈ rs.flatMap (·.1) ∨ r ∈ rs.flatMap (·.2)) ↔ ∃ q ∈ rs, r ∈ q.1 ++ q.2 := by
  simp only [List.mem_flatMap, List.mem_append]
  constructor
  · rintro (⟨q, h1, h2⟩ | ⟨q, h1, h2⟩)
    · exact ⟨q, h1, .inl h2⟩
    · exact ⟨q, h1, .inr h2⟩
  · rintro ⟨q, h1, h2 | h2⟩
    · exact .inl ⟨q, h1, h2⟩
    · exact .inr ⟨q, h1, h2⟩

/-! ### Structure of the zoom loop -/

theorem Inherits.interval_copy (t : TrackedInterval n K) : t.copy.interval.Within t.interval := by
  rw [copy_interval]; exact fun i => ⟨le_rfl, le_rfl⟩

theorem within_refl (B : Box n K) : B.Within B := fun i => ⟨le_rfl, le_rfl⟩

/-- Whatever the zoom loop does, if it does not empty the box then the interval inherits and shrinks; and it does
not empty a box that cannot be thrown out. -/
theorem zoomLoop_struct (svd : SVD n K) (exact : Bool) (mz fuel : ℕ) (Ms : Fin n → Tensor n K) (errors : Fin n → K)
    (ti : TrackedInterval n K) (last : Fin n → K) (zc : ℕ) (ht : Tracks (Box.unit n K) ti) {z : ZoomResult n K}
    (hz : zoomLoop svd exact mz fuel Ms errors ti last zc = .ok z) :
    (z.ti.empty = false → Inherits ti z.ti ∧ z.ti.interval.Within ti.interval) ∧
    (ti.canThrowOut = false → ti.empty = false → z.ti.empty = false) := by
  induction fuel generalizing Ms errors ti last zc with
  | zero => cases hz
  | succ fuel ih =>
    unfold zoomLoop at hz
    obtain ⟨r, hr, he⟩ := zoom_effect svd Ms errors ti exact
    rw [hr] at hz
    simp only at hz
    have base : (r.ti.empty = false → Inherits ti r.ti ∧ r.ti.interval.Within ti.interval ∧
        Tracks (Box.unit n K) r.ti) ∧ (ti.canThrowOut = false → ti.empty = false → r.ti.empty = false) := by
      cases he with
      | thrown h hti _ _ =>
        rw [hti]
        exact ⟨fun h => by simp at h, fun h' => by rw [h] at h'; cases h'⟩
      | same hti _ _ _ => rw [hti]; exact ⟨fun _ => ⟨Inherits.refl ti, within_refl _, ht⟩, fun _ h => h⟩
      | sub s ho hw hti _ _ =>
        rw [hti]
        have hI := Inherits.applySub ti s ho hw
        exact ⟨fun _ => ⟨hI, (applySub_within ti s ht.ordered ho hw).2, hI.tracks _ ht⟩, fun _ h => h⟩
    by_cases h1 : r.ti.empty = true
    · rw [if_pos h1] at hz
      cases hz
      exact ⟨fun h => ⟨(base.1 h).1, (base.1 h).2.1⟩, base.2⟩
    · rw [if_neg h1] at hz
      have h1' : r.ti.empty = false := by simpa using h1
      obtain ⟨b1, b2, b3⟩ := base.1 h1'
      split_ifs at hz <;> first
        | (cases hz; exact ⟨fun h => ⟨(base.1 h).1, (base.1 h).2.1⟩, base.2⟩)
        | (obtain ⟨i1, i2⟩ := ih _ _ _ _ _ b3 hz
           refine ⟨fun h => ⟨b1.trans (i1 h).1, within_trans (i1 h).2 b2⟩, fun hc hne => i2 ?_ (base.2 hc hne)⟩
           unfold TrackedInterval.canThrowOut at hc ⊢
           rw [b1.finalStep]
           cases hf : ti.finalStep
           · rw [hf] at hc; simp at hc
           · rw [hf] at hc; rw [b1.throwFinal hf]; exact hc)

/-! ### Structure of the subdivision -/

theorem zipChildren_ti {allP : List (List (Tensor n K × K))} {tis : List (TrackedInterval n K)}
    {cs : List (Child n K)} (h : zipChildren allP tis = .ok cs) {c : Child n K} (hc : c ∈ cs) : c.ti ∈ tis := by
  unfold zipChildren at h
  split at h
  · cases h
  · split_ifs at h
    cases h
    obtain ⟨q, hq, rfl⟩ := List.mem_map.1 hc
    have := List.fst_mem_of_mem_zipIdx hq
    exact List.mem_of_mem_take this

theorem getSubdivisionIntervals_ti {argsort : List ℕ → List ℕ} {setIter : Finset (Fin n) → List (Fin n)}
    {Ms : Fin n → Tensor n K} {errors : Fin n → K} {ti : TrackedInterval n K} {exact : Bool} {level : ℕ}
    {cs : List (Child n K)} (h : getSubdivisionIntervals argsort setIter Ms errors ti exact level = .ok cs) :
    ∃ dims, ∀ c ∈ cs, c.ti ∈ splitAll (splitInterval ti.nextTransformPoints) dims [ti] := by
  unfold getSubdivisionIntervals at h
  simp only at h
  split_ifs at h
  cases hm : (List.finRange n).mapM fun i => polyChildren ti.nextTransformPoints exact (Ms i) (errors i)
      (getSubdivisionDims argsort Ms ti level i) with
  | error e => rw [hm] at h; cases h
  | ok allP =>
    rw [hm] at h
    exact ⟨_, fun c hc => zipChildren_ti h hc⟩

theorem splitAll_forall {A D : Type*} {P : A → Prop} {f : D → Bool → A → A} (h : ∀ d b x, P x → P (f d b x))
    (dims : List D) (l : List A) (hl : ∀ a ∈ l, P a) : ∀ a ∈ splitAll f dims l, P a := by
  unfold splitAll
  induction dims generalizing l with
  | nil => exact hl
  | cons d ds ih =>
    rw [List.foldl_cons]
    apply ih
    intro a ha
    rw [List.mem_flatMap] at ha
    obtain ⟨a', ha', hm⟩ := ha
    simp only [List.mem_cons, List.not_mem_nil, or_false] at hm
    rcases hm with rfl | rfl
    · exact h _ _ _ (hl a' ha')
    · exact h _ _ _ (hl a' ha')

/-- Children inherit and shrink, whatever the set iteration order and the sorting function. -/
theorem getSubdivisionIntervals_struct {argsort : List ℕ → List ℕ} {setIter : Finset (Fin n) → List (Fin n)}
    {Ms : Fin n → Tensor n K} {errors : Fin n → K} {ti : TrackedInterval n K} {exact : Bool} {level : ℕ}
    {cs : List (Child n K)} (h : getSubdivisionIntervals argsort setIter Ms errors ti exact level = .ok cs)
    (hmid : InCube ti.nextTransformPoints) (ho : ti.interval.Ordered) :
    ∀ c ∈ cs, Inherits ti c.ti ∧ c.ti.interval.Within ti.interval := by
  obtain ⟨dims, hd⟩ := getSubdivisionIntervals_ti h
  have := splitAll_forall (P := fun t : TrackedInterval n K => Inherits ti t ∧ t.interval.Within ti.interval ∧
      t.interval.Ordered) (f := splitInterval ti.nextTransformPoints) (by
    rintro d b t ⟨h1, h2, h3⟩
    obtain ⟨s1, s2⟩ := splitInterval_spec _ hmid d b t
    obtain ⟨k1, k2⟩ := halfBox_ok _ hmid d b t.interval h3
    rw [s2]
    exact ⟨h1.trans s1, within_trans k2 h2, k1⟩) dims [ti] (by
    intro a ha
    rw [List.mem_singleton] at ha
    subst ha
    exact ⟨Inherits.refl _, within_refl _, ho⟩)
  intro c hc
  obtain ⟨h1, h2, -⟩ := this _ (hd c hc)
  exact ⟨h1, h2⟩

/-! ### Structural invariant of the recursion -/

/-- Possible duplicate roots are only recorded in the final step, and lie in the pre-final interval. -/
def DupOK (t : TrackedInterval n K) : Prop :=
  ∀ p ∈ t.possibleDuplicateRoots, t.finalStep = true ∧ t.preFinalInterval.Mem p

/-- The invariant of all intervals in the recursion. -/
structure Good (t : TrackedInterval n K) : Prop where
  tracks : Tracks (Box.unit n K) t
  mids : InCube t.nextTransformPoints
  dup : DupOK t

theorem Good.inherits {t u : TrackedInterval n K} (h : Good t) (hi : Inherits t u) : Good u where
  tracks := hi.tracks _ h.tracks
  mids := fun i => by
    rcases hi.mids i with h1 | h1
    · rw [h1]; exact h.mids i
    · rw [h1]; simp
  dup := by
    intro p hp
    cases hf : t.finalStep
    · have : t.possibleDuplicateRoots = [] := by
        rw [List.eq_nil_iff_forall_not_mem]
        intro q hq
        have := (h.dup q hq).1
        rw [hf] at this
        cases this
      rw [hi.dup' this] at hp
      simp at hp
    · rw [hi.dup hf] at hp
      rw [hi.finalStep, hi.preI hf]
      exact h.dup p hp

theorem Good.new : Good (TrackedInterval.new (Box.unit n K)) where
  tracks := Tracks.new (unit_ordered n)
  mids := fun i => by
    simp only [TrackedInterval.new, TrackedInterval.splitPoint]
    norm_num [abs_le]
  dup := fun p hp => by simp [TrackedInterval.new] at hp

theorem Good.startFinalStep {t : TrackedInterval n K} (h : Good t) (hf : t.finalStep = false) :
    Good t.startFinalStep where
  tracks := h.tracks.step .startFinal trivial
  mids := h.mids
  dup := fun p hp => by
    have := (h.dup p hp).1
    rw [hf] at this
    cases this

theorem Good.finalPoint {t : TrackedInterval n K} (h : Good t) : t.interval.Mem t.getFinalPoint := by
  rw [h.tracks.final.2]
  intro i
  have := h.tracks.ordered i
  constructor <;> linarith

theorem Good.finalPoint' {t : TrackedInterval n K} (h : Good t) : t.getIntervalForCombining.Mem t.getFinalPoint := by
  unfold TrackedInterval.getIntervalForCombining
  split_ifs with hf
  · exact fun i => ⟨(((h.tracks.pre hf).2.2.1 i).1).trans (h.finalPoint i).1,
      ((h.finalPoint i).2).trans ((h.tracks.pre hf).2.2.1 i).2⟩
  · exact h.finalPoint

/-- What a call promises about each returned interval. -/
structure Ret (ti r : TrackedInterval n K) : Prop where
  good : Good r
  within : r.getIntervalForCombining.Within ti.getIntervalForCombining
  final : ti.finalStep = true → r.finalStep = true ∧ r.preFinalInterval = ti.preFinalInterval

theorem comb_of_not_final {t : TrackedInterval n K} (h : t.finalStep = false) :
    t.getIntervalForCombining = t.interval := by
  simp [TrackedInterval.getIntervalForCombining, h]

theorem comb_of_final {t : TrackedInterval n K} (h : t.finalStep = true) :
    t.getIntervalForCombining = t.preFinalInterval := by
  simp [TrackedInterval.getIntervalForCombining, h]

theorem Ret.trans {t u r : TrackedInterval n K} (h : Ret t u) (h' : Ret u r) : Ret t r where
  good := h'.good
  within := within_trans h'.within h.within
  final hf := by
    obtain ⟨h1, h2⟩ := h.final hf
    obtain ⟨h3, h4⟩ := h'.final h1
    exact ⟨h3, h4.trans h2⟩

theorem Ret.of_inherits {t u : TrackedInterval n K} (h : Good t) (hi : Inherits t u)
    (hw : u.interval.Within t.interval) : Ret t u where
  good := h.inherits hi
  within := by
    cases hf : t.finalStep
    · rw [comb_of_not_final hf, comb_of_not_final (hi.finalStep.trans hf)]; exact hw
    · rw [comb_of_final hf, comb_of_final (hi.finalStep.trans hf), hi.preI hf]; exact within_refl _
  final hf := ⟨hi.finalStep.trans hf, hi.preI hf⟩

theorem Good.rerunFlag {t : TrackedInterval n K} (h : Good t) (b : Bool) : Good { t with reRun := b } :=
  ⟨⟨h.tracks.top, h.tracks.ordered, h.tracks.image, h.tracks.within, h.tracks.pre⟩, h.mids, h.dup⟩

theorem Good.throwFlag {t : TrackedInterval n K} (h : Good t) (b : Bool) : Good { t with canThrowOutFinalStep := b } :=
  ⟨⟨h.tracks.top, h.tracks.ordered, h.tracks.image, h.tracks.within, h.tracks.pre⟩, h.mids, h.dup⟩

/-- What holds of each element of the exterior list after combining. -/
structure ExtOK (orig t : TrackedInterval n K) : Prop where
  good : Good t
  within : t.getIntervalForCombining.Within orig.interval
  rerun : t.reRun = true → ∃ s : Box n K, s.Ordered ∧ s.Within (Box.unit n K) ∧
    t = { orig.copy.applySub s with reRun := true }

theorem combineExterior_ok {orig : TrackedInterval n K} (ho : Good orig) (hf : orig.finalStep = false)
    {l ext : List (TrackedInterval n K)}
    (hl : ∀ t ∈ l, Good t ∧ t.getIntervalForCombining.Within orig.interval)
    (h : combineExterior orig l = .ok ext) : ∀ t ∈ ext, ExtOK orig t := by
  refine combineAll_forall (ExtOK orig) _ ?_ ?_ h
  · intro u hu
    obtain ⟨t, ht, rfl⟩ := List.mem_map.1 hu
    exact ⟨(hl t ht).1.rerunFlag _, (hl t ht).2, fun h => by cases h⟩
  · intro a b ha hb hab
    obtain ⟨s, s1, s2, e⟩ := combineIntervals_spec orig a b hf ho.tracks ha.good.tracks hb.good.tracks
      ha.within hb.within
    have hi := (Inherits.copy orig).trans (Inherits.applySub orig.copy s s1 s2)
    refine ⟨?_, ?_, fun _ => ⟨s, s1, s2, e⟩⟩
    · rw [e]
      exact (ho.inherits hi).rerunFlag _
    · rw [combineIntervals_box orig a b hf]
      exact hull_within ha.within hb.within

theorem dedupe_mem {l : List (TrackedInterval n K)} {t : TrackedInterval n K} (h : t ∈ dedupe l) : t ∈ l := by
  unfold dedupe at h
  have : ∀ (l acc : List (TrackedInterval n K)) (t : TrackedInterval n K),
      t ∈ l.foldl (fun acc t => if ∃ s ∈ acc, s.interval.lo = t.interval.lo then acc else acc ++ [t]) acc →
      t ∈ acc ∨ t ∈ l := by
    intro l
    induction l with
    | nil => intro acc t h; exact .inl h
    | cons a l ih =>
      intro acc t h
      rw [List.foldl_cons] at h
      rcases ih _ _ h with h | h
      · split_ifs at h
        · exact .inl h
        · rcases List.mem_append.1 h with h | h
          · exact .inl h
          · rw [List.mem_singleton] at h
            exact .inr (h ▸ List.mem_cons_self)
      · exact .inr (List.mem_cons_of_mem _ h)
  rcases this l [] t h with h | h
  · simp at h
  · exact h

theorem reported_mem {t : TrackedInterval n K} (h : Good t) {p : Fin n → K} (hp : p ∈ reportedRoots t) :
    t.getIntervalForCombining.Mem p := by
  unfold reportedRoots at hp
  split_ifs at hp
  · obtain ⟨h1, h2⟩ := h.dup p hp
    rw [comb_of_final h1]
    exact h2
  · rw [List.mem_singleton] at hp
    rw [hp]
    exact h.finalPoint'

theorem duplicateRoots_mem {l : List (TrackedInterval n K)} {p : Fin n → K} (hp : p ∈ duplicateRoots l) :
    ∃ t ∈ l, p ∈ reportedRoots t := by
  unfold duplicateRoots at hp
  rw [List.mem_flatMap] at hp
  exact hp

/-- The structural invariant: everything a call returns is a tracked sub-box of what it was given. -/
theorem solve_struct (env : Env n K) (fuel : ℕ) (opts : Opts) (Ms : Fin n → Tensor n K)
    (ti : TrackedInterval n K) (errors : Fin n → K) {b : Boxes n K} (hti : Good ti)
    (h : solvePolyRecursive env fuel opts Ms ti errors = .ok b) : ∀ r ∈ b.1 ++ b.2, Ret ti r := by
  induction fuel generalizing opts Ms ti errors b with
  | zero => cases h
  | succ fuel ih =>
    have hself : Ret ti ti := Ret.of_inherits hti (Inherits.refl _) (within_refl _)
    cases solve_cases h with
    | point _ hb => subst hb; intro r hr; simp at hr; subst hr; exact hself
    | const _ _ _ hb => subst hb; intro r hr; simp at hr
    | quad _ _ hb => subst hb; intro r hr; simp at hr
    | zoomed hp hc hq z hz hh =>
      have hcopy : Good ti.copy := hti.inherits (Inherits.copy ti)
      have rcopy : Ret ti ti.copy := Ret.of_inherits hti (Inherits.copy ti) (Inherits.interval_copy ti)
      obtain ⟨zs, -⟩ := zoomLoop_struct _ _ _ _ _ _ _ _ _ hcopy.tracks hz
      have ret1 : z.ti.empty = false → Ret ti z.ti := fun he =>
        rcopy.trans (Ret.of_inherits hcopy (zs he).1 (zs he).2)
      have hfin : z.ti.empty = false → z.ti.finalStep = ti.finalStep := fun he =>
        (zs he).1.finalStep.trans (Inherits.copy ti).finalStep
      rcases hh with ⟨he, hb⟩ | ⟨he, -, hf, hb⟩ | ⟨he, hf, hb⟩ | ⟨he, -, hf, cs, rs, hcs, hrs, hb⟩ |
        ⟨he, hf, cs, rs, ext, rs', hcs, hrs, hext, hrs', hb⟩
      · subst hb; intro r hr; simp at hr
      · subst hb
        intro r hr
        rw [returnOne_mem] at hr
        rw [hr]
        exact ret1 he
      · have g := (ret1 he).good.startFinalStep hf
        intro r hr
        have := ih _ _ _ _ g hb r hr
        refine Ret.trans (u := z.ti.startFinalStep) ⟨g, ?_, ?_⟩ this
        · have := (ret1 he).within
          rw [comb_of_not_final hf] at this
          exact this
        · intro hf'
          rw [← hfin he, hf] at hf'
          cases hf'
      · -- final step subdivision
        have gz := (ret1 he).good
        have gt := gz.throwFlag true
        have hst := getSubdivisionIntervals_struct hcs gt.mids gt.tracks.ordered
        have hdup : DupOK { z.ti with
              canThrowOutFinalStep := true
              possibleDuplicateRoots := z.ti.possibleDuplicateRoots
                ++ duplicateRoots (dedupe (rs.flatMap fun r => r.1 ++ r.2)) } := by
          intro p hp
          refine ⟨hf, ?_⟩
          rcases List.mem_append.1 hp with hp | hp
          · exact (gz.dup p hp).2
          · obtain ⟨t, ht, hpt⟩ := duplicateRoots_mem hp
            obtain ⟨q, hq, htq⟩ := List.mem_flatMap.1 (dedupe_mem ht)
            obtain ⟨c, hc, hsol⟩ := mapM_mem hrs hq
            obtain ⟨c1, c2⟩ := hst c hc
            have r1 := Ret.of_inherits gt c1 c2
            have r2 := r1.trans (ih _ _ _ _ r1.good hsol t htq)
            obtain ⟨f1, f2⟩ := r2.final hf
            have := reported_mem r2.good hpt
            rw [comb_of_final f1, f2] at this
            exact this
        intro r hr
        have r0 := ret1 he
        rcases hb with ⟨-, hb⟩ | ⟨-, hb⟩
        · subst hb
          rw [returnOne_mem] at hr
          rw [hr]
          exact ⟨⟨⟨gz.tracks.top, gz.tracks.ordered, gz.tracks.image, gz.tracks.within, gz.tracks.pre⟩, gz.mids,
            gz.dup⟩, r0.within, r0.final⟩
        · subst hb
          rw [returnOne_mem] at hr
          rw [hr]
          exact ⟨⟨⟨gz.tracks.top, gz.tracks.ordered, gz.tracks.image, gz.tracks.within, gz.tracks.pre⟩, gz.mids,
            hdup⟩, r0.within, r0.final⟩
      · -- subdivision
        have gz := (ret1 he).good
        have hst := getSubdivisionIntervals_struct hcs gz.mids gz.tracks.ordered
        have hkids : ∀ q ∈ rs, ∀ r ∈ q.1 ++ q.2, Ret ti r := by
          intro q hq r hr
          obtain ⟨c, hc, hsol⟩ := mapM_mem hrs hq
          obtain ⟨c1, c2⟩ := hst c hc
          have r1 := Ret.of_inherits gz c1 c2
          exact (ret1 he).trans (r1.trans (ih _ _ _ _ r1.good hsol r hr))
        have gorig : Good ti.copy.copy := hcopy.inherits (Inherits.copy _)
        have tif : ti.finalStep = false := (hfin he).symm.trans hf
        have hof : ti.copy.copy.finalStep = false :=
          (Inherits.copy _).finalStep.trans ((Inherits.copy _).finalStep.trans tif)
        have hoI : ti.copy.copy.interval = ti.interval := by rw [copy_interval, copy_interval]
        have hextOK : ∀ t ∈ ext, ExtOK ti.copy.copy t := by
          refine combineExterior_ok gorig hof ?_ hext
          intro t ht
          obtain ⟨q, hq, htq⟩ := List.mem_flatMap.1 ht
          have := hkids q hq t (List.mem_append_right _ htq)
          refine ⟨this.good, ?_⟩
          rw [hoI, ← comb_of_not_final tif]
          exact this.within
        have hext_ret : ∀ t ∈ ext, Ret ti t := fun t ht => ⟨(hextOK t ht).good, by
          have := (hextOK t ht).within
          rw [hoI, ← comb_of_not_final tif] at this
          exact this, fun h => by rw [tif] at h; cases h⟩
        have hre : ∀ q ∈ rs', ∀ r ∈ q.1 ++ q.2, Ret ti r := by
          intro q hq r hr
          obtain ⟨t, ht, hrun⟩ := mapM_mem hrs' hq
          unfold rerunOne at hrun
          split_ifs at hrun with h1 h2
          · cases hrun
            simp at hr
            rw [hr]
            exact hext_ret t ht
          · split at hrun
            · cases hrun
            · exact (hext_ret t ht).trans (ih _ _ _ _ (hextOK t ht).good hrun r hr)
          · cases hrun
            rw [returnOne_mem] at hr
            rw [hr]
            exact hext_ret t ht
        subst hb
        intro r hr
        simp only [List.mem_append] at hr
        rcases hr with (hr | hr) | hr
        · obtain ⟨q, hq, hrq⟩ := List.mem_flatMap.1 hr
          exact hkids q hq r (List.mem_append_left _ hrq)
        · obtain ⟨q, hq, hrq⟩ := List.mem_flatMap.1 hr
          exact hre q hq r (List.mem_append_left _ hrq)
        · obtain ⟨q, hq, hrq⟩ := List.mem_flatMap.1 hr
          exact hre q hq r (List.mem_append_right _ hrq)

/-! ### No root is lost -/

/-- Soundness of a quadratic check for functions strictly within the tolerance. -/
def QuadSound (q : Tensor n K → K → Bool) : Prop :=
  ∀ (M : Tensor n K) (e : K), M.Nonempty → q M e = true → ∀ f : (Fin n → K) → K,
    (∀ x, InCube x → |f x - M.eval x| < e) → ∀ x, InCube x → f x ≠ 0

theorem transform_errors_le {exact : Bool} {N : ℕ} (hT : TransformOK K n exact N) {Ms : Fin n → Tensor n K}
    (hM : Fits N Ms) (errors : Fin n → K) (s : Box n K) (ho : s.Ordered) (hw : s.Within (Box.unit n K)) (i : Fin n) :
    errors i ≤ (transformChebToInterval Ms (fun i => (s.hi i - s.lo i) / 2) (fun i => (s.hi i + s.lo i) / 2)
        errors exact).2 i := by
  have h2 := chebFold_bound' hT (fun i => (s.hi i - s.lo i) / 2) (fun i => (s.hi i + s.lo i) / 2)
    (fun i t ht => sub_coeffs s ho hw i t ht) (List.finRange n) (List.nodup_finRange n) (Ms i, errors i)
    (fun j => (hM i j).1) (fun j => (hM i j).2) (x := fun _ => 0) (fun _ => by simp)
  have h3 := (abs_nonneg _).trans h2
  show errors i ≤ (transformCheb (Ms i) (fun i => (s.hi i - s.lo i) / 2)
      (fun i => (s.hi i + s.lo i) / 2) (errors i) exact).2
  have h4 : (0 : K) ≤ (transformCheb (Ms i) (fun i => (s.hi i - s.lo i) / 2)
      (fun i => (s.hi i + s.lo i) / 2) (errors i) exact).2 - errors i := h3
  linarith

theorem zoomLoop_approx {svd : SVD n K} {exact : Bool} {N : ℕ} (hT : TransformOK K n exact N)
    {F : Fin n → (Fin n → K) → K} (mz fuel : ℕ) (Ms : Fin n → Tensor n K) (errors : Fin n → K)
    (ti : TrackedInterval n K) (last : Fin n → K) (zc : ℕ) (hM : Fits N Ms)
    (h : StrictApprox F Ms errors ti.interval) {z : ZoomResult n K}
    (hz : zoomLoop svd exact mz fuel Ms errors ti last zc = .ok z) :
    Fits N z.Ms ∧ StrictApprox F z.Ms z.errors z.ti.interval ∧ ∀ i, errors i ≤ z.errors i := by
  induction fuel generalizing Ms errors ti last zc with
  | zero => cases hz
  | succ fuel ih =>
    unfold zoomLoop at hz
    obtain ⟨r, hr, he⟩ := zoom_effect svd Ms errors ti exact
    obtain ⟨a1, a2⟩ := zoom_approx hT hM h hr
    have a3 : ∀ i, errors i ≤ r.errors i := by
      cases he with
      | thrown _ _ _ he => rw [he]; exact fun _ => le_rfl
      | same _ _ he _ => rw [he]; exact fun _ => le_rfl
      | sub s ho hw _ _ he => rw [he]; exact transform_errors_le hT hM errors s ho hw
    rw [hr] at hz
    simp only at hz
    by_cases h1 : r.ti.empty = true
    · rw [if_pos h1] at hz
      cases hz
      exact ⟨a1, a2, a3⟩
    · rw [if_neg h1] at hz
      split_ifs at hz <;> first
        | (cases hz; exact ⟨a1, a2, a3⟩)
        | (obtain ⟨i1, i2, i3⟩ := ih _ _ _ _ _ a1 a2 hz
           exact ⟨i1, i2, fun i => (a3 i).trans (i3 i)⟩)

theorem zoomLoop_complete {svd : SVD n K} (hv : svd.Valid) {exact : Bool} {N : ℕ} (hT : TransformOK K n exact N)
    {F : Fin n → (Fin n → K) → K} (mz fuel : ℕ) (Ms : Fin n → Tensor n K) (errors : Fin n → K)
    (ti : TrackedInterval n K) (last : Fin n → K) (zc : ℕ) (hM : Fits N Ms)
    (h : StrictApprox F Ms errors ti.interval) (ht : Tracks (Box.unit n K) ti) (hf : ti.finalStep = false)
    (he : ti.empty = false)
    {y : Fin n → K} (hy : ti.interval.Mem y) (hroot : ∀ i, F i y = 0) {z : ZoomResult n K}
    (hz : zoomLoop svd exact mz fuel Ms errors ti last zc = .ok z) :
    z.ti.empty = false ∧ z.ti.interval.Mem y := by
  induction fuel generalizing Ms errors ti last zc with
  | zero => cases hz
  | succ fuel ih =>
    unfold zoomLoop at hz
    obtain ⟨r, hr, hef⟩ := zoom_effect svd Ms errors ti exact
    obtain ⟨a1, a2⟩ := zoom_approx hT hM h hr
    obtain ⟨b1, b2⟩ := zoom_keeps_root hv (fun i j => (hM i j).1) h ht.ordered hf hy hroot hr
    rw [he] at b1
    have c : Tracks (Box.unit n K) r.ti ∧ r.ti.finalStep = false := by
      cases hef with
      | thrown _ hti _ _ => rw [hti] at b1; cases b1
      | same hti _ _ _ => rw [hti]; exact ⟨ht, hf⟩
      | sub s ho hw hti _ _ =>
        rw [hti]
        exact ⟨(Inherits.applySub ti s ho hw).tracks _ ht, hf⟩
    rw [hr] at hz
    simp only [b1, Bool.false_eq_true, if_false] at hz
    split_ifs at hz <;> first
      | (cases hz; exact ⟨b1, b2⟩)
      | exact ih _ _ _ _ _ a1 a2 c.1 c.2 b1 b2 hz

theorem getSubdivisionIntervals_dims {argsort : List ℕ → List ℕ} (ha : ArgsortOK argsort)
    {setIter : Finset (Fin n) → List (Fin n)}
    {Ms : Fin n → Tensor n K} {errors : Fin n → K} {ti : TrackedInterval n K} {exact : Bool} {level : ℕ}
    {cs : List (Child n K)} (h : getSubdivisionIntervals argsort setIter Ms errors ti exact level = .ok cs) :
    0 < n ∧ (n = 1 ∨ subDims Ms ti level ≠ []) := by
  unfold getSubdivisionIntervals at h
  simp only at h
  split_ifs at h
  cases hm : (List.finRange n).mapM fun i => polyChildren ti.nextTransformPoints exact (Ms i) (errors i)
      (getSubdivisionDims argsort Ms ti level i) with
  | error e => rw [hm] at h; cases h
  | ok allP =>
    rw [hm] at h
    have hn : 0 < n := by
      rcases Nat.eq_zero_or_pos n with rfl | hn
      · have hm' : (Except.ok [] : Except Exc (List (List (Tensor 0 K × K)))) = .ok allP := hm
        cases hm'
        cases h
      · exact hn
    refine ⟨hn, ?_⟩
    by_contra hcon
    push Not at hcon
    obtain ⟨h1, h2⟩ := hcon
    obtain ⟨r, -, hr⟩ := mapM_mem' hm (List.mem_finRange (⟨0, hn⟩ : Fin n))
    have hp := getSubdivisionDims_perm ha Ms ti level ⟨0, hn⟩
    rw [h2, List.perm_nil] at hp
    simp only [polyChildren, hp, if_neg h1, if_true] at hr
    cases hr

/-- A root of the parent lies in a child whose data is valid. -/
theorem getSubdivisionIntervals_complete {argsort : List ℕ → List ℕ} (ha : ArgsortOK argsort) {N : ℕ}
    {Ms : Fin n → Tensor n K} {errors : Fin n → K} {ti : TrackedInterval n K} {exact : Bool} {level : ℕ}
    (hT : TransformOK K n exact N) (hM : Fits N Ms) {F : Fin n → (Fin n → K) → K}
    (hA : StrictApprox F Ms errors ti.interval) (hti : Good ti)
    {cs : List (Child n K)}
    (h : getSubdivisionIntervals argsort (fun s => s.sort (· ≤ ·)) Ms errors ti exact level = .ok cs)
    {y : Fin n → K} (hy : ti.interval.Mem y) :
    ∃ c ∈ cs, Inherits ti c.ti ∧ c.ti.interval.Mem y ∧ Fits N c.Ms ∧ StrictApprox F c.Ms c.errors c.ti.interval := by
  obtain ⟨hn, hne⟩ := getSubdivisionIntervals_dims ha h
  obtain ⟨cs', h', hF⟩ := getSubdivisionIntervals_spec hT ha hn hM errors ti hti.mids level hne
  rw [h] at h'
  cases h'
  obtain ⟨x, hx, rfl⟩ := TrackedInterval.exists_map_eq ti.interval hy
  obtain ⟨S, hS, hm⟩ := splitBoxes_cover ti.nextTransformPoints ((subDims Ms ti level).toFinset.sort (· ≤ ·))
    (Box.unit n K) (x := x) (fun i => abs_le.1 (hx i))
  obtain ⟨c, hc, hcI, hcP⟩ : ∃ c ∈ cs, IntervalRel ti c.ti S ∧
      ∀ i, PolyRel N (Ms i) (errors i) (c.Ms i, c.errors i) S := forall₂_mem_right hF hS
  refine ⟨c, hc, hcI.1, ?_, fun i j => (hcP i).fits j, ?_⟩
  · rw [hcI.2]
    exact TrackedInterval.mem_sub_map ti.interval S hti.tracks.ordered hm
  · intro i w hw
    have hP := hcP i
    have h1 := hA i (S.map w) (sub_map_inCube S hP.ordered hP.within hw)
    have h2 := hP.close w hw
    rw [hcI.2, imageBox_map]
    have h3 := abs_sub_le (F i (ti.interval.map (S.map w))) ((Ms i).eval (S.map w)) ((c.Ms i).eval w)
    simp only at h2
    linarith

theorem quadraticDiscard_sound {env : Env n K} {opts : Opts}
    (hq : (opts.low_dim_quadratic_check = true ∧ n ≤ 3) ∨ opts.all_dim_quadratic_check = true →
      QuadSound env.quadraticCheck)
    {Ms : Fin n → Tensor n K} {errors : Fin n → K} {N : ℕ} (hM : Fits N Ms) {F : Fin n → (Fin n → K) → K}
    {B : Box n K} (hA : StrictApprox F Ms errors B) {y : Fin n → K} (hy : B.Mem y) (hroot : ∀ i, F i y = 0) :
    quadraticDiscard env opts Ms errors = false := by
  by_contra h
  rw [Bool.not_eq_false] at h
  unfold quadraticDiscard at h
  rw [Bool.and_eq_true] at h
  obtain ⟨i, hi⟩ := of_decide_eq_true h.2
  obtain ⟨x, hx, rfl⟩ := TrackedInterval.exists_map_eq B hy
  have hq := hq (by simpa using h.1)
  exact hq _ _ (fun j => (hM i j).1) hi (fun x => F i (B.map x)) (hA i) x hx (hroot i)

theorem constantCheck_false {Ms : Fin n → Tensor n K} {errors : Fin n → K} {N : ℕ} (hM : Fits N Ms)
    {F : Fin n → (Fin n → K) → K}
    {B : Box n K} (hA : StrictApprox F Ms errors B) {y : Fin n → K} (hy : B.Mem y) (hroot : ∀ i, F i y = 0) :
    constantCheck Ms errors = false := by
  by_contra h
  rw [Bool.not_eq_false] at h
  obtain ⟨x, hx, rfl⟩ := TrackedInterval.exists_map_eq B hy
  obtain ⟨i, hi⟩ := C17_constantCheck_sound Ms (fun i j => (hM i j).1) errors _ hA.local h
  exact hi x hx (hroot i)

/-- In the final step, with throwing out forbidden, a call that returns either was stopped by one of the two checks
or returns exactly one interval. -/
theorem solve_final_one (env : Env n K) (fuel : ℕ) (opts : Opts) (Ms : Fin n → Tensor n K)
    (ti : TrackedInterval n K) (errors : Fin n → K) {b : Boxes n K} (hti : Good ti) (hf : ti.finalStep = true)
    (hc : ti.canThrowOutFinalStep = false) (hemp : ti.empty = false)
    (h : solvePolyRecursive env fuel opts Ms ti errors = .ok b) :
    (b = ([], []) ∧ ((opts.constant_check = true ∧ constantCheck Ms errors = true) ∨
      quadraticDiscard env opts Ms errors = true)) ∨
    ∃ t, b.1 ++ b.2 = [t] := by
  cases fuel with
  | zero => cases h
  | succ fuel =>
    cases solve_cases h with
    | point _ hb => subst hb; exact .inr ⟨_, rfl⟩
    | const _ h1 h2 hb => exact .inl ⟨hb, .inl ⟨h1, h2⟩⟩
    | quad _ h1 hb => exact .inl ⟨hb, .inr h1⟩
    | zoomed hp hcc hq z hz hh =>
      right
      have hi := Inherits.copy ti
      have hcopy : Good ti.copy := hti.inherits hi
      obtain ⟨zs, zn⟩ := zoomLoop_struct _ _ _ _ _ _ _ _ _ hcopy.tracks hz
      have hne : z.ti.empty = false := by
        apply zn
        · unfold TrackedInterval.canThrowOut
          rw [hi.finalStep, hf, hi.throwFinal hf, hc]; rfl
        · rw [hi.empty, hemp]
      rcases hh with ⟨he, hb⟩ | ⟨he, -, hf', hb⟩ | ⟨he, hf', hb⟩ | ⟨he, -, hf', cs, rs, hcs, hrs, hb⟩ |
        ⟨he, hf', cs, rs, ext, rs', hcs, hrs, hext, hrs', hb⟩
      · rw [he] at hne; cases hne
      · subst hb; exact ⟨_, returnOne_list _ _⟩
      · rw [(zs he).1.finalStep, hi.finalStep, hf] at hf'; cases hf'
      · rcases hb with ⟨-, rfl⟩ | ⟨-, rfl⟩ <;> exact ⟨_, returnOne_list _ _⟩
      · rw [(zs he).1.finalStep, hi.finalStep, hf] at hf'; cases hf'

/-- No root is lost by a call that returns. -/
theorem solve_complete {env : Env n K} (hv : env.svd.Valid) (ha : ArgsortOK env.argsort)
    (hs : env.setIter = fun s => s.sort (· ≤ ·)) {N : ℕ}
    {F : Fin n → (Fin n → K) → K} (fuel : ℕ) (opts : Opts)
    (hq : (opts.low_dim_quadratic_check = true ∧ n ≤ 3) ∨ opts.all_dim_quadratic_check = true →
      QuadSound env.quadraticCheck) (hT : TransformOK K n opts.exact N)
    (Ms : Fin n → Tensor n K) (ti : TrackedInterval n K) (errors : Fin n → K) {b : Boxes n K} (hti : Good ti)
    (hemp : ti.empty = false) (hfin : ti.finalStep = false ∨ ti.canThrowOutFinalStep = false)
    (hM : Fits N Ms) (hA : StrictApprox F Ms errors ti.interval) {y : Fin n → K} (hy : ti.interval.Mem y)
    (hroot : ∀ i, F i y = 0)
    (h : solvePolyRecursive env fuel opts Ms ti errors = .ok b) :
    ∃ r ∈ b.1 ++ b.2, r.getIntervalForCombining.Mem y := by
  induction fuel generalizing opts Ms ti errors b with
  | zero => cases h
  | succ fuel ih =>
    have hcc := constantCheck_false hM hA hy hroot
    have hqq := quadraticDiscard_sound hq (opts := opts) hM hA hy hroot
    by_cases hf : ti.finalStep = true
    · -- final step
      have hthrow : ti.canThrowOutFinalStep = false := by
        rcases hfin with h1 | h1
        · rw [hf] at h1; cases h1
        · exact h1
      rcases solve_final_one env (fuel + 1) opts Ms ti errors hti hf hthrow hemp h with ⟨-, h1 | h1⟩ | ⟨t, ht⟩
      · rw [hcc] at h1; cases h1.2
      · rw [hqq] at h1; cases h1
      · have hr := solve_struct env (fuel + 1) opts Ms ti errors hti h t (by rw [ht]; simp)
        obtain ⟨f1, f2⟩ := hr.final hf
        refine ⟨t, by rw [ht]; simp, ?_⟩
        rw [comb_of_final f1, f2]
        exact fun i => ⟨((hti.tracks.pre hf).2.2.1 i).1.trans (hy i).1,
          (hy i).2.trans ((hti.tracks.pre hf).2.2.1 i).2⟩
    · have hf : ti.finalStep = false := by simpa using hf
      cases solve_cases h with
      | point _ hb =>
        subst hb
        exact ⟨ti, by simp, by rw [comb_of_not_final hf]; exact hy⟩
      | const _ _ h2 _ => rw [hcc] at h2; cases h2
      | quad _ h1 _ => rw [hqq] at h1; cases h1
      | zoomed hp _ _ z hz hh =>
        have hi := Inherits.copy ti
        obtain ⟨c1, c2, c3, c4, c5, c6, c7⟩ := copy_of_not_final ti hf
        have hcopy : Good ti.copy := hti.inherits hi
        have hA' : StrictApprox F (trimMs Ms errors (1 / 10 ^ 3) 0).1 (trimMs Ms errors (1 / 10 ^ 3) 0).2
            ti.copy.interval := by rw [c2]; exact hA.trim hM _ _
        have hM' : Fits N (trimMs Ms errors (1 / 10 ^ 3) 0).1 := trimMs_fits hM _ _ _
        obtain ⟨zs, -⟩ := zoomLoop_struct _ _ _ _ _ _ _ _ _ hcopy.tracks hz
        obtain ⟨z1, z2, z3⟩ := zoomLoop_approx hT _ _ _ _ _ _ _ hM' hA' hz
        obtain ⟨z4, z5⟩ := zoomLoop_complete hv hT _ _ _ _ _ _ _ hM' hA' hcopy.tracks c1 (c4.trans hemp)
          (by rw [c2]; exact hy) hroot hz
        obtain ⟨zi, zw⟩ := zs z4
        have gz : Good z.ti := hcopy.inherits zi
        have zf : z.ti.finalStep = false := zi.finalStep.trans c1
        have zthrow : z.ti.canThrowOutFinalStep = false := zi.throw' c7
        rcases hh with ⟨he, hb⟩ | ⟨he, -, hf', hb⟩ | ⟨he, hf', hb⟩ | ⟨he, -, hf', cs, rs, hcs, hrs, hb⟩ |
          ⟨he, hf', cs, rs, ext, rs', hcs, hrs, hext, hrs', hb⟩
        · rw [he] at z4; cases z4
        · subst hb
          exact ⟨z.ti, by rw [returnOne_list]; simp, by rw [comb_of_not_final zf]; exact z5⟩
        · exact ih { opts with level := opts.level + 1 } hq hT z.Ms z.ti.startFinalStep z.errors
            (gz.startFinalStep zf) z4 (.inr zthrow) z1 z2 z5 hb
        · rw [zf] at hf'; cases hf'
        · rw [hs] at hcs
          obtain ⟨c, hc, hci, hcy, hcM, hcA⟩ := getSubdivisionIntervals_complete ha hT z1 z2 gz hcs z5
          obtain ⟨q, hq', hsol⟩ := mapM_mem' hrs hc
          obtain ⟨r, hr, hry⟩ := ih { opts with level := opts.level + 1 } hq hT c.Ms c.ti c.errors (gz.inherits hci)
            (hci.empty.trans z4) (.inl (hci.finalStep.trans zf)) hcM hcA hcy hsol
          subst hb
          rcases List.mem_append.1 hr with hr | hr
          · refine ⟨r, ?_, hry⟩
            simp only [List.mem_append]
            exact .inl (.inl (List.mem_flatMap.2 ⟨q, hq', hr⟩))
          · -- exterior: combined
            have gorig : Good ti.copy.copy := hcopy.inherits (Inherits.copy _)
            have hof : ti.copy.copy.finalStep = false :=
              (Inherits.copy _).finalStep.trans c1
            have hoI : ti.copy.copy.interval = ti.interval := by rw [copy_interval, copy_interval]
            have hextOK : ∀ t ∈ ext, ExtOK ti.copy.copy t := by
              refine combineExterior_ok gorig hof ?_ hext
              intro t ht
              obtain ⟨q, hq', htq⟩ := List.mem_flatMap.1 ht
              obtain ⟨c', hc', hsol'⟩ := mapM_mem hrs hq'
              obtain ⟨d1, d2⟩ := getSubdivisionIntervals_struct hcs gz.mids gz.tracks.ordered c' hc'
              have r0 := Ret.of_inherits hcopy zi zw
              have r1 := r0.trans (Ret.of_inherits gz d1 d2)
              have r2 := r1.trans (solve_struct env fuel _ _ _ _ r1.good hsol' t (List.mem_append_right _ htq))
              refine ⟨r2.good, ?_⟩
              have := r2.within
              rw [comb_of_not_final c1] at this
              rw [copy_interval]
              exact this
            obtain ⟨ext', hext', hcov, -⟩ := C26_combine ti.copy.copy hof (rs.flatMap (·.2))
            rw [hext] at hext'
            cases hext'
            obtain ⟨u, hu, huy⟩ := hcov r (List.mem_flatMap.2 ⟨q, hq', hr⟩) y hry
            obtain ⟨q', hq'', hrun⟩ := mapM_mem' hrs' hu
            have goal : ∃ r ∈ q'.1 ++ q'.2, r.getIntervalForCombining.Mem y := by
              unfold rerunOne at hrun
              split_ifs at hrun with h1 h2
              · cases hrun
                exact ⟨u, by simp, huy⟩
              · obtain ⟨s, s1, s2, hue⟩ := (hextOK u hu).rerun h1
                have hlast : u.getLastTransform
                    = some (fun i => (s.hi i - s.lo i) / 2, fun i => (s.hi i + s.lo i) / 2) := by
                  rw [hue]
                  exact applySub_last ti.copy.copy.copy s
                have huI : ∀ x, u.interval.map x = ti.interval.map (s.map x) := by
                  intro x
                  rw [hue]
                  have := TrackedInterval.applySub_map ti.copy.copy.copy s s1 s2 x
                  rw [copy_interval, hoI] at this
                  exact this
                have huf : u.finalStep = false := by
                  rw [hue]
                  exact (Inherits.copy _).finalStep.trans hof
                have hue' : u.empty = false := by
                  rw [hue]
                  exact (Inherits.copy _).empty.trans ((Inherits.copy _).empty.trans (c4.trans hemp))
                rw [hlast] at hrun
                have hA2 : StrictApprox F Ms z.errors ti.interval := fun i x hx =>
                  (hA i x hx).trans_le ((trimMs_errors_le Ms errors _ _ i).trans (z3 i))
                rw [comb_of_not_final huf] at huy
                exact ih { opts with level := opts.level + 1 } hq hT _ u _ (hextOK u hu).good hue' (.inl huf)
                  (transformChebToInterval_fits hM _ _ _ _) (hA2.transform hT hM s s1 s2 huI) huy hrun
              · cases hrun
                exact ⟨u, by rw [returnOne_list]; simp, huy⟩
            obtain ⟨r', hr', hr'y⟩ := goal
            refine ⟨r', ?_, hr'y⟩
            simp only [List.mem_append]
            rcases List.mem_append.1 hr' with h1 | h1
            · exact .inl (.inr (List.mem_flatMap.2 ⟨q', hq'', h1⟩))
            · exact .inr (List.mem_flatMap.2 ⟨q', hq'', h1⟩)

end YRoots
