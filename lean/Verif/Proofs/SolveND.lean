import Verif.Model.SolveND
import Verif.Proofs.IntervalBounds
import Verif.Props.IntervalChecks

/-!
# Helper lemmas: the runs of the subdivision solver in several variables
-/

set_option linter.unusedSectionVars false
set_option linter.unusedVariables false

namespace YRoots.Legacy

open Finset

variable {n : ℕ} {K : Type*} [Field K] [LinearOrder K] [IsStrictOrderedRing K]

/-! ### `get_subintervals` -/

theorem transform_within {a b : Fin n → K} (hab : ∀ i, a i ≤ b i) {B : Box n K} (ho : B.Ordered) (hw : B.Within (Box.unit n K)) :
    (transformBox a b B).Ordered ∧ (transformBox a b B).Within ⟨a, b⟩ := by
  constructor
  · intro i
    have h1 := ho i
    have h2 := hab i
    simp only [transformBox]
    nlinarith
  · intro i
    have h1 := hw i
    have h2 := hab i
    simp only [Box.unit] at h1
    simp only [transformBox]
    constructor <;> nlinarith

theorem area_nonneg {B : Box n K} (h : B.Ordered) : 0 ≤ area B := prod_nonneg fun i _ => sub_nonneg.2 (h i)

theorem area_mono {B C : Box n K} (hB : B.Ordered) (h : B.Within C) : area B ≤ area C :=
  prod_le_prod (fun i _ => sub_nonneg.2 (hB i)) fun i _ => by have := h i; linarith

/-- What a call may do to the data: only add results and area. -/
structure Data.Grows (names : List String) (D D' : Data n K) : Prop where
  polishing : D'.polishing = D.polishing
  methods : D'.methods = D.methods
  old : ∀ r ∈ D.results, r ∈ D'.results
  new : ∀ r ∈ D'.results, r ∈ D.results ∨ r.1 ∈ names
  area : D.current_area ≤ D'.current_area
  frozen : D.polishing = true → D'.results = D.results

theorem Data.Grows.refl (names : List String) (D : Data n K) : D.Grows names D :=
  ⟨rfl, rfl, fun _ h => h, fun _ h => .inl h, le_rfl, fun _ => rfl⟩

theorem Data.Grows.trans {names : List String} {D D' D'' : Data n K} (h : D.Grows names D') (h' : D'.Grows names D'') :
    D.Grows names D'' :=
  ⟨h'.polishing.trans h.polishing, h'.methods.trans h.methods, fun r hr => h'.old r (h.old r hr),
    fun r hr => (h'.new r hr).elim (h.new r) .inr, h.area.trans h'.area,
    fun hp => (h'.frozen (h.polishing.trans hp)).trans (h.frozen hp)⟩

theorem Data.track_grows {names : List String} (D : Data n K) {name : String} (hn : name ∈ names) {B : Box n K} (hB : B.Ordered) :
    D.Grows names (D.track name B) := by
  refine ⟨rfl, rfl, fun r hr => ?_, fun r hr => ?_, ?_, fun hp => by simp [Data.track, hp]⟩
  · simp only [Data.track]; split_ifs
    · exact hr
    · exact List.mem_append_left _ hr
  · simp only [Data.track] at hr; split_ifs at hr
    · exact .inl hr
    · rcases List.mem_append.1 hr with h | h
      · exact .inl h
      · rw [List.mem_singleton.1 h]; exact .inr hn
  · have := area_nonneg hB
    simp only [Data.track]; linarith

theorem Data.trackBounded_grows {names : List String} (D : Data n K) {name : String} (hn : name ∈ names) {B C : Box n K} (hC : C.Ordered)
    (hw : C.Within B) : D.Grows names (D.trackBounded name B C) := by
  refine ⟨rfl, rfl, fun r hr => ?_, fun r hr => ?_, ?_, fun hp => by simp [Data.trackBounded, hp]⟩
  · simp only [Data.trackBounded]; split_ifs
    · exact hr
    · exact List.mem_append_left _ hr
  · simp only [Data.trackBounded] at hr; split_ifs at hr
    · exact .inl hr
    · rcases List.mem_append.1 hr with h | h
      · exact .inl h
      · rw [List.mem_singleton.1 h]; exact .inr hn
  · have := area_mono hC hw
    simp only [Data.trackBounded]; linarith

theorem trackAll_grows {names : List String} {name : String} (hn : name ∈ names) (l : List (Box n K)) (hl : ∀ B ∈ l, B.Ordered)
    (D : Data n K) : D.Grows names (l.foldl (fun D B => D.track name B) D) := by
  induction l generalizing D with
  | nil => exact .refl _ _
  | cons B l ih =>
    exact (D.track_grows hn (hl B (by simp))).trans (ih (fun C hC => hl C (by simp [hC])) _)

theorem runChecks_ordered (la : LinAlg n K) {a b : Fin n → K} (hab : ∀ i, a i ≤ b i) (approx : List (Tensor n K × K)) :
    ∀ B ∈ (runChecks la a b approx).2, B.Ordered := by
  unfold runChecks
  have key : ∀ (l : List (Tensor n K × K)) (st : ((Fin n → Bool) → Bool) × List (Box n K)), (∀ B ∈ st.2, B.Ordered) →
      ∀ B ∈ (l.foldl (checkStep la a b) st).2, B.Ordered := by
    intro l
    induction l with
    | nil => intro st h; exact h
    | cons p l ih =>
      intro st h
      rw [List.foldl_cons]
      refine ih _ fun B hB => ?_
      simp only [checkStep] at hB
      rcases List.mem_append.1 hB with hB | hB
      · exact h B hB
      · obtain ⟨spot, -, rfl⟩ := List.mem_map.1 hB
        exact (transform_within hab (fun i => (subinterval_lt spot i).le) (subinterval_within spot)).1
  exact key approx _ (by simp)

/-- The names under which `get_subintervals` tracks. -/
abbrev subNames : List String := ["quadratic_check", "getBoundingInterval"]

theorem subdivide_spec (la : LinAlg n K) (D : Data n K) {a b : Fin n → K} (hab : ∀ i, a i ≤ b i) (approx : List (Tensor n K × K))
    (checks : Bool) (bo : Option (Box n K)) (hbo : ∀ B, bo = some B → B.Ordered ∧ B.Within (Box.unit n K)) :
    (∀ B ∈ (subdivide la D a b approx checks bo).1, B.Ordered ∧ B.Within ⟨a, b⟩) ∧
    D.Grows subNames (subdivide la D a b approx checks bo).2 := by
  unfold subdivide
  have hst : ∀ B ∈ (if checks then runChecks la a b approx else (fun _ => true, [])).2, B.Ordered := by
    cases checks with
    | false => simp
    | true => exact runChecks_ordered la hab approx
  generalize (if checks then runChecks la a b approx else (fun _ => true, [])) = st at hst
  have hplain : (∀ B ∈ ((boolProduct n).filter st.1).map (fun spot => transformBox a b (subinterval spot)), B.Ordered ∧ B.Within ⟨a, b⟩) ∧
      D.Grows subNames (st.2.foldl (fun D B => D.track "quadratic_check" B) D) := by
    refine ⟨fun B hB => ?_, trackAll_grows (by simp) _ hst D⟩
    obtain ⟨spot, -, rfl⟩ := List.mem_map.1 hB
    exact transform_within hab (fun i => (subinterval_lt spot i).le) (subinterval_within spot)
  cases bo with
  | none => exact hplain
  | some B =>
    have hB := transform_within hab (hbo B rfl).1 (hbo B rfl).2
    simp only []
    by_cases hc : area B < (((boolProduct n).filter st.1).length : K) ∧ area B < 3
    · rw [if_pos hc]
      refine ⟨fun C hC => ?_, D.trackBounded_grows (by simp) hB.1 hB.2⟩
      rw [List.mem_singleton.1 hC]; exact hB
    · rw [if_neg hc]; exact hplain

theorem getSub_spec {S : LinSolve n K} {la : LinAlg n K} {D : Data n K} {a b : Fin n → K} (hab : ∀ i, a i ≤ b i)
    {approx : List (Tensor n K × K)} {checks : Bool} {L : List (Box n K)} {D' : Data n K}
    (h : getSubintervals S la D a b approx checks = .ok (L, D')) :
    (∀ B ∈ L, B.Ordered ∧ B.Within ⟨a, b⟩) ∧ D.Grows subNames D' := by
  unfold getSubintervals at h
  generalize hg : (if D.methods.length ≠ 0 then getBoundingInterval n S approx D.methods else .ok none) = r at h
  have hr : ∀ B, r = .ok (some B) → B.Ordered ∧ B.Within (Box.unit n K) := by
    intro B hB
    rw [← hg] at hB
    split_ifs at hB
    · exact getBounding_unit hB
    · exact absurd hB (by simp)
  match r, h with
  | .ok none, h =>
    simp only [Except.ok.injEq] at h
    have := subdivide_spec la D hab approx checks none (by simp)
    rw [h] at this
    exact this
  | .ok (some B), h =>
    have hB := transform_within hab (hr B rfl).1 (hr B rfl).2
    simp only [] at h
    by_cases h0 : area B = 0
    · rw [if_pos h0] at h
      simp only [Except.ok.injEq, Prod.mk.injEq] at h
      rw [← h.1, ← h.2]
      exact ⟨by simp, D.trackBounded_grows (by simp) hB.1 hB.2⟩
    · rw [if_neg h0] at h
      by_cases h1 : area B < 1 / 2
      · rw [if_pos h1] at h
        simp only [Except.ok.injEq, Prod.mk.injEq] at h
        rw [← h.1, ← h.2]
        exact ⟨fun C hC => by rw [List.mem_singleton.1 hC]; exact hB, D.trackBounded_grows (by simp) hB.1 hB.2⟩
      · rw [if_neg h1] at h
        simp only [Except.ok.injEq] at h
        have := subdivide_spec la D hab approx checks (some B) (by rintro _ ⟨⟩; exact hr B rfl)
        rw [h] at this
        exact this

/-! ### The buffer -/

theorem buffered_ordered {B : Box n K} (h : B.Ordered) : (buffered B).Ordered := by
  intro i
  have := h i
  simp only [buffered]
  linarith

theorem within_buffered {B : Box n K} (h : B.Ordered) : B.Within (buffered B) := by
  intro i
  have := h i
  simp only [buffered]
  constructor <;> linarith

theorem buffered_mono {B C : Box n K} (hB : B.Ordered) (h : B.Within C) : (buffered B).Within (buffered C) := by
  intro i
  have h1 := h i
  have h2 := hB i
  simp only [buffered]
  constructor <;> nlinarith

theorem within_trans {A B C : Box n K} (h : A.Within B) (h' : B.Within C) : A.Within C :=
  fun i => ⟨(h' i).1.trans (h i).1, (h i).2.trans (h' i).2⟩

theorem within_mem {A B : Box n K} (h : A.Within B) {x : Fin n → K} (hx : A.Mem x) : B.Mem x :=
  fun i => ⟨(h i).1.trans (hx i).1, (hx i).2.trans (h i).2⟩

theorem area_buffered (B : Box n K) : area (buffered B) = (1 + 1 / 10 ^ 9) ^ n * area B := by
  unfold area
  have h : ∀ i, (buffered B).hi i - (buffered B).lo i = (1 + 1 / 10 ^ 9) * (B.hi i - B.lo i) := fun i => by
    simp only [buffered]; ring
  simp only [h, prod_mul_distrib, prod_const, card_univ, Fintype.card_fin]

/-! ### Runs -/

theorem evalTols_data (lib : NDLib n K) (T : NDTols K) (level deg : ℕ) (funcs : List ((Fin n → K) → K)) (B : Box n K) (u : Bool)
    (st : NDState n K) : (evalTols lib T level deg funcs B u st).data = st.data ∧
      (evalTols lib T level deg funcs B u st).tracker = st.tracker := by
  unfold evalTols
  cases T.checkEval <;> cases u <;> simp

theorem evalTols_off (lib : NDLib n K) (T : NDTols K) (hT : T.checkEval = false) (level deg : ℕ) (funcs : List ((Fin n → K) → K))
    (B : Box n K) (u : Bool) (st : NDState n K) : evalTols lib T level deg funcs B u st = st := by
  unfold evalTols
  rw [if_neg (by simp [hT])]

/-- The entries of `l` are approximations of the functions on `B`. -/
def Approxd (lib : NDLib n K) (B : Box n K) (deg : ℕ) (funcs : List ((Fin n → K) → K)) (l : List (Tensor n K × K × K)) : Prop :=
  List.Forall₂ (fun f p => ∃ tol g, lib.approx f B deg tol g = (some p.1, p.2.1, p.2.2)) funcs l

/-- The errors after trimming. -/
def trimErrors (T : NDTols K) (trust : Bool) (l : List (Tensor n K × K × K)) (st : NDState n K) : List K :=
  (trimCoeffs st.absTol T.relTol l).1.map fun p => floorErr trust p.2

/-- The calls for a list of boxes, one after the other, as a tree. -/
inductive Runs (lib : NDLib (n + 1) K) (T : NDTols K) (targetDeg : ℕ) (trust : Bool) :
    ℕ → ℕ → List ((Fin (n + 1) → K) → K) → ℕ → List (Box (n + 1) K) → NDState (n + 1) K → NDState (n + 1) K → Prop
  | nil {k lev fs deg st} : Runs lib T targetDeg trust k lev fs deg [] st st
  | deep {lev fs deg og rest st st'} : Runs lib T targetDeg trust 0 lev fs deg rest (tooDeep og st) st' →
      Runs lib T targetDeg trust 0 lev fs deg (og :: rest) st st'
  | bad {k lev fs deg og rest st st' u fs2 l L D st2} : fs2.Perm fs →
      Approxd lib (buffered og) deg (fs.take l.length) l →
      getSubintervals lib.solve lib.rank st.data og.lo og.hi (l.map fun p => (p.1, floorErr trust p.2.2)) false = .ok (L, D) →
      Runs lib T targetDeg trust k (lev + 1) fs2 deg L { evalTols lib T lev deg fs og u st with data := D } st2 →
      Runs lib T targetDeg trust (k + 1) lev fs deg rest st2 st' →
      Runs lib T targetDeg trust (k + 1) lev fs deg (og :: rest) st st'
  | split {k lev fs deg og rest st st' u l L D st2} : Approxd lib (buffered og) deg fs l →
      getSubintervals lib.solve lib.rank st.data og.lo og.hi
        ((trimCoeffs (evalTols lib T lev deg fs og u st).absTol T.relTol l).1.map fun p => (p.1, floorErr trust p.2)) true = .ok (L, D) →
      Runs lib T targetDeg trust k (lev + 1) fs deg L { evalTols lib T lev deg fs og u st with data := D } st2 →
      Runs lib T targetDeg trust (k + 1) lev fs deg rest st2 st' →
      Runs lib T targetDeg trust (k + 1) lev fs deg (og :: rest) st st'
  | retry {k lev fs deg og rest st st' u st2} : deg ≠ 2 →
      Runs lib T targetDeg trust (k + 1) lev fs 2 [buffered og] (evalTols lib T lev deg fs og u st) st2 →
      Runs lib T targetDeg trust (k + 1) lev fs deg rest st2 st' →
      Runs lib T targetDeg trust (k + 1) lev fs deg (og :: rest) st st'
  | base {k lev fs og rest st st' u l zero tol} : Approxd lib (buffered og) 2 fs l →
      (trimCoeffs (evalTols lib T lev 2 fs og u st).absTol T.relTol l).2 = true →
      (∀ p ∈ (trimErrors T trust l (evalTols lib T lev 2 fs og u st)).zip l,
        p.1 ≤ (evalTols lib T lev 2 fs og u st).targetTol + T.relTol * p.2.2.1) →
      (∀ c ∈ (trimCoeffs (evalTols lib T lev 2 fs og u st).absTol T.relTol l).1, c.1.shape 0 = 2) →
      solveLinearList lib.solve ((trimCoeffs (evalTols lib T lev 2 fs og u st).absTol T.relTol l).1.map Prod.fst) = .ok zero →
      Runs lib T targetDeg trust (k + 1) lev fs 2 rest
        (record (evalTols lib T lev 2 fs og u st) "Base Case" (zero.toList.map fun z i => (z i, 0)) tol og (buffered og)) st' →
      Runs lib T targetDeg trust (k + 1) lev fs 2 (og :: rest) st st'
  | macaulay {k lev fs deg og rest st st' u l zeros} : Approxd lib (buffered og) deg fs l →
      (trimCoeffs (evalTols lib T lev deg fs og u st).absTol T.relTol l).2 = true →
      (∀ p ∈ (trimErrors T trust l (evalTols lib T lev deg fs og u st)).zip l,
        p.1 ≤ (evalTols lib T lev deg fs og u st).targetTol + T.relTol * p.2.2.1) →
      (∀ c ∈ (trimCoeffs (evalTols lib T lev deg fs og u st).absTol T.relTol l).1, c.1.shape 0 ≤ targetDeg + 1) →
      (∃ c ∈ (trimCoeffs (evalTols lib T lev deg fs og u st).absTol T.relTol l).1, c.1.shape 0 ≠ 2) →
      lib.macaulay ((trimCoeffs (evalTols lib T lev deg fs og u st).absTol T.relTol l).1.map Prod.fst) = .ok (some zeros) →
      Runs lib T targetDeg trust (k + 1) lev fs deg rest
        (record (evalTols lib T lev deg fs og u st) "Macaulay" zeros
          (max T.minGood (((trimErrors T trust l (evalTols lib T lev deg fs og u st)).map fun e => |e|).sum * T.factor)) og (buffered og)) st' →
      Runs lib T targetDeg trust (k + 1) lev fs deg (og :: rest) st st'

theorem approxLoop_spec (lib : NDLib n K) (B : Box n K) (deg : ℕ) (tol : K) (fs : List ((Fin n → K) → K)) (gs : List (Option ℕ))
    (hg : gs.length = fs.length) (pre : List ((Fin n → K) → K)) (acc : List (Tensor n K × K × K)) (hacc : Approxd lib B deg pre acc) :
    (∀ i l, approxLoop lib B deg tol (fs.zip gs) acc = .inl (i, l) → i = l.length ∧ Approxd lib B deg ((pre ++ fs).take l.length) l) ∧
    (∀ l, approxLoop lib B deg tol (fs.zip gs) acc = .inr l → Approxd lib B deg (pre ++ fs) l) := by
  induction fs generalizing gs pre acc with
  | nil =>
    simp only [List.zip_nil_left, approxLoop]
    refine ⟨by simp, ?_⟩
    rintro l ⟨⟩
    simpa using hacc
  | cons f fs ih =>
    match gs, hg with
    | g :: gs, hg =>
      simp only [List.zip_cons_cons, approxLoop]
      rcases ha : lib.approx f B deg tol g with ⟨_ | M, norm, err⟩
      · simp only [Sum.inl.injEq, Prod.mk.injEq, reduceCtorEq, false_imp_iff, implies_true, and_true]
        rintro i l ⟨rfl, rfl⟩
        refine ⟨rfl, ?_⟩
        have hl : acc.length = pre.length := (List.Forall₂.length_eq hacc).symm
        rw [hl, List.take_left]
        exact hacc
      · have h2 : Approxd lib B deg (pre ++ [f]) (acc ++ [(M, norm, err)]) := by
          unfold Approxd at hacc ⊢
          exact List.rel_append hacc (.cons ⟨tol, g, ha⟩ .nil)
        have := ih gs (by simpa using hg) (pre ++ [f]) _ h2
        simpa using this

theorem descend_runs {lib : NDLib (n + 1) K} {T : NDTols K} {targetDeg : ℕ} {trust : Bool} {k lev : ℕ} {fs : List ((Fin (n + 1) → K) → K)}
    {deg : ℕ} {recur : Box (n + 1) K → NDState (n + 1) K → Except NDError (NDState (n + 1) K)}
    (hr : ∀ og st st', recur og st = .ok st' → ∀ rest st'', Runs lib T targetDeg trust k lev fs deg rest st' st'' →
      Runs lib T targetDeg trust k lev fs deg (og :: rest) st st'') (L : List (Box (n + 1) K)) (st st' : NDState (n + 1) K)
    (h : descend recur L st = .ok st') : Runs lib T targetDeg trust k lev fs deg L st st' := by
  induction L generalizing st with
  | nil =>
    simp only [descend, Except.ok.injEq] at h
    subst h
    exact .nil
  | cons B L ih =>
    simp only [descend] at h
    cases hB : recur B st with
    | error e => rw [hB] at h; simp at h
    | ok s =>
      rw [hB] at h
      exact hr B st s hB L st' (ih s h)

/-- What is assumed of the calls below. -/
def CallRuns (lib : NDLib (n + 1) K) (T : NDTols K) (targetDeg : ℕ) (trust : Bool) (k lev : ℕ) (call : NDCall (n + 1) K) (P : ℕ → Prop) : Prop :=
  ∀ fs og deg gd u st st', P deg → gd.length = fs.length → call fs og deg gd u st = .ok st' → ∀ rest st'',
    Runs lib T targetDeg trust k lev fs deg rest st' st'' → Runs lib T targetDeg trust k lev fs deg (og :: rest) st st''

theorem ndBody_runs {lib : NDLib (n + 1) K} {T : NDTols K} {targetDeg : ℕ} {trust : Bool} {k lev : ℕ} {recur retry : NDCall (n + 1) K}
    {P : ℕ → Prop} (hrec : CallRuns lib T targetDeg trust k (lev + 1) recur fun _ => True)
    (hre : ∀ deg, P deg → deg ≠ 2 → CallRuns lib T targetDeg trust (k + 1) lev retry fun d => d = 2) :
    CallRuns lib T targetDeg trust (k + 1) lev (ndBody lib T targetDeg trust lev recur retry) P := by
  intro fs og deg gd u st st' hP hgd h rest st'' hrest
  unfold ndBody at h
  simp only [] at h
  have hev := evalTols_data lib T lev deg fs og u st
  have hspec := approxLoop_spec lib (buffered og) deg (if u then (evalTols lib T lev deg fs og u st).targetTol
    else (evalTols lib T lev deg fs og u st).absTol) fs gd hgd [] [] .nil
  rcases ha : approxLoop lib (buffered og) deg (if u then (evalTols lib T lev deg fs og u st).targetTol
    else (evalTols lib T lev deg fs og u st).absTol) (fs.zip gd) [] with ⟨i, l⟩ | l
  · obtain ⟨hi, hl⟩ := hspec.1 i l ha
    rw [ha] at h
    simp only [ndSplit] at h
    rw [hev.1] at h
    rcases hg : getSubintervals lib.solve lib.rank st.data og.lo og.hi (l.map fun p => (p.1, floorErr trust p.2.2)) false with e | ⟨L, D⟩
    · rw [hg] at h; simp at h
    · rw [hg] at h
      simp only [] at h
      have hperm : (fs.eraseIdx i ++ (fs[i]?).toList).Perm fs := by
        by_cases hi : i < fs.length
        · rw [List.getElem?_eq_getElem hi]
          refine (List.perm_append_comm).trans ?_
          simpa using List.getElem_cons_eraseIdx_perm hi
        · rw [List.getElem?_eq_none (by omega), List.eraseIdx_of_length_le (by omega)]
          simp
      refine .bad (u := u) hperm (by simpa using hl) hg (descend_runs (fun og' s s' hs rest r hr => ?_) L _ _ h) hrest
      exact hrec _ og' deg _ _ s s' trivial (by simp) hs rest r hr
  · have hl : Approxd lib (buffered og) deg fs l := by simpa using hspec.2 l ha
    rw [ha] at h
    simp only [ndGood] at h
    have hlen : l.length = fs.length := (List.Forall₂.length_eq hl).symm
    have hgd' : (if (trimCoeffs (evalTols lib T lev deg fs og u st).absTol T.relTol l).2
        then ((trimCoeffs (evalTols lib T lev deg fs og u st).absTol T.relTol l).1.map Prod.fst).map fun c => some (min (c.shape 0) deg)
        else gd).length = fs.length := by
      split_ifs
      · simp [trimCoeffs, hlen]
      · exact hgd
    generalize hgdd : (if (trimCoeffs (evalTols lib T lev deg fs og u st).absTol T.relTol l).2
        then ((trimCoeffs (evalTols lib T lev deg fs og u st).absTol T.relTol l).1.map Prod.fst).map fun c => some (min (c.shape 0) deg)
        else gd) = gd2 at h hgd'
    have hsplit : ndSplit lib og ((trimCoeffs (evalTols lib T lev deg fs og u st).absTol T.relTol l).1.map
          fun p => (p.1, floorErr trust p.2)) true (fun C => recur fs C deg gd2 true) (evalTols lib T lev deg fs og u st) = .ok st' →
        Runs lib T targetDeg trust (k + 1) lev fs deg (og :: rest) st st'' := by
      intro h
      simp only [ndSplit] at h
      rw [hev.1] at h
      rcases hg : getSubintervals lib.solve lib.rank st.data og.lo og.hi
          ((trimCoeffs (evalTols lib T lev deg fs og u st).absTol T.relTol l).1.map fun p => (p.1, floorErr trust p.2)) true with e | ⟨L, D⟩
      · rw [hg] at h; simp at h
      · rw [hg] at h
        simp only [] at h
        refine .split (u := u) hl hg (descend_runs (fun og' s s' hs rest r hr => ?_) L _ _ h) hrest
        exact hrec _ og' deg _ _ s s' trivial hgd' hs rest r hr
    split_ifs at h with h1 h2 h3 h4
    · exact hsplit h
    · exact hsplit h
    · exact .retry (u := u) h4 (hre deg hP h4 fs (buffered og) 2 gd2 true _ st' rfl hgd' h [] st' .nil) hrest
    · obtain rfl := not_not.1 h4
      rcases hs : solveLinearList lib.solve ((trimCoeffs (evalTols lib T lev 2 fs og u st).absTol T.relTol l).1.map Prod.fst) with e | zero
      · rw [hs] at h; simp at h
      · rw [hs] at h
        simp only [Except.ok.injEq] at h
        refine .base (u := u) (l := l) (zero := zero) hl ?_ ?_ ?_ hs (h ▸ hrest)
        · simp only [Bool.or_eq_true, not_or, Bool.not_eq_true, Bool.not_eq_false', Bool.not_eq_true'] at h1
          simpa using h1.2
        · intro p hp
          simp only [List.any_eq_true, decide_eq_true_eq, not_exists, not_and, not_lt, gt_iff_lt] at h2
          exact h2 p hp
        · intro c hc
          simp only [List.all_eq_true, decide_eq_true_eq] at h3
          exact h3 c.1 (List.mem_map_of_mem hc)
    · rcases hs : lib.macaulay ((trimCoeffs (evalTols lib T lev deg fs og u st).absTol T.relTol l).1.map Prod.fst) with e | _ | zeros
      · rw [hs] at h; simp at h
      · rw [hs] at h; exact hsplit h
      · rw [hs] at h
        simp only [Except.ok.injEq] at h
        simp only [Bool.or_eq_true, not_or, Bool.not_eq_true, Bool.not_eq_false', Bool.not_eq_true', List.any_eq_false,
          decide_eq_true_eq, gt_iff_lt, not_lt] at h1 h2
        refine .macaulay (u := u) (l := l) (zeros := zeros) hl (by simpa using h1.2) (fun p hp => h2 p hp)
          (fun c hc => h1.1 c.1 (List.mem_map_of_mem hc)) ?_ hs (h ▸ hrest)
        simp only [List.all_eq_true, decide_eq_true_eq, not_forall, exists_prop] at h3
        obtain ⟨c, hc, hne⟩ := h3
        obtain ⟨q, hq, rfl⟩ := List.mem_map.1 hc
        exact ⟨q, hq, hne⟩

theorem solveND_runs (lib : NDLib (n + 1) K) (T : NDTols K) (targetDeg : ℕ) (trust : Bool) (k lev : ℕ) :
    CallRuns lib T targetDeg trust k lev (solveND lib T targetDeg trust k lev) fun _ => True := by
  induction k generalizing lev with
  | zero =>
    intro fs og deg gd u st st' _ _ h rest st'' hrest
    simp only [solveND, Except.ok.injEq] at h
    subst h
    exact .deep hrest
  | succ k ih =>
    have hin : CallRuns lib T targetDeg trust (k + 1) lev (ndBody lib T targetDeg trust lev (solveND lib T targetDeg trust k (lev + 1))
        fun _ _ _ _ _ st => .ok st) fun d => d = 2 :=
      ndBody_runs (ih (lev + 1)) fun deg hP h2 => absurd hP h2
    exact ndBody_runs (ih (lev + 1)) fun deg _ _ => hin

end YRoots.Legacy
