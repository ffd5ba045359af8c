import Verif.Props.SolveExample

/-!
# Properties C03-C07: `solve`

Specification: the functions as values (`Func.value`), boxes as `Box.Mem`, common zeros.
-/

set_option linter.unusedSectionVars false
set_option linter.unusedVariables false

namespace YRoots

variable {n : ℕ} {K : Type*} [Field K] [LinearOrder K] [IsStrictOrderedRing K] [FloorSemiring K]

/-- Specification: the function an input denotes. -/
noncomputable def Func.value : Func n K → (Fin n → K) → K
  | .power M => M.evalPow
  | .cheb M => M.eval
  | .call f => f

/-- Specification: coefficients and error are a strict approximation of a function on `[a,b]`, in coordinates of the
cube, by an array whose axes have between 1 and `N` entries. -/
def StrictOn (N : ℕ) (f : (Fin n → K) → K) (a b : Fin n → K) (M : Tensor n K) (e : K) : Prop :=
  (∀ j, 0 < M.shape j ∧ M.shape j ≤ N) ∧ ∀ x, InCube x → |f ((Box.mk a b).map x) - M.eval x| < e

/-- The hypothesis of C03: on every box for which the run computes coefficients and error of function `i`, they are a
strict approximation. -/
def StrictApproximations (N : ℕ) (env : Env n K) (approx : Approximator n K) (funcs : Fin n → Func n K) (exact : Bool)
    (minSize : K) (fuel : ℕ) (a b : Fin n → K) : Prop :=
  ∀ a' b', Visited env approx funcs exact minSize fuel a b a' b' → ∀ i M e,
    approxOne approx (funcs i) a' b' = .ok (M, e) → StrictOn N (funcs i).value a' b' M e

theorem approxOne_call (approx : Approximator n K) (f : (Fin n → K) → K) (a b : Fin n → K) :
    approxOne approx (.call f) a b = approx (.call f) a b := rfl

/-! ### C03, C04 -/

/-- **C03**, `exact=True`: no common root in `[a,b]` is lost, through re-splitting and re-solving, in any run that
returns.  `_partial` only in that axes have at most `10^16` entries. -/
theorem C03_solve_exact_partial (env : Env n K) (la : LinAlg n K) (henv : env.OK la false) (approx : Approximator n K)
    (funcs : Fin n → Func n K) (minSize : K) (fuel : ℕ) (a b : Fin n → K) (roots : List (Fin n → K)) (boxes : List (Box n K))
    (h : solve env approx funcs true minSize fuel a b = .ok (roots, boxes))
    (hA : StrictApproximations (10 ^ 16) env approx funcs true minSize fuel a b)
    (y : Fin n → K) (hy : (Box.mk a b).Mem y) (hroot : ∀ i, (funcs i).value y = 0) : ∃ B ∈ boxes, B.Mem y := by
  refine solve_complete_of env la henv approx funcs true _ (transformOK_exact n) minSize (fun i => (funcs i).value) fuel a b
    (roots, boxes) h (fun a' b' hv i M e hM => ?_) y hy hroot
  simp only [transformPt_eq_map]
  exact hA a' b' hv i M e hM

/-- **C03**, default transformation; `_partial`: axes with at most 7 entries (see C02). -/
theorem C03_solve_default_partial (env : Env n K) (la : LinAlg n K) (henv : env.OK la false) (approx : Approximator n K)
    (funcs : Fin n → Func n K) (minSize : K) (fuel : ℕ) (a b : Fin n → K) (roots : List (Fin n → K)) (boxes : List (Box n K))
    (h : solve env approx funcs false minSize fuel a b = .ok (roots, boxes))
    (hA : StrictApproximations 7 env approx funcs false minSize fuel a b)
    (y : Fin n → K) (hy : (Box.mk a b).Mem y) (hroot : ∀ i, (funcs i).value y = 0) : ∃ B ∈ boxes, B.Mem y := by
  refine solve_complete_of env la henv approx funcs false _ (transformOK_default n) minSize (fun i => (funcs i).value) fuel a b
    (roots, boxes) h (fun a' b' hv i M e hM => ?_) y hy hroot
  simp only [transformPt_eq_map]
  exact hA a' b' hv i M e hM

/-- **C04**: whatever the functions, approximations and external routines, in a run that returns every box satisfies
`a ≤ lo ≤ hi ≤ b`, every root lies in one of the boxes, hence in `[a,b]`, and every box contains a root. -/
theorem C04_inside (env : Env n K) (approx : Approximator n K) (funcs : Fin n → Func n K) (exact : Bool) (minSize : K)
    (fuel : ℕ) (a b : Fin n → K) (roots : List (Fin n → K)) (boxes : List (Box n K))
    (h : solve env approx funcs exact minSize fuel a b = .ok (roots, boxes)) :
    (∀ B ∈ boxes, ∀ i, a i ≤ B.lo i ∧ B.lo i ≤ B.hi i ∧ B.hi i ≤ b i) ∧
    (∀ p ∈ roots, (∀ i, a i ≤ p i ∧ p i ≤ b i) ∧ ∃ B ∈ boxes, B.Mem p) ∧ ∀ B ∈ boxes, ∃ p ∈ roots, B.Mem p := by
  have hr := solve_resultOK env approx funcs exact minSize fuel a b (roots, boxes) h
  refine ⟨fun B hB i => ⟨((hr.boxes B hB).2 i).1, (hr.boxes B hB).1 i, ((hr.boxes B hB).2 i).2⟩, fun p hp => ?_, hr.sync⟩
  obtain ⟨B, hB, hm⟩ := hr.roots p hp
  exact ⟨fun i => ⟨((hr.boxes B hB).2 i).1.trans (hm i).1, (hm i).2.trans ((hr.boxes B hB).2 i).2⟩, B, hB, hm⟩

/-! ### C05, C06 -/

/-- **C05**, what the re-split does: all `2^n` sub-boxes are valid exactly if the split point lies in the box. -/
theorem C05_split_valid_iff (a b : Fin n → K) :
    (∀ val ∈ boolProduct n, ∀ i, (splitBox a b val).1 i ≤ (splitBox a b val).2 i) ↔ (Box.mk a b).Mem (midPoint a b) := by
  constructor
  · intro h i
    have h1 := h (fun _ => false) (mem_boolProduct n _) i
    have h2 := h (fun _ => true) (mem_boolProduct n _) i
    simp only [splitBox, Bool.false_eq_true, if_false, if_true] at h1 h2
    exact ⟨h1, h2⟩
  · intro h val _ i
    simp only [splitBox]
    split_ifs
    · exact (h i).2
    · exact (h i).1

/-- Instance: `[-1,3] × [0,2]`. -/
example : ∀ val ∈ boolProduct 2, ∀ i, (splitBox (K := ℚ) ![-1, 0] ![3, 2] val).1 i ≤ (splitBox (K := ℚ) ![-1, 0] ![3, 2] val).2 i :=
  (C05_split_valid_iff _ _).2 (by unfold Box.Mem; decide +kernel)

/-- **C05** for boxes containing the origin: the re-split gives valid boxes.  `_partial`: see `C05_valid_box_false`. -/
theorem C05_origin_partial (a b : Fin n → K) (h : (Box.mk a b).Mem fun _ => 0) (val : Fin n → Bool) (i : Fin n) :
    (splitBox a b val).1 i ≤ (splitBox a b val).2 i := by
  refine (C05_split_valid_iff a b).2 (fun i => ?_) val (mem_boolProduct n val) i
  obtain ⟨h1, h2⟩ := h i
  simp only at h1 h2
  have h3 : midPoint a b i = a i * (51234912839471234 / 10 ^ 17) + b i * (51234912839471234 / 10 ^ 17) := by
    unfold midPoint; ring
  simp only
  constructor <;> nlinarith

example : (Box.mk (K := ℚ) ![-1, 0] ![3, 2]).Mem fun _ => 0 := by unfold Box.Mem; decide +kernel

/-- **C05**, runs: a run that returns has split only at points inside the box it splits; otherwise the recursive call on
an invalid box raises. -/
theorem C05_raises (env : Env n K) (approx : Approximator n K) (funcs : Fin n → Func n K) (exact : Bool) (minSize : K)
    (fuel : ℕ) (a b : Fin n → K) (polys : Fin n → Tensor n K) (errs : Fin n → K)
    (ha : ∀ i, approxOne approx (funcs i) a b = .ok (polys i, errs i))
    (r0 : List (Fin n → K)) (bxs : List (TrackedInterval n K))
    (hs : solveChebyshevSubdivision env fuel polys errs exact true true false = .ok (r0, bxs))
    (hw : wholeBox bxs a b minSize = true) (hmid : ¬ (Box.mk a b).Mem (midPoint a b)) (r : SolveResult n K) :
    solve env approx funcs exact minSize (fuel + 1) a b ≠ .ok r := by
  intro h
  obtain ⟨hab, polys', errs', roots0', bxs', hap, hs', hc⟩ := solve_cases' env approx funcs exact minSize fuel a b r h
  have hp : polys' = polys := by
    funext i; have := (hap i).symm.trans (ha i); simp only [Except.ok.injEq, Prod.mk.injEq] at this; exact this.1
  have he : errs' = errs := by
    funext i; have := (hap i).symm.trans (ha i); simp only [Except.ok.injEq, Prod.mk.injEq] at this; exact this.2
  subst hp he
  rw [hs] at hs'
  cases hs'
  rcases hc with ⟨-, rs, hrs, -⟩ | ⟨hw', -⟩
  · apply hmid
    rw [← C05_split_valid_iff]
    intro val hval i
    obtain ⟨r'', -, hv⟩ := mapM_mem' hrs hval
    exact solve_ok_le env approx funcs exact minSize fuel _ _ _ hv i
  · rw [hw] at hw'; cases hw'

/-- A valid approximator of the constant `1/2` (with exaggerated, but valid, errors on `[100,101]`). -/
def exApprox : Approximator 1 ℚ := fun _ a b =>
  if a 0 = 100 ∧ b 0 = 101 then .ok (lin1 0 1, 2) else .ok (⟨fun _ => 1, fun _ => 1 / 2⟩, 1 / 4)

/-- **C05** is false: on `[100,101]` (with valid approximations) `solve` calls itself on the box `[102.98..., 101]` and
raises `ValueError`. -/
theorem C05_valid_box_false : ∃ (env : Env 1 ℚ) (la : LinAlg 1 ℚ) (approx : Approximator 1 ℚ) (f : Func 1 ℚ) (a b : Fin 1 → ℚ),
    env.OK la false ∧ (∀ i, a i ≤ b i) ∧
    (∀ a' b' M e, approxOne approx f a' b' = .ok (M, e) → StrictOn 7 f.value a' b' M e) ∧
    ∀ exact, solve env approx (fun _ => f) exact (1 / 10 ^ 5) 11 a b = .error .valueError := by
  refine ⟨exEnv, exLA, exApprox, .call fun _ => 1 / 2, fun _ => 100, fun _ => 101, exEnv_ok false, fun i => by norm_num, ?_, ?_⟩
  · intro a b M e h
    have h : exApprox (.call fun _ => 1 / 2) a b = .ok (M, e) := h
    unfold exApprox at h
    split_ifs at h
    · cases h
      refine ⟨fun j => by simp [lin1], fun x hx => ?_⟩
      rw [lin1_eval]
      have := abs_le.1 (hx 0)
      simp only [Func.value]
      rw [abs_lt]; constructor <;> linarith
    · cases h
      refine ⟨fun j => by simp, fun x hx => ?_⟩
      simp only [Func.value, Tensor.eval]
      have hi : (Tensor.mk (n := 1) (K := ℚ) (fun _ => 1) fun _ => 1 / 2).idx = {fun _ => 0} := by decide +kernel
      rw [hi]; norm_num
  · intro exact
    obtain ⟨roots, t, hrun, hbox⟩ := exRun_one exact
    -- the recursive call on the lower box finds nothing
    have hlow : solve exEnv exApprox (fun _ => .call fun _ => 1 / 2) exact (1 / 10 ^ 5) 10
        (splitBox (fun _ => 100) (fun _ => 101) (fun _ => false)).1
        (splitBox (fun _ => 100) (fun _ => 101) (fun _ : Fin 1 => false)).2 = .ok ([], []) := by
      unfold solve
      have h1 : ¬ ∃ i : Fin 1, (splitBox (fun _ => (100 : ℚ)) (fun _ => 101) (fun _ => false)).2 i <
          (splitBox (fun _ => 100) (fun _ => 101) (fun _ => false)).1 i := by decide +kernel
      have h2 : approxOne exApprox (.call fun _ => 1 / 2) (splitBox (fun _ => (100 : ℚ)) (fun _ => 101) (fun _ => false)).1
          (splitBox (fun _ => 100) (fun _ => 101) (fun _ : Fin 1 => false)).2 = .ok (⟨fun _ => 1, fun _ => 1 / 2⟩, 1 / 4) := by
        rw [approxOne_call]
        unfold exApprox
        rw [if_neg (by decide +kernel)]
      rw [if_neg h1]
      simp only [List.finRange_succ, List.finRange_zero, List.map_nil, List.mapM_cons, List.mapM_nil, h2]
      have h3 : ∀ (p : Fin 1 → Tensor 1 ℚ) (e : Fin 1 → ℚ), p = (fun _ => ⟨fun _ => 1, fun _ => 1 / 2⟩) → e = (fun _ => 1 / 4) →
          solveChebyshevSubdivision exEnv 9 p e exact = .ok ([], []) := by
        rintro p e rfl rfl
        have hp : (TrackedInterval.new (Box.unit 1 ℚ)).isPoint = false := by decide +kernel
        have hcc : constantCheck (fun _ => (⟨fun _ => 1, fun _ => 1 / 2⟩ : Tensor 1 ℚ)) (fun _ : Fin 1 => (1 / 4 : ℚ)) = true := by decide +kernel
        unfold solveChebyshevSubdivision solvePolyRecursive
        simp only [hp, hcc, Bool.false_eq_true, if_false, Bool.and_true, if_true]
        rfl
      have h4 := h3 (fun i => ([((⟨fun _ => 1, fun _ => 1 / 2⟩ : Tensor 1 ℚ), (1 / 4 : ℚ))].getD i (⟨fun _ => 0, fun _ => 0⟩, 0)).1)
        (fun i => ([((⟨fun _ => 1, fun _ => 1 / 2⟩ : Tensor 1 ℚ), (1 / 4 : ℚ))].getD i (⟨fun _ => 0, fun _ => 0⟩, 0)).2)
        (by funext i; rw [Subsingleton.elim i 0]; rfl) (by funext i; rw [Subsingleton.elim i 0]; rfl)
      have h5 : (do let __do_lift ← (Except.ok (⟨fun _ => 1, fun _ => 1 / 2⟩, 1 / 4) : Except Exc (Tensor 1 ℚ × ℚ))
                    let __do_lift_1 ← (pure [] : Except Exc (List (Tensor 1 ℚ × ℚ)))
                    pure (__do_lift :: __do_lift_1)) = Except.ok [((⟨fun _ => 1, fun _ => 1 / 2⟩ : Tensor 1 ℚ), (1 / 4 : ℚ))] := rfl
      rw [h5]
      simp only [h4, wholeBox, Bool.false_eq_true, if_false, List.mapM_nil]
      rfl
    have hup : solve exEnv exApprox (fun _ => .call fun _ => 1 / 2) exact (1 / 10 ^ 5) 10
        (splitBox (fun _ => 100) (fun _ => 101) (fun _ => true)).1
        (splitBox (fun _ => 100) (fun _ => 101) (fun _ : Fin 1 => true)).2 = .error .valueError := by
      unfold solve
      rw [if_pos (by decide +kernel)]
    unfold solve
    rw [if_neg (by decide +kernel)]
    have h2 : approxOne exApprox (.call fun _ => 1 / 2) (fun _ : Fin 1 => (100 : ℚ)) (fun _ => 101) = .ok (lin1 0 1, 2) := by
      rw [approxOne_call]
      unfold exApprox
      rw [if_pos ⟨rfl, rfl⟩]
    simp only [List.finRange_succ, List.finRange_zero, List.map_nil, List.mapM_cons, List.mapM_nil, h2]
    have h5 : (do let __do_lift ← (Except.ok (lin1 0 1, 2) : Except Exc (Tensor 1 ℚ × ℚ))
                  let __do_lift_1 ← (pure [] : Except Exc (List (Tensor 1 ℚ × ℚ)))
                  pure (__do_lift :: __do_lift_1)) = Except.ok [(lin1 0 1, (2 : ℚ))] := rfl
    rw [h5]
    have hp : (fun i : Fin 1 => ([(lin1 0 1, (2 : ℚ))].getD i (⟨fun _ => 0, fun _ => 0⟩, 0)).1) = fun _ => lin1 0 1 := by
      funext i; rw [Subsingleton.elim i 0]; rfl
    have he : (fun i : Fin 1 => ([(lin1 0 1, (2 : ℚ))].getD i (⟨fun _ => 0, fun _ => 0⟩, 0)).2) = fun _ => 2 := by
      funext i; rw [Subsingleton.elim i 0]; rfl
    have hwb : wholeBox [t] (fun _ : Fin 1 => (100 : ℚ)) (fun _ => 101) (1 / 10 ^ 5) = true := by
      have : wholeBox [t] (fun _ : Fin 1 => (100 : ℚ)) (fun _ => 101) (1 / 10 ^ 5) =
          (decide (∀ i, t.getFinalInterval.hi i - t.getFinalInterval.lo i = 2) && decide (∀ i : Fin 1, (101 : ℚ) - 100 > 1 / 10 ^ 5)) := rfl
      rw [this, hbox]
      decide +kernel
    simp only [hp, he, hrun, hwb, if_true]
    have hbp : boolProduct 1 = [fun _ => false, fun _ => true] := by decide +kernel
    rw [hbp]
    simp only [List.mapM_cons, hlow, hup]
    rfl

/-- **C06**: if the split point lies in the box, the sub-boxes cover it, and two different sub-boxes meet only in points
on a face of each. -/
theorem C06_cover (a b : Fin n → K) (hmid : (Box.mk a b).Mem (midPoint a b)) :
    (∀ y, (Box.mk a b).Mem y ↔ ∃ val ∈ boolProduct n, (Box.mk (splitBox a b val).1 (splitBox a b val).2).Mem y) ∧
    (boolProduct n).length = 2 ^ n ∧
    ∀ u ∈ boolProduct n, ∀ v ∈ boolProduct n, u ≠ v → ∀ y, (Box.mk (splitBox a b u).1 (splitBox a b u).2).Mem y →
      (Box.mk (splitBox a b v).1 (splitBox a b v).2).Mem y → ∃ i, y i = midPoint a b i ∧
        ((y i = (splitBox a b u).1 i ∧ y i = (splitBox a b v).2 i) ∨ (y i = (splitBox a b u).2 i ∧ y i = (splitBox a b v).1 i)) := by
  refine ⟨fun y => ⟨fun hy => ⟨fun i => decide (midPoint a b i ≤ y i), mem_boolProduct n _, fun i => ?_⟩, ?_⟩, ?_, ?_⟩
  · simp only [splitBox, decide_eq_true_eq]
    split_ifs with h1
    · exact ⟨h1, (hy i).2⟩
    · exact ⟨(hy i).1, (not_le.1 h1).le⟩
  · rintro ⟨val, -, hv⟩ i
    have hw := splitBox_within (a := a) (b := b) (fun val i => (C05_split_valid_iff a b).2 hmid val (mem_boolProduct n val) i) val i
    exact ⟨hw.1.trans (hv i).1, (hv i).2.trans hw.2⟩
  · clear hmid
    induction n with
    | zero => rfl
    | succ n ih =>
      simp only [boolProduct, List.flatMap_cons, List.flatMap_nil, List.append_nil, List.length_append, List.length_map,
        ih (fun i => a i.succ) (fun i => b i.succ)]
      ring
  · intro u _ v _ huv y hu hv
    obtain ⟨i, hi⟩ := Function.ne_iff.1 huv
    refine ⟨i, ?_⟩
    have h1 := hu i
    have h2 := hv i
    simp only [splitBox] at h1 h2 ⊢
    cases hui : u i <;> cases hvi : v i
    · rw [hui, hvi] at hi; exact absurd rfl hi
    · simp only [hui, hvi, Bool.false_eq_true, if_false, if_true] at h1 h2 ⊢
      have := le_antisymm h1.2 h2.1
      exact ⟨this, .inr ⟨this, this⟩⟩
    · simp only [hui, hvi, Bool.false_eq_true, if_false, if_true] at h1 h2 ⊢
      have := le_antisymm h2.2 h1.1
      exact ⟨this, .inl ⟨this, this⟩⟩
    · rw [hui, hvi] at hi; exact absurd rfl hi

example : (Box.mk (K := ℚ) ![-1, 0] ![3, 2]).Mem (midPoint ![-1, 0] ![3, 2]) := by unfold Box.Mem; decide +kernel

/-! ### C07 -/

/-- `solve` on the `MultiCheb` object `2^-31 (x - 1/2)` and a box treated as the unit box, small enough not to be
re-solved. -/
theorem exSolveHalf (approx : Approximator 1 ℚ) (exact : Bool) (a b : Fin 1 → ℚ) (hab : a 0 ≤ b 0) (hu : unitBox a b = true)
    (hsmall : ¬ transformPt (fun _ => 1 / 2 + exD) a b 0 - transformPt (fun _ => 1 / 2 - exD) a b 0 >
      1 / 10 ^ 5 * max (max |a 0| |b 0|) 1) :
    (∃ roots, solve exEnv approx (fun _ => .cheb (lin1 (-1 / 2 ^ 32) (1 / 2 ^ 31))) exact (1 / 10 ^ 5) 11 a b =
      .ok (roots, [⟨transformPt (fun _ => 1 / 2 - exD) a b, transformPt (fun _ => 1 / 2 + exD) a b⟩])) ∧
    ∀ a' b', Visited exEnv approx (fun _ => .cheb (lin1 (-1 / 2 ^ 32) (1 / 2 ^ 31))) exact (1 / 10 ^ 5) 11 a b a' b' →
      a' = a ∧ b' = b := by
  obtain ⟨roots, t, hrun, hbox⟩ := exHalf exact
  have h2 : approxOne approx (.cheb (lin1 (-1 / 2 ^ 32) (1 / 2 ^ 31))) a b = .ok (lin1 (-1 / 2 ^ 32) (1 / 2 ^ 31), 1 / 2 ^ 52) := by
    unfold approxOne
    rw [hu]
  have h3 : ¬ ∀ i : Fin 1, transformPt t.getFinalInterval.hi a b i - transformPt t.getFinalInterval.lo a b i >
      1 / 10 ^ 5 * max (max |a i| |b i|) 1 := by
    intro h
    have := h 0
    rw [hbox] at this
    exact hsmall this
  have hwb : wholeBox [t] a b (1 / 10 ^ 5) = false := by
    have : wholeBox [t] a b (1 / 10 ^ 5) =
        (decide (∀ i, t.getFinalInterval.hi i - t.getFinalInterval.lo i = 2) && decide (∀ i : Fin 1, b i - a i > 1 / 10 ^ 5)) := rfl
    rw [this, hbox, Bool.and_eq_false_iff]
    left
    decide +kernel
  constructor
  · have hfb : ∀ rec, ∃ p, finishBox rec a b (1 / 10 ^ 5) t = .ok (p, [⟨transformPt (fun _ => 1 / 2 - exD) a b,
        transformPt (fun _ => 1 / 2 + exD) a b⟩]) := by
      intro rec
      unfold finishBox
      simp only
      rw [if_neg h3, hbox]
      split_ifs
      · exact ⟨_, rfl⟩
      · exact ⟨_, rfl⟩
    obtain ⟨p, hp⟩ := hfb (solve exEnv approx (fun _ => .cheb (lin1 (-1 / 2 ^ 32) (1 / 2 ^ 31))) exact (1 / 10 ^ 5) 10)
    refine ⟨p, ?_⟩
    unfold solve
    have hle : ¬ ∃ i, b i < a i := by
      rintro ⟨i, hi⟩; rw [Subsingleton.elim i 0] at hi; exact absurd hab (not_le.2 hi)
    rw [if_neg hle]
    simp only [List.finRange_succ, List.finRange_zero, List.map_nil, List.mapM_cons, List.mapM_nil, h2]
    have h5 : (do let __do_lift ← (Except.ok (lin1 (-1 / 2 ^ 32) (1 / 2 ^ 31), 1 / 2 ^ 52) : Except Exc (Tensor 1 ℚ × ℚ))
                  let __do_lift_1 ← (pure [] : Except Exc (List (Tensor 1 ℚ × ℚ)))
                  pure (__do_lift :: __do_lift_1)) = Except.ok [(lin1 (-1 / 2 ^ 32) (1 / 2 ^ 31), (1 / 2 ^ 52 : ℚ))] := rfl
    rw [h5]
    have hp' : (fun i : Fin 1 => ([(lin1 (-1 / 2 ^ 32) (1 / 2 ^ 31), (1 / 2 ^ 52 : ℚ))].getD i (⟨fun _ => 0, fun _ => 0⟩, 0)).1) =
        fun _ => lin1 (-1 / 2 ^ 32) (1 / 2 ^ 31) := by
      funext i; rw [Subsingleton.elim i 0]; rfl
    have he : (fun i : Fin 1 => ([(lin1 (-1 / 2 ^ 32) (1 / 2 ^ 31), (1 / 2 ^ 52 : ℚ))].getD i (⟨fun _ => 0, fun _ => 0⟩, 0)).2) =
        fun _ => 1 / 2 ^ 52 := by
      funext i; rw [Subsingleton.elim i 0]; rfl
    simp only [hp', he, hrun, hwb, Bool.false_eq_true, if_false, List.mapM_cons, List.mapM_nil, hp]
    change Except.ok (stack [(p, [(⟨transformPt (fun _ => 1 / 2 - exD) a b, transformPt (fun _ => 1 / 2 + exD) a b⟩ : Box 1 ℚ)])]) = _
    simp [stack]
  · intro a' b' hv
    have hfix : ∀ (polys : Fin 1 → Tensor 1 ℚ) (errs : Fin 1 → ℚ) (r : List (Fin 1 → ℚ)) (bxs : List (TrackedInterval 1 ℚ)),
        (∀ i : Fin 1, approxOne approx (.cheb (lin1 (-1 / 2 ^ 32) (1 / 2 ^ 31))) a b = .ok (polys i, errs i)) →
        solveChebyshevSubdivision exEnv 10 polys errs exact true true false = .ok (r, bxs) → bxs = [t] := by
      intro polys errs r bxs hap hs
      have hp : polys = fun _ => lin1 (-1 / 2 ^ 32) (1 / 2 ^ 31) := by
        funext i; have := (hap i).symm.trans h2; simp only [Except.ok.injEq, Prod.mk.injEq] at this; exact this.1
      have he : errs = fun _ => 1 / 2 ^ 52 := by
        funext i; have := (hap i).symm.trans h2; simp only [Except.ok.injEq, Prod.mk.injEq] at this; exact this.2
      rw [hp, he, hrun] at hs
      cases hs; rfl
    cases hv with
    | self => exact ⟨rfl, rfl⟩
    | split _ _ _ _ _ polys errs r bxs val hap hs hw _ =>
      rw [hfix polys errs r bxs hap hs, hwb] at hw; cases hw
    | resolve _ _ _ _ _ polys errs r bxs u hap hs hw hu' hsize _ =>
      rw [hfix polys errs r bxs hap hs, List.mem_singleton] at hu'
      subst hu'
      exact absurd hsize h3

/-- A run meeting the hypotheses of C03 (both settings), with the root `1/2`. -/
example (approx : Approximator 1 ℚ) (exact : Bool) : ∃ roots boxes,
    solve exEnv approx (fun _ => .cheb (lin1 (-1 / 2 ^ 32) (1 / 2 ^ 31))) exact (1 / 10 ^ 5) 11 (fun _ => -1) (fun _ => 1) =
      .ok (roots, boxes) ∧
    StrictApproximations 7 exEnv approx (fun _ => .cheb (lin1 (-1 / 2 ^ 32) (1 / 2 ^ 31))) exact (1 / 10 ^ 5) 11
      (fun _ => -1) (fun _ => 1) ∧
    (Func.cheb (lin1 (-1 / 2 ^ 32) (1 / 2 ^ 31))).value (fun _ => 1 / 2) = 0 := by
  obtain ⟨⟨roots, h⟩, hv⟩ := exSolveHalf approx exact (fun _ => -1) (fun _ => 1) (by norm_num) (by decide +kernel) (by decide +kernel)
  refine ⟨roots, _, h, ?_, ?_⟩
  · intro a' b' hab i M e hM
    obtain ⟨rfl, rfl⟩ := hv a' b' hab
    have hu : unitBox (fun _ : Fin 1 => (-1 : ℚ)) (fun _ => 1) = true := by decide +kernel
    unfold approxOne at hM
    rw [hu] at hM
    cases hM
    refine ⟨fun j => by simp [lin1], fun x _ => ?_⟩
    have hmap : (Box.mk (fun _ : Fin 1 => (-1 : ℚ)) fun _ => 1).map x = x := by funext i; simp [Box.map]
    rw [hmap]; simp [Func.value]
  · simp only [Func.value]; rw [lin1_eval]; norm_num

/-- **C07** is false: `solve` with the `MultiCheb` object `2^-31 (x - 1/2)` on `[-1.000005, 1]` (default
`minBoundingIntervalSize`) returns exactly one box, which excludes the only root `1/2`. -/
theorem C07_near_unit_false : ∃ (M : Tensor 1 ℚ) (a b : Fin 1 → ℚ) (y : Fin 1 → ℚ),
    (∀ x, M.eval x = 1 / 2 ^ 31 * (x 0 - 1 / 2)) ∧ (∀ i, a i < y i ∧ y i < b i) ∧ M.eval y = 0 ∧
    ∀ approx exact, ∃ roots B, solve exEnv approx (fun _ => .cheb M) exact (1 / 10 ^ 5) 11 a b = .ok (roots, [B]) ∧ ¬ B.Mem y := by
  refine ⟨lin1 (-1 / 2 ^ 32) (1 / 2 ^ 31), fun _ => -1 - 5 / 10 ^ 6, fun _ => 1, fun _ => 1 / 2, fun x => ?_, fun i => by norm_num,
    ?_, fun approx exact => ?_⟩
  · rw [lin1_eval]; ring
  · rw [lin1_eval]; norm_num
  · obtain ⟨⟨roots, h⟩, -⟩ := exSolveHalf approx exact (fun _ => -1 - 5 / 10 ^ 6) (fun _ => 1) (by norm_num) (by decide +kernel)
      (by decide +kernel)
    refine ⟨roots, _, h, fun hm => ?_⟩
    have := (hm 0).2
    revert this
    decide +kernel

/-- **C07**, what is true: on the unit box itself, and on every box with an endpoint further than
`1e-8 + 1e-5` from it, the coefficients and error used
for a polynomial object are a strict approximation of it on the requested box, provided `chebApproximate` gives one.
(With this, C03 applies to all runs that meet no box near, but different from, the unit box.) -/
theorem C07_box_partial (N : ℕ) (approx : Approximator n K) (f : Func n K) (a b : Fin n → K)
    (hab : (∀ i, a i = -1 ∧ b i = 1) ∨ ∃ i, 1 / 10 ^ 8 + 1 / 10 ^ 5 < |a i + 1| ∨ 1 / 10 ^ 8 + 1 / 10 ^ 5 < |b i - 1|)
    (hf : ∀ T, f = .power T ∨ f = .cheb T → ∀ j, 0 < T.shape j ∧ T.shape j ≤ N) (M : Tensor n K) (e : K)
    (hA : approx f a b = .ok (M, e) → StrictOn N f.value a b M e) (h : approxOne approx f a b = .ok (M, e)) :
    StrictOn N f.value a b M e := by
  unfold approxOne at h
  rcases hab with hab | hab
  · have hmap : ∀ x : Fin n → K, (Box.mk a b).map x = x := by
      intro x; funext i; simp only [Box.map, (hab i).1, (hab i).2]; ring
    split at h
    · cases h
      refine ⟨?_, fun x _ => ?_⟩
      · rw [toCheb_shape]; exact hf _ (.inl rfl)
      · rw [hmap, toCheb_eval]; simp [Func.value]
    · cases h
      refine ⟨hf _ (.inr rfl), fun x _ => ?_⟩
      rw [hmap]; simp [Func.value]
    · exact hA h
  · have hab : unitBox a b = false := by
      obtain ⟨i, hi⟩ := hab
      have hc : ¬ ((∀ i, closeTo (a i) (-1)) ∧ ∀ i, closeTo (b i) 1) := by
        rintro ⟨h1, h2⟩
        have h1 := h1 i
        have h2 := h2 i
        unfold closeTo at h1 h2
        rw [abs_neg, abs_one, mul_one, sub_neg_eq_add] at h1
        rw [abs_one, mul_one] at h2
        rcases hi with hi | hi
        · exact absurd hi (not_lt.2 h1)
        · exact absurd hi (not_lt.2 h2)
      unfold unitBox
      by_cases g1 : ∀ i, closeTo (a i) (-1)
      · have g2 : ¬ ∀ i, closeTo (b i) 1 := fun g2 => hc ⟨g1, g2⟩
        simp only [g1, g2]; simp
      · simp only [g1]; simp
    rw [hab] at h
    cases f <;> exact hA h

example : unitBox (K := ℚ) (fun _ : Fin 2 => -1) (fun _ => 2) = false ∧
    unitBox (K := ℚ) (fun _ : Fin 1 => -1 - 5 / 10 ^ 6) (fun _ => 1) = true := by decide +kernel

end YRoots
