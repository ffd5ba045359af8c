import Verif.Props.NoLostRoot
import Mathlib.Data.Rat.Floor

/-!
# A complete run meeting the hypotheses of C01 and C02

One variable, `M = T_1`, error 2 (so that the first zoom stops at once and the final step runs), with an exact singular
value decomposition and exact linear algebra over `ℚ`.
-/

set_option linter.unusedVariables false

namespace YRoots

/-- Exact singular value decomposition of 1×1 matrices. -/
def exSvd : SVD 1 ℚ where
  U A := fun _ _ => if A 0 0 < 0 then -1 else 1
  S A := fun _ => |A 0 0|
  Vh _ := 1

/-- Exact linear algebra for 1×1 matrices. -/
def exLA : LinAlg 1 ℚ where
  fullRank _ A := decide (A 0 0 ≠ 0)
  solve _ A b := fun _ => b 0 / A 0 0

def exEnv : Env 1 ℚ :=
  ⟨exSvd, fun l => List.range l.length, fun s => (List.finRange 1).filter (· ∈ s), quadraticCheck 1 exLA⟩

/-- `c0 + c1 T_1`. -/
def lin1 (c0 c1 : ℚ) : Tensor 1 ℚ := ⟨fun _ => 2, fun k => if k 0 = 0 then c0 else if k 0 = 1 then c1 else 0⟩

theorem exEnv_ok (all : Bool) : exEnv.OK exLA all where
  svd := by
    refine ⟨fun A i => abs_nonneg _, fun A i j _ => le_refl _, fun A _ => ?_, fun A _ => ?_, fun A _ => ?_⟩
    · ext i j
      rw [Subsingleton.elim i 0, Subsingleton.elim j 0, Matrix.mul_apply]
      rw [Fin.sum_univ_one, Matrix.transpose_apply, Matrix.one_apply_eq]
      change (if A 0 0 < 0 then (-1 : ℚ) else 1) * (if A 0 0 < 0 then (-1 : ℚ) else 1) = 1
      split_ifs <;> norm_num
    · simp [exEnv, exSvd]
    · ext i j
      rw [Subsingleton.elim i 0, Subsingleton.elim j 0]
      rw [show exEnv.svd.Vh A = 1 from rfl, Matrix.mul_one, Matrix.mul_diagonal]
      change A 0 0 = (if A 0 0 < 0 then (-1 : ℚ) else 1) * |A 0 0|
      split_ifs with h
      · rw [abs_of_neg h]; ring
      · rw [abs_of_nonneg (not_lt.1 h)]; ring
  argsort l := List.Perm.refl _
  setIter s := by
    constructor
    · exact List.Pairwise.filter _ (by decide)
    · intro d; simp [exEnv]
  quad := rfl
  linAlg S hS _ := by
    have hS1 : S = {0} := by
      obtain ⟨i, hi⟩ := hS
      ext j; rw [Subsingleton.elim j i, Subsingleton.elim (0 : Fin 1) i]; simp [hi]
    subst hS1
    have hd : ∀ A : Matrix (Fin 1) (Fin 1) ℚ,
        (A.submatrix (Subtype.val : ({0} : Finset (Fin 1)) → Fin 1) Subtype.val).det = A 0 0 := by
      intro A
      rw [Matrix.det_eq_elem_of_card_eq_one (by simp) ⟨0, by simp⟩]; rfl
    constructor
    · intro A; rw [hd]; simp [exLA]
    · intro A b h i hi
      rw [hd] at h
      rw [Subsingleton.elim i 0]
      simp only [Finset.sum_singleton, exLA]
      field_simp

theorem transformCheb_lin1 (c0 c1 : ℚ) (α β : Fin 1 → ℚ) (e : ℚ) (exact : Bool) :
    (transformCheb (lin1 c0 c1) α β e exact).1 = lin1 (c0 + β 0 * c1) (α 0 * c1) := by
  have hout : ∀ out : ℕ → (Fin 1 → ℕ) → ℚ,
      out = Function.update (Function.update (fun _ => 0) 0 ((lin1 c0 c1).rows 0 0 + β 0 • (lin1 c0 c1).rows 0 1)) 1
        (α 0 • (lin1 c0 c1).rows 0 1) →
      (lin1 c0 c1).ofRows 0 (out, 2) = lin1 (c0 + β 0 * c1) (α 0 * c1) := by
    rintro out rfl
    have r0 : ∀ k, (lin1 c0 c1).rows 0 0 k = c0 := fun k => by simp [Tensor.rows, lin1]
    have r1 : ∀ k, (lin1 c0 c1).rows 0 1 k = c1 := fun k => by simp [Tensor.rows, lin1]
    unfold Tensor.ofRows
    conv_rhs => unfold lin1
    congr 1
    · funext i; rw [Subsingleton.elim i 0]; simp
    · funext k
      by_cases h0 : k 0 = 0
      · simp [h0, r0, r1]
      · by_cases h1 : k 0 = 1
        · simp [h1, r1]
        · simp [h0, h1, Function.update_of_ne]
  unfold transformCheb
  simp only [List.finRange_succ, List.finRange_zero, List.map_nil, List.foldl_cons, List.foldl_nil]
  unfold transformND
  split_ifs with h1 h2
  · rcases h1 with ⟨ha, hb⟩ | h1
    · simp [ha, hb]
    · simp [lin1] at h1
  · unfold transformAxis transformFunc transform1DErrorFree transform1D transform1DErrorFreeSplit
    have h2 : (lin1 c0 c1).shape 0 = 2 := rfl
    cases exact
    · simp only [h2]
      exact hout _ rfl
    · simp only [if_true, h2]
      split_ifs with h3
      · refine hout _ ?_
        simp only [Nat.sub_self, List.range'_zero, List.foldl_nil, eInit]
        have : npSign (β 0) * (1 / 2) = β 0 := by
          have := h3.2
          unfold npSign
          split_ifs with h4 h5
          · rw [abs_of_neg h4] at this; linarith
          · rw [h5] at this; norm_num at this
          · rw [abs_of_nonneg (not_lt.1 h4)] at this; linarith
        rw [this, h3.1]
      · exact hout _ rfl
  · exact absurd rfl h2

theorem lin1_eval (c0 c1 : ℚ) (x : Fin 1 → ℚ) : (lin1 c0 c1).eval x = c0 + c1 * x 0 := by
  have hi : (lin1 c0 c1).idx = {fun _ => 0, fun _ => 1} := by
    have : (lin1 0 0).idx = {fun _ => 0, fun _ => 1} := by decide +kernel
    exact this
  unfold Tensor.eval
  rw [hi, Finset.sum_pair (by intro h; exact absurd (congrFun h 0) (by norm_num))]
  simp [lin1]

/-- One zoom of the final step on `c T_1` with a box of half-width `c`. -/
theorem exZoom (c : ℚ) (hc : c ≠ 0) (e : Fin 1 → ℚ) (ti : TrackedInterval 1 ℚ) (exact : Bool) (hf : ti.finalStep = true)
    (hI : ti.interval = ⟨fun _ => -c, fun _ => c⟩)
    (hr : let r := boundingIntervalLinearSystem exSvd (fun _ => lin1 0 c) (fun _ => 0) true
      r.interval.lo 0 = -(1 / 2 ^ 51) ∧ r.interval.hi 0 = 1 / 2 ^ 51 ∧ r.changed = true ∧ r.shouldStop = false ∧
        r.throwOut = false) :
    ∃ r, zoomInOnIntervalIter exSvd (fun _ => lin1 0 c) e ti exact = .ok r ∧ r.Ms = (fun _ => lin1 0 (c / 2 ^ 51)) ∧
      r.ti.interval = ⟨fun _ => -(c / 2 ^ 51), fun _ => c / 2 ^ 51⟩ ∧ r.ti.finalStep = true ∧ r.ti.empty = ti.empty ∧
      (r.ti.isPoint = true → r.changed = false ∧ r.shouldStop = true) ∧
      (r.ti.isPoint = false → r.changed = true) := by
  set b := boundingIntervalLinearSystem exSvd (fun _ => lin1 0 c) (fun _ => 0) true with hb
  obtain ⟨h1, h2, h3, h4, h5⟩ := hr
  have hb' : boundingIntervalLinearSystem exSvd (fun _ => lin1 0 c) e ti.finalStep = b := by
    rw [hf, hb]; rfl
  have hcc : ¬ (-c = c) := fun h => hc (by linarith)
  have hsk : skipPointDims ti.interval b.interval = ⟨fun _ => -(1 / 2 ^ 51), fun _ => 1 / 2 ^ 51⟩ := by
    rw [hI]
    unfold skipPointDims
    simp only [hcc, if_false]
    congr 1 <;> funext i <;> rw [Subsingleton.elim i 0]
    · exact h1
    · exact h2
  have hadd : ti.addTransform ⟨fun _ => -(1 / 2 ^ 51), fun _ => 1 / 2 ^ 51⟩ =
      ti.applySub ⟨fun _ => -(1 / 2 ^ 51), fun _ => 1 / 2 ^ 51⟩ := by
    unfold TrackedInterval.addTransform
    have : ¬ ∃ i : Fin 1, (-(1 / 2 ^ 51) : ℚ) > 1 / 2 ^ 51 := by rintro ⟨_, h⟩; norm_num at h
    rw [if_neg (fun h => this h.1), if_neg this]
  have hint : (ti.applySub ⟨fun _ => -(1 / 2 ^ 51), fun _ => 1 / 2 ^ 51⟩).interval =
      ⟨fun _ => -(c / 2 ^ 51), fun _ => c / 2 ^ 51⟩ := by
    unfold TrackedInterval.applySub TrackedInterval.stepBounds
    rw [hI]
    ext i
    · have h1 : ¬ (-(1 / 2 ^ 51) : ℚ) = -1 := by norm_num
      have h2 : ¬ (-(1 / 2 ^ 51) : ℚ) = 1 := by norm_num
      simp only [h1, h2, if_false]; ring
    · have h1 : ¬ (1 / 2 ^ 51 : ℚ) = -1 := by norm_num
      have h2 : ¬ (1 / 2 ^ 51 : ℚ) = 1 := by norm_num
      simp only [h1, h2, if_false]; ring
  have hMs : (transformChebToInterval (fun _ => lin1 0 c) (fun i : Fin 1 => ((1 / 2 ^ 51 : ℚ) - -(1 / 2 ^ 51)) / 2)
      (fun i => (1 / 2 ^ 51 + -(1 / 2 ^ 51)) / 2) e exact).1 = fun _ => lin1 0 (c / 2 ^ 51) := by
    funext i
    simp only [transformChebToInterval, transformCheb_lin1]
    congr 1 <;> ring
  have hlast : (ti.applySub ⟨fun _ => -(1 / 2 ^ 51), fun _ => 1 / 2 ^ 51⟩).getLastTransform =
      some (fun i : Fin 1 => ((1 / 2 ^ 51 : ℚ) - -(1 / 2 ^ 51)) / 2, fun i => (1 / 2 ^ 51 + -(1 / 2 ^ 51)) / 2) := by
    simp [TrackedInterval.applySub, TrackedInterval.getLastTransform]
  have hfs : (ti.applySub ⟨fun _ => -(1 / 2 ^ 51), fun _ => 1 / 2 ^ 51⟩).finalStep = true := hf
  unfold zoomInOnIntervalIter
  simp only [hb', hsk, hadd, h3, h4, h5, hlast, hfs, Bool.false_and, Bool.or_false, Bool.not_true, Bool.true_and,
    Bool.false_eq_true, if_false]
  split_ifs with hp
  · exact ⟨_, rfl, hMs, hint, hf, rfl, fun _ => ⟨rfl, rfl⟩, fun h => by rw [hp] at h; cases h⟩
  · exact ⟨_, rfl, hMs, hint, hf, rfl, fun h => absurd h hp, fun _ => rfl⟩

/-- The final step of the example run: three zooms reach a point. -/
theorem exFinal (e : Fin 1 → ℚ) (ti : TrackedInterval 1 ℚ) (exact : Bool) (fuel : ℕ) (ls : Fin 1 → ℚ) (hf : ti.finalStep = true)
    (he : ti.empty = false) (hI : ti.interval = ⟨fun _ => -1, fun _ => 1⟩) :
    ∃ r, zoomLoop exSvd exact 25 (fuel + 3) (fun _ => lin1 0 1) e ti ls 0 = .ok r ∧ r.ti.empty = false ∧
      r.shouldStop = true ∧ r.ti.finalStep = true := by
  obtain ⟨r1, z1, m1, i1, f1, e1, p1, c1⟩ := exZoom 1 (by norm_num) e ti exact hf hI (by decide +kernel)
  obtain ⟨r2, z2, m2, i2, f2, e2, p2, c2⟩ := exZoom (1 / 2 ^ 51) (by norm_num) r1.errors r1.ti exact f1 i1
    (by decide +kernel)
  obtain ⟨r3, z3, m3, i3, f3, e3, p3, c3⟩ := exZoom (1 / 2 ^ 51 / 2 ^ 51) (by norm_num) r2.errors r2.ti exact f2 i2
    (by decide +kernel)
  have q1 : r1.ti.isPoint = false := by unfold TrackedInterval.isPoint; rw [i1]; decide +kernel
  have q2 : r2.ti.isPoint = false := by unfold TrackedInterval.isPoint; rw [i2]; decide +kernel
  have q3 : r3.ti.isPoint = true := by unfold TrackedInterval.isPoint; rw [i3]; decide +kernel
  have g1 : r1.ti.empty = false := e1.trans he
  have g2 : r2.ti.empty = false := e2.trans g1
  have g3 : r3.ti.empty = false := e3.trans g2
  refine ⟨r3, ?_, g3, (p3 q3).2, f3⟩
  have hle : ∀ (p : Prop) [Decidable p] (k : ℕ), (if p then k + 1 else k) ≤ k + 1 := by
    intro p _ k; split_ifs <;> omega
  have hle1 : ∀ (p : Prop) [Decidable p] (k : ℕ), k ≤ 24 → (if p then k + 1 else k) ≤ 25 := by
    intro p _ k hk; have := hle p k; omega
  unfold zoomLoop
  rw [z1]
  simp only [g1, c1 q1, m1, Bool.false_eq_true, if_false, true_and]
  rw [if_pos (hle1 _ _ (by omega))]
  unfold zoomLoop
  rw [z2]
  simp only [g2, c2 q2, m2, Bool.false_eq_true, if_false, true_and]
  rw [if_pos (hle1 _ _ ((hle _ _).trans (by omega)))]
  unfold zoomLoop
  rw [z3]
  simp only [g3, (p3 q3).1, Bool.false_eq_true, if_false, false_and]

/-- The call of the example run in the final step returns. -/
theorem exRun_final (exact : Bool) (opts : Opts) (ti : TrackedInterval 1 ℚ) (ho : opts.exact = exact)
    (hz : opts.maxZoomCount = 25) (hf : ti.finalStep = true) (he : ti.empty = false)
    (hI : ti.interval = ⟨fun _ => -1, fun _ => 1⟩) :
    ∃ b, solvePolyRecursive exEnv 9 opts (fun _ => lin1 0 1) ti (fun _ => 2) = .ok b := by
  have hp : ti.isPoint = false := by unfold TrackedInterval.isPoint; rw [hI]; decide +kernel
  have htr : trimMs (fun _ => lin1 0 1) (fun _ : Fin 1 => (2 : ℚ)) (1 / 10 ^ 3) 0 = (fun _ => lin1 0 1, fun _ => 2) := by
    unfold trimMs trimPoly
    simp only [List.finRange_succ, List.finRange_zero, List.map_nil, List.foldl_cons, List.foldl_nil]
    unfold trimAxis
    simp [lin1]
  have hcopy : ti.copy.finalStep = true ∧ ti.copy.empty = false ∧ ti.copy.interval = ⟨fun _ => -1, fun _ => 1⟩ := by
    unfold TrackedInterval.copy; simp [hf, he, hI]
  obtain ⟨r, hr, hre, hrs, hrf⟩ := exFinal (fun _ => 2) ti.copy exact 5 ti.copy.dimSize hcopy.1 hcopy.2.1 hcopy.2.2
  have hcc : constantCheck (fun _ => lin1 0 1) (fun _ : Fin 1 => (2 : ℚ)) = false := by decide +kernel
  have hq : ∀ o : Opts, quadraticDiscard exEnv o (fun _ => lin1 0 1) (fun _ : Fin 1 => (2 : ℚ)) = false := by
    intro o
    have : quadraticCheck 1 exLA (lin1 0 1) 2 = false := by decide +kernel
    simp [quadraticDiscard, exEnv, this]
  unfold solvePolyRecursive
  simp only [hp, hcc, hq, htr, Bool.false_eq_true, if_false, Bool.and_false, ho, hz]
  have hr' : zoomLoop exEnv.svd exact 25 8 (fun _ => lin1 0 1) (fun _ => 2) ti.copy ti.copy.dimSize 0 = .ok r := hr
  rw [hr']
  simp only [hre, hrs, hrf, Bool.false_eq_true, if_false, if_true, Bool.true_or]
  exact ⟨_, rfl⟩

/-- The example run returns one interval, the whole cube, in both variants. -/
theorem exRun_one (exact : Bool) : ∃ roots t,
    solveChebyshevSubdivision exEnv 10 (fun _ => lin1 0 1) (fun _ => 2) exact = .ok (roots, [t]) ∧
      t.getFinalInterval = Box.unit 1 ℚ := by
  obtain ⟨b, hb⟩ := exRun_final exact ⟨exact, true, true, false, 25, 1, true⟩ (TrackedInterval.new (Box.unit 1 ℚ)).copy.startFinalStep
    rfl rfl rfl rfl rfl
  have hp : (TrackedInterval.new (Box.unit 1 ℚ)).isPoint = false := by decide +kernel
  have hbd : let r := boundingIntervalLinearSystem exSvd (fun _ => lin1 0 1) (fun _ => 2) false
      r.changed = false ∧ r.shouldStop = true ∧ r.throwOut = false := by decide +kernel
  have hz : ∀ ls, zoomLoop exEnv.svd exact 25 9 (fun _ => lin1 0 1) (fun _ => 2)
      (TrackedInterval.new (Box.unit 1 ℚ)).copy ls 0 =
      .ok ⟨fun _ => lin1 0 1, fun _ => 2, (TrackedInterval.new (Box.unit 1 ℚ)).copy, false, true⟩ := by
    intro ls
    have h1 : zoomInOnIntervalIter exEnv.svd (fun _ => lin1 0 1) (fun _ => 2)
        (TrackedInterval.new (Box.unit 1 ℚ)).copy exact =
        .ok ⟨fun _ => lin1 0 1, fun _ => 2, (TrackedInterval.new (Box.unit 1 ℚ)).copy, false, true⟩ := by
      unfold zoomInOnIntervalIter
      have hf : (TrackedInterval.new (Box.unit 1 ℚ)).copy.finalStep = false := rfl
      have hs : exEnv.svd = exSvd := rfl
      simp only [hf, hs, hbd.1, hbd.2.1, hbd.2.2, Bool.false_and, Bool.or_false, Bool.false_eq_true, if_false,
        Bool.not_false, if_true]
    have he : (TrackedInterval.new (Box.unit 1 ℚ)).copy.empty = false := rfl
    unfold zoomLoop
    rw [h1]
    simp only [he, Bool.false_eq_true, if_false, false_and]
  have hcc : constantCheck (fun _ => lin1 0 1) (fun _ : Fin 1 => (2 : ℚ)) = false := by decide +kernel
  have hq : ∀ o : Opts, quadraticDiscard exEnv o (fun _ => lin1 0 1) (fun _ : Fin 1 => (2 : ℚ)) = false := by
    intro o
    have : quadraticCheck 1 exLA (lin1 0 1) 2 = false := by decide +kernel
    simp [quadraticDiscard, exEnv, this]
  have htr : trimMs (fun _ => lin1 0 1) (fun _ : Fin 1 => (2 : ℚ)) (1 / 10 ^ 3) 0 = (fun _ => lin1 0 1, fun _ => 2) := by
    unfold trimMs trimPoly
    simp only [List.finRange_succ, List.finRange_zero, List.map_nil, List.foldl_cons, List.foldl_nil]
    unfold trimAxis
    simp [lin1]
  have he : (TrackedInterval.new (Box.unit 1 ℚ)).copy.empty = false := rfl
  have hf : (TrackedInterval.new (Box.unit 1 ℚ)).copy.finalStep = false := rfl
  unfold solveChebyshevSubdivision solvePolyRecursive
  simp only [hp, hcc, hq, htr, Bool.false_eq_true, if_false, Bool.and_false, hz, he, hf, if_true, Bool.not_true, Bool.or_false]
  have hb' : solvePolyRecursive exEnv 9 ⟨exact, true, true, false, 25, 0 + 1, true⟩ (fun _ => lin1 0 1)
      (TrackedInterval.new (Box.unit 1 ℚ)).copy.startFinalStep (fun _ => 2) = .ok b := hb
  have hin : InFinalStep (TrackedInterval.new (Box.unit 1 ℚ)).copy.startFinalStep :=
    InFinalStep.of_start (Good.new (n := 1) (K := ℚ)).tracks (Good.new (n := 1) (K := ℚ)).mids rfl rfl rfl
  rcases C28_final_step exEnv 9 _ _ _ _ b hin hb with ⟨-, h⟩ | ⟨t, h1, -, h2⟩
  · exfalso
    rcases h with h | ⟨i, hi⟩
    · rw [hcc] at h; cases h.2
    · have : quadraticCheck 1 exLA (lin1 0 1) 2 = false := by decide +kernel
      rw [show exEnv.quadraticCheck = quadraticCheck 1 exLA from rfl, this] at hi
      cases hi
  · rw [hb']
    dsimp only
    rw [h1]
    exact ⟨_, t, rfl, h2⟩

/-- The example run returns, in both variants. -/
theorem exRun (exact : Bool) : ∃ roots boxes,
    solveChebyshevSubdivision exEnv 10 (fun _ => lin1 0 1) (fun _ => 2) exact = .ok (roots, boxes) := by
  obtain ⟨roots, t, h, -⟩ := exRun_one exact
  exact ⟨roots, [t], h⟩

/-- C01 and C02 apply to this run: the root `-1/2` of `x + 1/2`, which is within 2 of `M = x`, lies in a returned box. -/
example : ∃ roots boxes, solveChebyshevSubdivision exEnv 10 (fun _ => lin1 0 1) (fun _ => 2) true = .ok (roots, boxes) ∧
    ∃ t ∈ boxes, t.getFinalInterval.Mem (fun _ => -1 / 2) := by
  obtain ⟨roots, boxes, h⟩ := exRun true
  refine ⟨roots, boxes, h, C01_no_lost_root_partial exEnv exLA true true false (exEnv_ok _) 10 _ _ roots boxes ?_ h
    (fun _ x => x 0 + 1 / 2) ?_ _ ?_ ?_⟩
  · intro i j; simp [lin1]
  · intro i x hx
    rw [lin1_eval]; norm_num [abs_lt]
  · intro i; norm_num [abs_le]
  · intro i; norm_num

example : ∃ roots boxes, solveChebyshevSubdivision exEnv 10 (fun _ => lin1 0 1) (fun _ => 2) = .ok (roots, boxes) ∧
    ∃ t ∈ boxes, t.getFinalInterval.Mem (fun _ => -1 / 2) := by
  obtain ⟨roots, boxes, h⟩ := exRun false
  refine ⟨roots, boxes, h, C02_no_lost_root_default_partial exEnv exLA true true false (exEnv_ok _) 10 _ _ roots boxes ?_ h
    (fun _ x => x 0 + 1 / 2) ?_ _ ?_ ?_⟩
  · intro i j; simp [lin1]
  · intro i x hx
    rw [lin1_eval]; norm_num [abs_lt]
  · intro i; norm_num [abs_le]
  · intro i; norm_num

end YRoots
