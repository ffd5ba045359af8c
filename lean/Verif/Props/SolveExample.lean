import Verif.Props.NoLostRootExample
import Verif.Proofs.Solve

/-!
# Concrete runs of the solver in one variable, used as witnesses for C05 and C07
-/

set_option linter.unusedVariables false

namespace YRoots

theorem trimMs_small {n : ℕ} (Ms : Fin n → Tensor n ℚ) (e : Fin n → ℚ) (h : ∀ i j, (Ms i).shape j ≤ 3) (rel : ℚ) :
    trimMs Ms e rel 0 = (Ms, e) := by
  have key : ∀ (l : List (Fin n)) (s : TrimState n ℚ), (∀ j, s.M.shape j ≤ 3) → l.foldl (fun s d => trimAxis d s) s = s := by
    intro l
    induction l with
    | nil => intro s _; rfl
    | cons d l ih =>
      intro s hs
      rw [List.foldl_cons, trimAxis, dif_neg (fun h => by have := hs d; omega)]
      exact ih s hs
  unfold trimMs trimPoly
  refine Prod.ext (funext fun i => ?_) (funext fun i => ?_)
  · dsimp only; rw [key _ ⟨Ms i, _, e i⟩ (h i)]
  · dsimp only; rw [key _ ⟨Ms i, _, e i⟩ (h i)]

theorem lin1_absSum (c0 c1 : ℚ) : (lin1 c0 c1).absSum = |c0| + |c1| := by
  have hi : (lin1 c0 c1).idx = {fun _ => 0, fun _ => 1} := by
    have : (lin1 0 0).idx = {fun _ => 0, fun _ => 1} := by decide +kernel
    exact this
  unfold Tensor.absSum
  rw [hi, Finset.sum_pair (by intro h; exact absurd (congrFun h 0) (by norm_num))]
  simp [lin1]

theorem transformCheb_lin1_err (c0 c1 : ℚ) (α β : Fin 1 → ℚ) (e : ℚ) (exact : Bool) :
    (transformCheb (lin1 c0 c1) α β e exact).2 = e + 2 * (1 / 2 ^ 52) * (|c0| + |c1|) := by
  unfold transformCheb
  simp only [List.finRange_succ, List.finRange_zero, List.map_nil, List.foldl_cons, List.foldl_nil]
  unfold getTransformationError macheps
  rw [lin1_absSum]
  norm_num [lin1]

/-- One zoom on a linear polynomial, given what the bounding step returned. -/
theorem exStep (c0 c1 l h : ℚ) (e : Fin 1 → ℚ) (ti : TrackedInterval 1 ℚ) (exact : Bool) (s : Bool)
    (hb : let r := boundingIntervalLinearSystem exSvd (fun _ => lin1 c0 c1) e ti.finalStep
      r.interval.lo 0 = l ∧ r.interval.hi 0 = h ∧ r.changed = true ∧ r.shouldStop = s ∧ r.throwOut = false)
    (h1 : -1 < l) (h2 : l < h) (h3 : h < 1) (hI : ti.interval.lo 0 ≠ ti.interval.hi 0) :
    ∃ r, zoomInOnIntervalIter exSvd (fun _ => lin1 c0 c1) e ti exact = .ok r ∧
      r.Ms = (fun _ => lin1 (c0 + (h + l) / 2 * c1) ((h - l) / 2 * c1)) ∧
      r.errors = (fun _ => e 0 + 2 * (1 / 2 ^ 52) * (|c0| + |c1|)) ∧
      r.ti = ti.applySub ⟨fun _ => l, fun _ => h⟩ ∧
      (ti.finalStep = true ∧ r.ti.isPoint = true → r.changed = false ∧ r.shouldStop = true) ∧
      (¬ (ti.finalStep = true ∧ r.ti.isPoint = true) → r.changed = true ∧ r.shouldStop = s) := by
  set b := boundingIntervalLinearSystem exSvd (fun _ => lin1 c0 c1) e ti.finalStep with hbdef
  obtain ⟨b1, b2, b3, b4, b5⟩ := hb
  have hsk : skipPointDims ti.interval b.interval = ⟨fun _ => l, fun _ => h⟩ := by
    unfold skipPointDims
    congr 1 <;> funext i <;> rw [Subsingleton.elim i 0]
    · rw [if_neg hI, b1]
    · rw [if_neg hI, b2]
  have hadd : ti.addTransform ⟨fun _ => l, fun _ => h⟩ = ti.applySub ⟨fun _ => l, fun _ => h⟩ := by
    unfold TrackedInterval.addTransform
    have : ¬ ∃ i : Fin 1, l > h := by rintro ⟨_, h⟩; linarith
    rw [if_neg (fun h => this h.1), if_neg this]
  have hlast : (ti.applySub ⟨fun _ => l, fun _ => h⟩).getLastTransform =
      some (fun i : Fin 1 => (h - l) / 2, fun i => (h + l) / 2) := by
    simp [TrackedInterval.applySub, TrackedInterval.getLastTransform]
  have hMs : (transformChebToInterval (fun _ => lin1 c0 c1) (fun i : Fin 1 => (h - l) / 2)
      (fun i => (h + l) / 2) e exact).1 = fun _ => lin1 (c0 + (h + l) / 2 * c1) ((h - l) / 2 * c1) := by
    funext i
    simp only [transformChebToInterval, transformCheb_lin1]
  have hEs : (transformChebToInterval (fun _ => lin1 c0 c1) (fun i : Fin 1 => (h - l) / 2)
      (fun i => (h + l) / 2) e exact).2 = fun _ => e 0 + 2 * (1 / 2 ^ 52) * (|c0| + |c1|) := by
    funext i
    simp only [transformChebToInterval, transformCheb_lin1_err]
    rw [Subsingleton.elim i 0]
  unfold zoomInOnIntervalIter
  simp only [← hbdef, hsk, hadd, b3, b4, b5, hlast, Bool.false_and, Bool.or_false, Bool.not_true,
    Bool.false_eq_true, if_false]
  have hfs : (ti.applySub ⟨fun _ => l, fun _ => h⟩).finalStep = ti.finalStep := rfl
  split_ifs with hp
  · rw [Bool.and_eq_true, hfs] at hp
    exact ⟨_, rfl, hMs, hEs, rfl, fun _ => ⟨rfl, rfl⟩, fun h => absurd hp h⟩
  · rw [Bool.and_eq_true, hfs] at hp
    exact ⟨_, rfl, hMs, hEs, rfl, fun h => absurd h hp, fun _ => ⟨rfl, rfl⟩⟩

/-- The new bounds after one zoom. -/
theorem applySub_one (ti : TrackedInterval 1 ℚ) (l h : ℚ) (h1 : -1 < l) (h2 : l < h) (h3 : h < 1) :
    (ti.applySub ⟨fun _ => l, fun _ => h⟩).interval =
      ⟨fun i => (ti.interval.hi i - ti.interval.lo i) / 2 * l + (ti.interval.hi i + ti.interval.lo i) / 2,
       fun i => (ti.interval.hi i - ti.interval.lo i) / 2 * h + (ti.interval.hi i + ti.interval.lo i) / 2⟩ := by
  unfold TrackedInterval.applySub TrackedInterval.stepBounds
  ext i
  · simp only [h1.ne', (h2.trans h3).ne, if_false]
  · simp only [(h1.trans h2).ne', h3.ne, if_false]

/-- A zoom that changes nothing. -/
theorem exStay (c0 c1 : ℚ) (e : Fin 1 → ℚ) (ti : TrackedInterval 1 ℚ) (exact : Bool) (s : Bool)
    (hb : let r := boundingIntervalLinearSystem exSvd (fun _ => lin1 c0 c1) e ti.finalStep
      r.changed = false ∧ r.shouldStop = s ∧ r.throwOut = false) :
    zoomInOnIntervalIter exSvd (fun _ => lin1 c0 c1) e ti exact = .ok ⟨fun _ => lin1 c0 c1, e, ti, false, s⟩ := by
  obtain ⟨b3, b4, b5⟩ := hb
  unfold zoomInOnIntervalIter
  simp only [b3, b4, b5, Bool.false_and, Bool.or_false, Bool.not_false, if_true, Bool.false_eq_true, if_false]

/-- A call in the final step on `c T_1` with interval of half-width below `2^-50·1e-32·2^102` and checks that do not
discard returns one interval, with the box from before the final step. -/
theorem exFinalCall (c : ℚ) (e : Fin 1 → ℚ) (ti : TrackedInterval 1 ℚ) (opts : Opts) (p w : ℚ) (fuel : ℕ)
    (hmz : opts.maxZoomCount = 25)
    (hin : InFinalStep ti) (hI : ti.interval = ⟨fun _ => p - w, fun _ => p + w⟩) (hw : 0 < w)
    (hp0 : ¬ |(p - w) - (p + w)| < 1 / 10 ^ 32)
    (hp1 : ¬ |(p - w / 2 ^ 51) - (p + w / 2 ^ 51)| < 1 / 10 ^ 32)
    (hp2 : |(p - w / 2 ^ 51 / 2 ^ 51) - (p + w / 2 ^ 51 / 2 ^ 51)| < 1 / 10 ^ 32)
    (hr : ∀ c' ∈ [c, c / 2 ^ 51], let r := boundingIntervalLinearSystem exSvd (fun _ => lin1 0 c') (fun _ => 0) true
      r.interval.lo 0 = -(1 / 2 ^ 51) ∧ r.interval.hi 0 = 1 / 2 ^ 51 ∧ r.changed = true ∧ r.shouldStop = false ∧
        r.throwOut = false)
    (hcc : constantCheck (fun _ => lin1 0 c) e = false)
    (hq : quadraticCheck 1 exLA (lin1 0 c) (e 0) = false) :
    ∃ b t, solvePolyRecursive exEnv (fuel + 3) opts (fun _ => lin1 0 c) ti e = .ok b ∧ b.1 ++ b.2 = [t] ∧
      t.getFinalInterval = ti.preFinalInterval := by
  have hsome : ∃ b, solvePolyRecursive exEnv (fuel + 3) opts (fun _ => lin1 0 c) ti e = .ok b := by
    have hf := hin.final
    have he := hin.nonempty
    have hfin : ∀ (c' : ℚ) (e' : Fin 1 → ℚ), boundingIntervalLinearSystem exSvd (fun _ => lin1 0 c') e' true =
        boundingIntervalLinearSystem exSvd (fun _ => lin1 0 c') (fun _ => 0) true := fun c' e' => rfl
    have hpt : ∀ (u : TrackedInterval 1 ℚ) (q v : ℚ), u.interval = ⟨fun _ => q - v, fun _ => q + v⟩ →
        (u.isPoint = true ↔ |(q - v) - (q + v)| < 1 / 10 ^ 32) := by
      intro u q v hu
      unfold TrackedInterval.isPoint
      rw [hu, decide_eq_true_eq]
      exact ⟨fun h => h 0, fun h _ => h⟩
    have hcopy : ti.copy.finalStep = true ∧ ti.copy.empty = false ∧ ti.copy.interval = ⟨fun _ => p - w, fun _ => p + w⟩ := by
      unfold TrackedInterval.copy; simp [hf, he, hI]
    obtain ⟨r1, z1, m1, e1, t1, p1, c1⟩ := exStep 0 c (-(1 / 2 ^ 51)) (1 / 2 ^ 51) e ti.copy opts.exact false
      (by rw [hcopy.1, hfin]; exact hr c (by simp)) (by norm_num) (by norm_num) (by norm_num)
      (by rw [hcopy.2.2]; dsimp only; intro h; linarith)
    have m1' : r1.Ms = fun _ => lin1 0 (c / 2 ^ 51) := by
      rw [m1]; funext i; congr 1 <;> ring
    have i1 : r1.ti.interval = ⟨fun _ => p - w / 2 ^ 51, fun _ => p + w / 2 ^ 51⟩ := by
      rw [t1, applySub_one _ _ _ (by norm_num) (by norm_num) (by norm_num), hcopy.2.2]
      ext i <;> dsimp only <;> ring
    have f1 : r1.ti.finalStep = true := by rw [t1]; exact hcopy.1
    have g1 : r1.ti.empty = false := by rw [t1]; exact hcopy.2.1
    have q1 : r1.ti.isPoint ≠ true := by rw [ne_eq, hpt _ _ _ i1]; exact hp1
    obtain ⟨r2, z2, m2, e2, t2, p2, c2⟩ := exStep 0 (c / 2 ^ 51) (-(1 / 2 ^ 51)) (1 / 2 ^ 51) r1.errors r1.ti opts.exact false
      (by rw [f1, hfin]; exact hr (c / 2 ^ 51) (by simp)) (by norm_num) (by norm_num) (by norm_num)
      (by rw [i1]; dsimp only; intro h; have : (0 : ℚ) < w / 2 ^ 51 := by positivity
          linarith)
    have i2 : r2.ti.interval = ⟨fun _ => p - w / 2 ^ 51 / 2 ^ 51, fun _ => p + w / 2 ^ 51 / 2 ^ 51⟩ := by
      rw [t2, applySub_one _ _ _ (by norm_num) (by norm_num) (by norm_num), i1]
      ext i <;> dsimp only <;> ring
    have f2 : r2.ti.finalStep = true := by rw [t2]; exact f1
    have g2 : r2.ti.empty = false := by rw [t2]; exact g1
    have q2 : r2.ti.isPoint = true := by rw [hpt _ _ _ i2]; exact hp2
    have hc1 := c1 (fun h => q1 h.2)
    have hc2 := p2 ⟨f1, q2⟩
    have hz : ∀ ls, zoomLoop exEnv.svd opts.exact 25 (fuel + 2) (fun _ => lin1 0 c) e ti.copy ls 0 = .ok r2 := by
      intro ls
      change zoomLoop exSvd opts.exact 25 (fuel + 2) (fun _ => lin1 0 c) e ti.copy ls 0 = .ok r2
      have hle : ∀ (p : Prop) [Decidable p], (if p then 0 + 1 else 0) ≤ 25 := by
        intro p _; split_ifs <;> omega
      unfold zoomLoop
      rw [z1]
      simp only [g1, hc1.1, m1', Bool.false_eq_true, if_false, true_and]
      rw [if_pos (hle _)]
      unfold zoomLoop
      rw [z2]
      simp only [g2, hc2.1, Bool.false_eq_true, if_false, false_and]
    have hqq : ∀ o : Opts, quadraticDiscard exEnv o (fun _ => lin1 0 c) e = false := by
      intro o
      unfold quadraticDiscard
      rw [Bool.and_eq_false_iff]; right
      rw [decide_eq_false_iff_not]
      rintro ⟨i, hi⟩
      rw [Subsingleton.elim i 0] at hi
      rw [show exEnv.quadraticCheck = quadraticCheck 1 exLA from rfl, hq] at hi
      cases hi
    have hp : ti.isPoint = false := by
      rw [← Bool.not_eq_true, hpt _ _ _ hI]; exact hp0
    unfold solvePolyRecursive
    simp only [hp, hcc, hqq, Bool.false_eq_true, if_false, Bool.and_false,
      trimMs_small (fun _ => lin1 0 c) e (fun _ _ => by simp [lin1]), hmz, hz, g2, hc2.2, f2, if_true, Bool.true_or]
    exact ⟨_, rfl⟩
  obtain ⟨b, hb⟩ := hsome
  rcases C28_final_step exEnv (fuel + 3) opts _ ti e b hin hb with ⟨-, h⟩ | ⟨t, h1, -, h2⟩
  · exfalso
    rcases h with h | ⟨i, hi⟩
    · rw [hcc] at h; cases h.2
    · rw [Subsingleton.elim i 0, show exEnv.quadraticCheck = quadraticCheck 1 exLA from rfl, hq] at hi
      cases hi
  · exact ⟨b, t, hb, h1, h2⟩

/-- Half-width of the box found for `2^-31 (x - 1/2)` with error `2^-52`. -/
def exD : ℚ := 1 / 2 ^ 21 + 1 / 2 ^ 51

/-- The run on `2^-31 (x - 1/2)` with error `2^-52` returns one box around `1/2`. -/
theorem exHalf (exact : Bool) : ∃ roots t,
    solveChebyshevSubdivision exEnv 10 (fun _ => lin1 (-1 / 2 ^ 32) (1 / 2 ^ 31)) (fun _ => 1 / 2 ^ 52) exact = .ok (roots, [t]) ∧
      t.getFinalInterval = ⟨fun _ => 1 / 2 - exD, fun _ => 1 / 2 + exD⟩ := by
  set t0 : TrackedInterval 1 ℚ := (TrackedInterval.new (Box.unit 1 ℚ)).copy with ht0
  have hf0 : t0.finalStep = false := rfl
  have hI0 : t0.interval = ⟨fun _ => -1, fun _ => 1⟩ := rfl
  obtain ⟨r1, z1, m1, e1, t1, -, c1⟩ := exStep (-1 / 2 ^ 32) (1 / 2 ^ 31) (1 / 2 - exD) (1 / 2 + exD) (fun _ => 1 / 2 ^ 52) t0
    exact false (by rw [hf0]; decide +kernel) (by norm_num [exD]) (by norm_num [exD]) (by norm_num [exD])
    (by rw [hI0]; norm_num)
  have m1' : r1.Ms = fun _ => lin1 0 (exD / 2 ^ 31) := by
    rw [m1]; funext i; congr 1 <;> norm_num [exD]
  have e1' : r1.errors = fun _ => 1 / 2 ^ 52 + 3 / 2 ^ 83 := by
    rw [e1]; funext i; norm_num [abs_of_pos, abs_of_neg]
  have hc1 := c1 (fun h => by rw [hf0] at h; cases h.1)
  have f1 : r1.ti.finalStep = false := by rw [t1]; rfl
  have g1 : r1.ti.empty = false := by rw [t1]; rfl
  have i1 : r1.ti.interval = ⟨fun _ => 1 / 2 - exD, fun _ => 1 / 2 + exD⟩ := by
    rw [t1, applySub_one _ _ _ (by norm_num [exD]) (by norm_num [exD]) (by norm_num [exD]), hI0]
    ext i <;> dsimp only <;> ring
  have z2 := exStay 0 (exD / 2 ^ 31) (fun _ => 1 / 2 ^ 52 + 3 / 2 ^ 83) r1.ti exact true (by rw [f1]; decide +kernel)
  have hz : ∀ ls, zoomLoop exEnv.svd exact 25 9 (fun _ => lin1 (-1 / 2 ^ 32) (1 / 2 ^ 31)) (fun _ => 1 / 2 ^ 52) t0 ls 0 =
      .ok ⟨fun _ => lin1 0 (exD / 2 ^ 31), fun _ => 1 / 2 ^ 52 + 3 / 2 ^ 83, r1.ti, false, true⟩ := by
    intro ls
    change zoomLoop exSvd exact 25 9 (fun _ => lin1 (-1 / 2 ^ 32) (1 / 2 ^ 31)) (fun _ => 1 / 2 ^ 52) t0 ls 0 = _
    have hle : ∀ (p : Prop) [Decidable p], (if p then 0 + 1 else 0) ≤ 25 := by
      intro p _; split_ifs <;> omega
    unfold zoomLoop
    rw [z1]
    simp only [g1, hc1.1, m1', e1', Bool.false_eq_true, if_false, true_and]
    rw [if_pos (hle _)]
    unfold zoomLoop
    rw [z2]
    simp only [g1, Bool.false_eq_true, if_false, false_and]
  have htr : Tracks (Box.unit 1 ℚ) r1.ti := by
    have h1 : Tracks (Box.unit 1 ℚ) t0 := (Good.new (n := 1) (K := ℚ)).tracks
    have h2 := h1.step (.add ⟨fun _ => 1 / 2 - exD, fun _ => 1 / 2 + exD⟩)
      (fun i => by constructor <;> norm_num [Box.unit, exD])
    have h3 : t0.addTransform ⟨fun _ => 1 / 2 - exD, fun _ => 1 / 2 + exD⟩ =
        t0.applySub ⟨fun _ => 1 / 2 - exD, fun _ => 1 / 2 + exD⟩ := by
      unfold TrackedInterval.addTransform
      have : ¬ ∃ i : Fin 1, (1 / 2 - exD : ℚ) > 1 / 2 + exD := by rintro ⟨_, h⟩; norm_num [exD] at h
      rw [if_neg (fun h => this h.1), if_neg this]
    rw [t1, ← h3]; exact h2
  have hmid : InCube r1.ti.nextTransformPoints := by
    rw [t1]; exact (Good.new (n := 1) (K := ℚ)).mids
  have hin : InFinalStep r1.ti.startFinalStep := by
    refine InFinalStep.of_start htr hmid ?_ g1 ?_
    · rw [t1]; rfl
    · rw [t1]; rfl
  obtain ⟨b, t, hb, hbt, htf⟩ := exFinalCall (exD / 2 ^ 31) (fun _ => 1 / 2 ^ 52 + 3 / 2 ^ 83) r1.ti.startFinalStep
    ⟨exact, true, true, false, 25, 0 + 1, true⟩ (1 / 2) exD 6 rfl hin i1 (by norm_num [exD])
    (by norm_num [exD, abs_of_neg]) (by norm_num [exD, abs_of_neg]) (by norm_num [exD, abs_of_neg])
    (by decide +kernel) (by decide +kernel) (by decide +kernel)
  have hcc : constantCheck (fun _ => lin1 (-1 / 2 ^ 32) (1 / 2 ^ 31)) (fun _ : Fin 1 => (1 / 2 ^ 52 : ℚ)) = false := by decide +kernel
  have hq : ∀ o : Opts, quadraticDiscard exEnv o (fun _ => lin1 (-1 / 2 ^ 32) (1 / 2 ^ 31)) (fun _ : Fin 1 => (1 / 2 ^ 52 : ℚ)) = false := by
    intro o
    have : quadraticCheck 1 exLA (lin1 (-1 / 2 ^ 32) (1 / 2 ^ 31)) (1 / 2 ^ 52) = false := by decide +kernel
    unfold quadraticDiscard
    rw [Bool.and_eq_false_iff]; right
    rw [decide_eq_false_iff_not]
    rintro ⟨i, hi⟩
    rw [show exEnv.quadraticCheck = quadraticCheck 1 exLA from rfl, this] at hi
    cases hi
  have hp : (TrackedInterval.new (Box.unit 1 ℚ)).isPoint = false := by decide +kernel
  unfold solveChebyshevSubdivision solvePolyRecursive
  simp only [hp, hcc, hq, trimMs_small (fun _ => lin1 (-1 / 2 ^ 32) (1 / 2 ^ 31)) (fun _ : Fin 1 => (1 / 2 ^ 52 : ℚ)) (fun _ _ => by simp [lin1]),
    Bool.false_eq_true, if_false, Bool.and_false, ← ht0, hz, g1, f1, if_true, Bool.not_true, Bool.or_false]
  have hb' : solvePolyRecursive exEnv 9 ⟨exact, true, true, false, 25, 0 + 1, true⟩ (fun _ => lin1 0 (exD / 2 ^ 31))
      r1.ti.startFinalStep (fun _ => 1 / 2 ^ 52 + 3 / 2 ^ 83) = .ok b := hb
  rw [hb']
  dsimp only
  rw [hbt]
  exact ⟨_, t, rfl, htf.trans i1⟩

end YRoots
