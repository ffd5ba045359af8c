import Verif.Proofs.LostRoot
import Verif.Proofs.SVDExists
import Verif.Props.NoLostRoot
import Verif.Props.Solve
import Verif.Props.Zoom

/-!
# Negations of C02, C03, C14 for long axes: the default solver loses a root

The system is `T_100(x) - 1 + 2^-52 T_3(y) = 0`, `s (x - 1) = 0` with `s = 2^-52 / (2/10^10 - 2^-51)`, as arrays with 101×4
and 2×1 entries.  `(1, 0)` is a root of it (a simple one: the derivatives `T_100'(1) = 10^4` and `T_3'(0) = -3` make the
Jacobian non-singular).  The first zoom goes to `x ∈ [1 - 2/10^10, 1]`; the transformation to that box drops all rows above
the linear one, which changes the first polynomial by more than the error that is added, and the second bounding step then
discards the box.  Everything is in exact arithmetic.
-/

set_option linter.unusedVariables false

namespace YRoots

/-- **C02 is false** of the code: there are two polynomials, taken as their own approximations with the errors that `solve`
gives polynomial objects, with a common root in the cube, such that the default subdivision solver returns no box at all,
whatever the (valid) singular value decomposition, the other external functions, the fuel and the check flags. -/
theorem C02_no_lost_root_default_false : ∃ (Ms : Fin 2 → Tensor 2 ℝ) (errors : Fin 2 → ℝ) (y : Fin 2 → ℝ),
    (∀ i j, 0 < (Ms i).shape j ∧ (Ms i).shape j ≤ 101) ∧ (∀ i, errors i = 1 / 2 ^ 52) ∧
    InCube y ∧ (∀ i, (Ms i).eval y = 0) ∧
    ∀ (env : Env 2 ℝ), env.svd.Valid → ∀ fuel constant_check low all,
      solveChebyshevSubdivision env (fuel + 3) Ms errors false constant_check low all = .ok ([], []) := by
  refine ⟨lrMs, lrErr, ![1, 0], ?_, fun i => rfl, ?_, lrMs_zero, ?_⟩
  · intro i j
    refine ⟨lrMs_nonempty i j, ?_⟩
    fin_cases i <;> fin_cases j <;> simp [lrMs, lrM0, lrM1]
  · intro i
    fin_cases i <;> simp
  · intro env hv fuel cc low all
    unfold solveChebyshevSubdivision
    simp only
    rw [lr_solve env hv ⟨false, cc, low, all, 25, 0, true⟩ rfl fuel]
    rfl

/-- The environments that the theorem speaks about include those of C02 (a valid decomposition exists for every size). -/
example : ∃ (env : Env 2 ℝ) (la : LinAlg 2 ℝ), env.OK la false := by
  obtain ⟨svd, hv⟩ := SVD.exists_valid 2
  refine ⟨⟨svd, fun l => List.range l.length, fun s => s.sort (· ≤ ·), quadraticCheck 2 ⟨fun _ _ => true, fun _ _ b => b⟩⟩,
    ⟨fun _ _ => true, fun _ _ b => b⟩, hv, fun l => List.Perm.refl _, fun s => ⟨Finset.sortedLT_sort s |>.pairwise, fun d => Finset.mem_sort _⟩,
    rfl, fun S _ h => ?_⟩
  rcases h with h | h
  · omega
  · cases h

/-- The polynomials themselves: values and the root. -/
example : (∀ x, (lrMs 0).eval x = chebT 100 (x 0) - 1 + 1 / 2 ^ 52 * chebT 3 (x 1)) ∧
    (∀ x, (lrMs 1).eval x = 1 / 2 ^ 52 / (2 / 10 ^ 10 - 1 / 2 ^ 51) * (x 0 - 1)) :=
  ⟨fun x => by rw [lrMs_fst, lrM0_eval], fun x => by rw [lrMs_snd, lrM1_eval]; rfl⟩

/-- **C14 is false** for the default transformation and long axes: after one zoom the new series are no longer within the
new errors of the functions. -/
theorem C14_zoom_default_false : ∃ (F : Fin 2 → (Fin 2 → ℝ) → ℝ) (Ms : Fin 2 → Tensor 2 ℝ) (errors : Fin 2 → ℝ)
    (ti : TrackedInterval 2 ℝ), (∀ i j, 0 < (Ms i).shape j ∧ (Ms i).shape j ≤ 101) ∧ StrictApprox F Ms errors ti.interval ∧
    ti.interval.Ordered ∧ ti.finalStep = false ∧ ti.empty = false ∧
    ∀ svd : SVD 2 ℝ, svd.Valid → ∃ r, zoomInOnIntervalIter svd Ms errors ti false = .ok r ∧ r.ti.empty = false ∧
      ¬ StrictApprox F r.Ms r.errors r.ti.interval := by
  refine ⟨fun i => (lrMs i).eval, lrMs, lrErr, TrackedInterval.new (Box.unit 2 ℝ), ?_, ?_, ?_, rfl, rfl, ?_⟩
  · intro i j
    refine ⟨lrMs_nonempty i j, ?_⟩
    fin_cases i <;> fin_cases j <;> simp [lrMs, lrM0, lrM1]
  · intro i x _
    rw [show (TrackedInterval.new (Box.unit 2 ℝ)).interval = Box.unit 2 ℝ from rfl, TrackedInterval.unit_map]
    simp only [sub_self, abs_zero]
    unfold lrErr
    positivity
  · intro i
    show (-1 : ℝ) ≤ 1
    norm_num
  · intro svd hv
    refine ⟨_, lr_zoom1 hv, rfl, fun h => ?_⟩
    have hc : InCube (![1, 0] : Fin 2 → ℝ) := by
      intro i
      fin_cases i <;> simp
    have h0 := h 0 ![1, 0] hc
    have hm : lrTi.interval.map ![1, 0] = ![1, 0] := by
      funext i
      fin_cases i
      · norm_num [lrTi, TrackedInterval.applySub, TrackedInterval.stepBounds, lrBox, TrackedInterval.new, Box.unit, Box.map]
      · norm_num [lrTi, TrackedInterval.applySub, TrackedInterval.stepBounds, lrBox, TrackedInterval.new, Box.unit, Box.map]
    obtain ⟨p, q, h1, -, -, -, -, -, -, -, h9, h10⟩ := lrNew_data
    have h3 : chebT 3 (0 : ℝ) = 0 := by rw [show 3 = 1 + 2 from rfl, chebT_add_two]; simp
    simp only [hm, lrMs_zero 0, h10, Matrix.cons_val_zero, Matrix.cons_val_one, h3, mul_one, mul_zero, add_zero, zero_sub] at h0
    have := (abs_lt.1 h0).2
    have h11 : (216 : ℝ) / 2 ^ 52 < 300 / 2 ^ 52 := by norm_num
    linarith

/-- **C03 is false** for the default transformation: `solve` on `[-1,1]^2` with two Chebyshev polynomial objects that have a
common root there returns no root and no box, for every approximator (it is not called) and every minimal box size. -/
theorem C03_solve_default_false : ∃ (M₁ M₂ : Tensor 2 ℝ) (y : Fin 2 → ℝ), (∀ j, 0 < M₁.shape j) ∧ (∀ j, 0 < M₂.shape j) ∧
    (Box.mk (fun _ => -1) (fun _ => 1)).Mem y ∧ M₁.eval y = 0 ∧ M₂.eval y = 0 ∧
    ∀ (env : Env 2 ℝ), env.svd.Valid → ∀ (approx : Approximator 2 ℝ) (minSize : ℝ) (fuel : ℕ),
      solve env approx ![.cheb M₁, .cheb M₂] false minSize (fuel + 4) (fun _ => -1) (fun _ => 1) = .ok ([], []) ∧
      StrictApproximations 101 env approx ![.cheb M₁, .cheb M₂] false minSize (fuel + 4) (fun _ => -1) (fun _ => 1) := by
  refine ⟨lrMs 0, lrMs 1, ![1, 0], lrMs_nonempty 0, lrMs_nonempty 1, ?_, lrMs_zero 0, lrMs_zero 1, ?_⟩
  · intro i
    fin_cases i <;> simp
  intro env hv approx minSize fuel
  have hu : unitBox (fun _ => -1 : Fin 2 → ℝ) (fun _ => 1) = true := by
    have h1 : closeTo (-1 : ℝ) (-1) := by unfold closeTo; norm_num
    have h2 : closeTo (1 : ℝ) 1 := by unfold closeTo; norm_num
    simp [unitBox, h1, h2]
  have hf : (![.cheb (lrMs 0), .cheb (lrMs 1)] : Fin 2 → Func 2 ℝ) = fun i => .cheb (lrMs i) := by
    funext i
    fin_cases i <;> rfl
  rw [hf]
  have hap : ∀ i : Fin 2, approxOne approx (.cheb (lrMs i)) (fun _ => -1) (fun _ => 1) = .ok (lrMs i, 1 / 2 ^ 52) := by
    intro i
    unfold approxOne
    rw [hu]
  have hsub : solveChebyshevSubdivision env (fuel + 3) lrMs lrErr false true true false = .ok ([], []) := by
    unfold solveChebyshevSubdivision
    simp only
    rw [lr_solve env hv ⟨false, true, true, false, 25, 0, true⟩ rfl fuel]
    rfl
  constructor
  · have hord : ¬ ∃ i : Fin 2, (1 : ℝ) < -1 := by
      rintro ⟨-, h⟩
      norm_num at h
    have hps : ((List.finRange 2).mapM fun i => approxOne approx (.cheb (lrMs i)) (fun _ => -1) (fun _ => 1))
        = .ok [(lrMs 0, 1 / 2 ^ 52), (lrMs 1, 1 / 2 ^ 52)] := by
      simp only [List.finRange_succ, List.finRange_zero, List.map_nil, List.map_cons, List.mapM_cons, List.mapM_nil, hap]
      rfl
    rw [show fuel + 4 = (fuel + 3) + 1 from rfl, solve]
    rw [if_neg hord]
    simp only [hps]
    have e1 : (fun i : Fin 2 => (([(lrMs 0, 1 / 2 ^ 52), (lrMs 1, 1 / 2 ^ 52)] : List (Tensor 2 ℝ × ℝ)).getD i
        (⟨fun _ => 0, fun _ => 0⟩, 0)).1) = lrMs := by
      funext i
      fin_cases i <;> rfl
    have e2 : (fun i : Fin 2 => (([(lrMs 0, 1 / 2 ^ 52), (lrMs 1, 1 / 2 ^ 52)] : List (Tensor 2 ℝ × ℝ)).getD i
        (⟨fun _ => 0, fun _ => 0⟩, 0)).2) = lrErr := by
      funext i
      fin_cases i <;> rfl
    rw [e1, e2, hsub]
    rfl
  · intro a' b' hvis i M e hM
    have key : a' = (fun _ => -1) ∧ b' = fun _ => 1 := by
      have hall : ∀ (polys : Fin 2 → Tensor 2 ℝ) (errs : Fin 2 → ℝ),
          (∀ i, approxOne approx (.cheb (lrMs i)) (fun _ => -1) (fun _ => 1) = .ok (polys i, errs i)) → polys = lrMs ∧ errs = lrErr := by
        intro polys errs h
        have h2 : ∀ i, (lrMs i, (1 : ℝ) / 2 ^ 52) = (polys i, errs i) := fun i => by
          have := h i
          rw [hap] at this
          exact Except.ok.inj this
        exact ⟨funext fun i => (congrArg Prod.fst (h2 i)).symm, funext fun i => (congrArg Prod.snd (h2 i)).symm⟩
      cases hvis with
      | self => exact ⟨rfl, rfl⟩
      | split _ _ _ _ _ polys errs roots bxs val hap' hs hw _ =>
        obtain ⟨rfl, rfl⟩ := hall polys errs hap'
        rw [hsub] at hs
        cases hs
        cases hw
      | resolve _ _ _ _ _ polys errs roots bxs t hap' hs hw ht _ _ =>
        obtain ⟨rfl, rfl⟩ := hall polys errs hap'
        rw [hsub] at hs
        cases hs
        cases ht
    obtain ⟨rfl, rfl⟩ := key
    rw [hap] at hM
    cases hM
    refine ⟨fun j => ⟨lrMs_nonempty i j, ?_⟩, fun x _ => ?_⟩
    · fin_cases i <;> fin_cases j <;> simp [lrMs, lrM0, lrM1]
    · have hm : (Box.mk (fun _ => -1) (fun _ => 1) : Box 2 ℝ).map x = x := TrackedInterval.unit_map x
      rw [hm]
      simp only [Func.value, sub_self, abs_zero]
      positivity

end YRoots
