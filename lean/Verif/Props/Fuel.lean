import Verif.Model.Solver
import Verif.Model.Solve

/-!
# The fuel of the model does not matter

Loops and recursion of unknown depth carry fuel in the model, and running out of it is the value `Exc.outOfFuel`, which no
Python code returns.  Any other outcome, a result or an exception, is the outcome for every larger amount of fuel, so a
statement about runs that return is a statement about the program.
-/

set_option linter.unusedSectionVars false
set_option linter.unusedVariables false

namespace YRoots

/-- The outcome is not an artefact of the model. -/
def Except.Real {A : Type*} (r : Except Exc A) : Prop := r ≠ .error .outOfFuel

theorem mapM_real {A B : Type*} {f g : A → Except Exc B} (l : List A)
    (h : ∀ a ∈ l, Except.Real (f a) → g a = f a) (hr : Except.Real (l.mapM f)) : l.mapM g = l.mapM f := by
  induction l with
  | nil => rfl
  | cons a l ih =>
    rw [List.mapM_cons] at hr
    rw [List.mapM_cons, List.mapM_cons]
    have ha := h a List.mem_cons_self
    cases hfa : f a with
    | error e =>
      rw [hfa] at hr ha
      rw [ha (fun h0 => hr (by cases h0; rfl))]
      rfl
    | ok b =>
      rw [hfa] at hr ha
      rw [ha (fun h0 => by cases h0)]
      have hl : Except.Real (l.mapM f) := by
        intro h0
        rw [h0] at hr
        exact hr rfl
      rw [ih (fun a ha => h a (List.mem_cons_of_mem _ ha)) hl]

variable {n : ℕ} {K : Type*} [Field K] [LinearOrder K] [FloorSemiring K]

theorem zoomLoop_fuel (svd : SVD n K) (exact : Bool) (maxZoomCount fuel k : ℕ) (Ms : Fin n → Tensor n K)
    (errors : Fin n → K) (ti : TrackedInterval n K) (ls : Fin n → K) (c : ℕ)
    (h : Except.Real (zoomLoop svd exact maxZoomCount fuel Ms errors ti ls c)) :
    zoomLoop svd exact maxZoomCount (fuel + k) Ms errors ti ls c
      = zoomLoop svd exact maxZoomCount fuel Ms errors ti ls c := by
  induction fuel generalizing Ms errors ti ls c with
  | zero => exact absurd rfl h
  | succ fuel ih =>
    rw [show fuel + 1 + k = fuel + k + 1 by omega]
    unfold zoomLoop at h ⊢
    cases hz : zoomInOnIntervalIter svd Ms errors ti exact with
    | error e => rfl
    | ok r =>
      rw [hz] at h
      simp only at h ⊢
      by_cases h1 : r.ti.empty = true
      · simp only [if_pos h1]
      · simp only [if_neg h1] at h ⊢
        generalize hc : (if ∀ i, r.ti.dimSize i ≥ ls i / 2 then c + 1 else c) = c' at h ⊢
        by_cases h2 : r.changed = true ∧ c' ≤ maxZoomCount
        · simp only [if_pos h2] at h ⊢
          exact ih _ _ _ _ _ h
        · simp only [if_neg h2]

theorem rerunOne_real {rec rec' : (Fin n → Tensor n K) → TrackedInterval n K → (Fin n → K) → Except Exc (Boxes n K)}
    (hrec : ∀ Ms t e, Except.Real (rec Ms t e) → rec' Ms t e = rec Ms t e) (exact : Bool) (Ms : Fin n → Tensor n K)
    (errors : Fin n → K) (orig t : TrackedInterval n K) (h : Except.Real (rerunOne rec exact Ms errors orig t)) :
    rerunOne rec' exact Ms errors orig t = rerunOne rec exact Ms errors orig t := by
  unfold rerunOne at h ⊢
  by_cases h1 : t.reRun = true
  · simp only [if_pos h1] at h ⊢
    by_cases h2 : ∀ i, t.interval.lo i = orig.interval.lo i ∧ t.interval.hi i = orig.interval.hi i
    · simp only [if_pos h2]
    · simp only [if_neg h2] at h ⊢
      cases hl : t.getLastTransform with
      | none => rfl
      | some ab =>
        rw [hl] at h
        exact hrec _ _ _ h
  · simp only [if_neg h1]

/-- More fuel does not change the outcome of `solvePolyRecursive`. -/
theorem solvePolyRecursive_fuel (env : Env n K) (fuel k : ℕ) (opts : Opts) (Ms : Fin n → Tensor n K)
    (ti : TrackedInterval n K) (errors : Fin n → K)
    (h : Except.Real (solvePolyRecursive env fuel opts Ms ti errors)) :
    solvePolyRecursive env (fuel + k) opts Ms ti errors = solvePolyRecursive env fuel opts Ms ti errors := by
  induction fuel generalizing opts Ms ti errors with
  | zero => exact absurd rfl h
  | succ fuel ih =>
    rw [show fuel + 1 + k = fuel + k + 1 by omega]
    unfold solvePolyRecursive at h ⊢
    by_cases h1 : ti.isPoint = true
    · simp only [if_pos h1]
    · simp only [if_neg h1] at h ⊢
      by_cases h2 : (opts.constant_check && constantCheck Ms errors) = true
      · simp only [if_pos h2]
      · simp only [if_neg h2] at h ⊢
        by_cases h3 : quadraticDiscard env { opts with level := opts.level + 1 } Ms errors = true
        · simp only [if_pos h3]
        · simp only [if_neg h3] at h ⊢
          have hz := zoomLoop_fuel env.svd opts.exact opts.maxZoomCount fuel k (trimMs Ms errors (1 / 10 ^ 3) 0).1
            (trimMs Ms errors (1 / 10 ^ 3) 0).2 ti.copy ti.copy.dimSize 0
          cases hzl : zoomLoop env.svd opts.exact opts.maxZoomCount fuel (trimMs Ms errors (1 / 10 ^ 3) 0).1
            (trimMs Ms errors (1 / 10 ^ 3) 0).2 ti.copy ti.copy.dimSize 0 with
          | error e =>
            rw [hzl] at h hz
            rw [hz (fun h0 => h (by cases h0; rfl))]
          | ok z =>
            rw [hzl] at h hz
            rw [hz (fun h0 => by cases h0)]
            simp only at h ⊢
            by_cases h4 : z.ti.empty = true
            · simp only [if_pos h4]
            · simp only [if_neg h4] at h ⊢
              by_cases h5 : z.shouldStop = true
              · simp only [if_pos h5] at h ⊢
                by_cases h6 : (z.ti.finalStep || !opts.useFinalStep) = true
                · simp only [if_pos h6]
                · simp only [if_neg h6] at h ⊢
                  exact ih _ _ _ _ h
              · simp only [if_neg h5] at h ⊢
                by_cases h6 : z.ti.finalStep = true
                · simp only [if_pos h6] at h ⊢
                  cases hg : getSubdivisionIntervals env.argsort env.setIter z.Ms z.errors
                      { z.ti with canThrowOutFinalStep := true } opts.exact (opts.level + 1) with
                  | error e => rfl
                  | ok cs =>
                    rw [hg] at h
                    simp only at h ⊢
                    have hm := mapM_real (f := fun c : Child n K =>
                        solvePolyRecursive env fuel { opts with level := opts.level + 1 } c.Ms c.ti c.errors)
                      (g := fun c : Child n K =>
                        solvePolyRecursive env (fuel + k) { opts with level := opts.level + 1 } c.Ms c.ti c.errors) cs
                      (fun c _ hc => ih _ _ _ _ hc)
                    rw [hm (fun h0 => by rw [h0] at h; exact h rfl)]
                · simp only [if_neg h6] at h ⊢
                  cases hg : getSubdivisionIntervals env.argsort env.setIter z.Ms z.errors
                      z.ti opts.exact (opts.level + 1) with
                  | error e => rfl
                  | ok cs =>
                    rw [hg] at h
                    simp only at h ⊢
                    have hm := mapM_real (f := fun c : Child n K =>
                        solvePolyRecursive env fuel { opts with level := opts.level + 1 } c.Ms c.ti c.errors)
                      (g := fun c : Child n K =>
                        solvePolyRecursive env (fuel + k) { opts with level := opts.level + 1 } c.Ms c.ti c.errors) cs
                      (fun c _ hc => ih _ _ _ _ hc)
                    rw [hm (fun h0 => by rw [h0] at h; exact h rfl)]
                    cases hrs : cs.mapM fun c : Child n K =>
                        solvePolyRecursive env fuel { opts with level := opts.level + 1 } c.Ms c.ti c.errors with
                    | error e => rfl
                    | ok rs =>
                      rw [hrs] at h
                      simp only at h ⊢
                      cases he : combineExterior ti.copy.copy (rs.flatMap (·.2)) with
                      | error e => rfl
                      | ok ext =>
                        rw [he] at h
                        simp only at h ⊢
                        have hm := mapM_real (f := rerunOne (fun Ms t e =>
                            solvePolyRecursive env fuel { opts with level := opts.level + 1 } Ms t e) opts.exact Ms z.errors
                            ti.copy.copy)
                          (g := rerunOne (fun Ms t e =>
                            solvePolyRecursive env (fuel + k) { opts with level := opts.level + 1 } Ms t e) opts.exact Ms
                            z.errors ti.copy.copy) ext
                          (fun c _ hc => rerunOne_real (fun _ _ _ h => ih _ _ _ _ h) _ _ _ _ _ hc)
                        rw [hm (fun h0 => by rw [h0] at h; exact h rfl)]

/-- More fuel does not change the outcome of `solveChebyshevSubdivision`. -/
theorem solveChebyshevSubdivision_fuel (env : Env n K) (fuel k : ℕ) (Ms : Fin n → Tensor n K) (errors : Fin n → K)
    (exact constant_check low all : Bool)
    (h : Except.Real (solveChebyshevSubdivision env fuel Ms errors exact constant_check low all)) :
    solveChebyshevSubdivision env (fuel + k) Ms errors exact constant_check low all
      = solveChebyshevSubdivision env fuel Ms errors exact constant_check low all := by
  unfold solveChebyshevSubdivision at h ⊢
  simp only at h ⊢
  rw [solvePolyRecursive_fuel env fuel k _ _ _ _ (fun h0 => by rw [h0] at h; exact h rfl)]

theorem finishBox_real {rec rec' : (Fin n → K) → (Fin n → K) → Except Exc (SolveResult n K)}
    (hrec : ∀ a b, Except.Real (rec a b) → rec' a b = rec a b) (a b : Fin n → K) (minSize : K) (t : TrackedInterval n K)
    (h : Except.Real (finishBox rec a b minSize t)) : finishBox rec' a b minSize t = finishBox rec a b minSize t := by
  unfold finishBox at h ⊢
  simp only at h ⊢
  split_ifs at h ⊢ with h1
  all_goals first | rfl | exact hrec _ _ h | skip
  all_goals rw [hrec _ _ (fun h0 => by rw [h0] at h; exact h rfl)]

/-- More fuel does not change the outcome of `solve`. -/
theorem solve_fuel (env : Env n K) (approx : Approximator n K) (funcs : Fin n → Func n K) (exact : Bool) (minSize : K)
    (fuel k : ℕ) (a b : Fin n → K) (h : Except.Real (solve env approx funcs exact minSize fuel a b)) :
    solve env approx funcs exact minSize (fuel + k) a b = solve env approx funcs exact minSize fuel a b := by
  induction fuel generalizing a b with
  | zero => exact absurd rfl h
  | succ fuel ih =>
    rw [show fuel + 1 + k = fuel + k + 1 by omega]
    unfold solve at h ⊢
    by_cases h1 : ∃ i, b i < a i
    · simp only [if_pos h1]
    · simp only [if_neg h1] at h ⊢
      cases hap : (List.finRange n).mapM fun i => approxOne approx (funcs i) a b with
      | error e => rfl
      | ok ps =>
        rw [hap] at h
        simp only at h ⊢
        rw [solveChebyshevSubdivision_fuel env fuel k _ _ _ _ _ _ (fun h0 => by rw [h0] at h; exact h rfl)]
        cases hs : solveChebyshevSubdivision env fuel
            (fun i => (ps.getD i (⟨fun _ => 0, fun _ => 0⟩, 0)).1) (fun i => (ps.getD i (⟨fun _ => 0, fun _ => 0⟩, 0)).2)
            exact true true false with
        | error e => rfl
        | ok p =>
          rw [hs] at h
          simp only at h ⊢
          by_cases h2 : wholeBox p.2 a b minSize = true
          · simp only [if_pos h2] at h ⊢
            rw [mapM_real (f := fun val => solve env approx funcs exact minSize fuel (splitBox a b val).1 (splitBox a b val).2)
              (g := fun val => solve env approx funcs exact minSize (fuel + k) (splitBox a b val).1 (splitBox a b val).2)
              (boolProduct n) (fun v _ hv => ih _ _ hv) (fun h0 => by rw [h0] at h; exact h rfl)]
          · simp only [if_neg h2] at h ⊢
            rw [mapM_real (f := finishBox (solve env approx funcs exact minSize fuel) a b minSize)
              (g := finishBox (solve env approx funcs exact minSize (fuel + k)) a b minSize)
              p.2 (fun v _ hv => finishBox_real (fun _ _ h => ih _ _ h) _ _ _ _ hv)
              (fun h0 => by rw [h0] at h; exact h rfl)]

end YRoots
