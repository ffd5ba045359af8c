import Verif.Model.BlockCopy
import Verif.Model.OneDim

/-!
# The one-dimensional subdivision solver (`subdivision.py`, lines 322-363, 973-1086)

Over the reals, in exact arithmetic.  `check_interval` (`IntervalChecks.py`, lines 232-255) goes through the list `interval_checks`, which the
constructor leaves empty (line 88), and returns `False`.  `multCheb` raises neither `ConditioningError` nor `TooManyRoots`; what it does
raise is not caught, so the handler of lines 1083-1086 is never entered.
-/

namespace YRoots.Legacy

/-- `interval_approximate_1d(f, a, b, deg)`, lines 322-363: the values at `2 deg` extrema. -/
noncomputable def values1D (f : ℝ → ℝ) (a b : ℝ) (deg j : ℕ) : ℝ := f (transform1 (Real.cos (Real.pi * j / deg)) a b)

/-- `coeffs[:deg+1]` with `coeffs[0] /= 2`, `coeffs[deg] /= 2`. -/
noncomputable def approx1D (f : ℝ → ℝ) (a b : ℝ) (deg : ℕ) : List ℝ :=
  let coeffs := fun k : ℕ => (fftn (fun _ : Fin 1 => 2 * deg) (fun j => values1D f a b deg (j 0) / deg) fun _ => k).re
  (List.range (deg + 1)).map fun k =>
    let c := if k = 0 then coeffs k / 2 else coeffs k
    if k = deg then c / 2 else c

/-- `inf_norm`. -/
noncomputable def infNorm1D (f : ℝ → ℝ) (a b : ℝ) (deg : ℕ) : ℝ :=
  (List.range (2 * deg)).foldl (fun m j => max m |values1D f a b deg j|) 0

/-- Lines 1043-1046: `coeff2[slice_top(coeff.shape)] -= coeff`, then the sum of the absolute values. -/
noncomputable def error1D (coeff coeff2 : List ℝ) : ℝ :=
  ((List.range coeff2.length).map fun k => |if k < coeff.length then coeff2.getD k 0 - coeff.getD k 0 else coeff2.getD k 0|).sum

/-- Lines 1059-1068 on the reversed array: drop the last coefficient as long as the error stays below the bound. -/
noncomputable def trimLoop1D (allowed : ℝ) : List ℝ → ℝ → List ℝ × ℝ
  | [], e => ([], e)
  | c :: l, e =>
    if e + |c| < allowed then
      match l with
      | [] => ([c], e)
      | d :: l' => trimLoop1D allowed (d :: l') (e + |c|)
    else (c :: l, e)

/-- `good_zeros_1d(zeros, imag_tol, real_tol)`, lines 973-993; a value that is not finite passes no comparison. -/
noncomputable def goodZeros1D (zeros : List (Option ℂ)) (imagTol realTol : ℝ) : List ℝ :=
  ((zeros.filterMap id).filter fun z => test (‖z‖ ≤ 1 + realTol)).filter (fun z => test (|z.im| < imagTol)) |>.map Complex.re

/-- The tolerances used in one dimension. -/
structure Tols1D where
  absTol : ℝ
  relTol : ℝ
  minGood : ℝ
  factor : ℝ
  macheps : ℝ

/-- The names under which intervals are tracked. -/
inductive Label
  | tooDeep
  | macaulay
  deriving DecidableEq

/-- An interval in `interval_results`. -/
structure Tracked where
  label : Label
  lo : ℝ
  hi : ℝ

/-- The constant of line 1036. -/
noncomputable def RAND1D : ℝ := 5139303900908738 / 10 ^ 16

/-- `subdivision_solve_1d`, lines 995-1086; `left` is `max_level + 1 - level`.  The result lists the intervals tracked and the roots added, both
in order.  In the recursive calls `trust_small_evals` has its default value. -/
noncomputable def solve1D (E : OneD.Eigen) (T : Tols1D) (f : ℝ → ℝ) (deg : ℕ) : ℕ → Bool → ℝ → ℝ → Except OneD.Failure (List Tracked × List ℝ)
  | 0, _, a, b => .ok ([⟨.tooDeep, a, b⟩], [])
  | left + 1, trust, a, b =>
    let coeff := approx1D f a b deg
    let coeff2 := approx1D f a b (deg * 2)
    let error := error1D coeff coeff2
    let allowed := T.absTol + T.relTol * infNorm1D f a b (deg * 2)
    if error > allowed then
      let div := a + (b - a) * RAND1D
      match solve1D E T f deg left false a div with
      | .error e => .error e
      | .ok (t1, r1) =>
        match solve1D E T f deg left false div b with
        | .error e => .error e
        | .ok (t2, r2) => .ok (t1 ++ t2, r1 ++ r2)
    else
      let p := trimLoop1D allowed coeff.reverse error
      let error := if trust then p.2 else max p.2 T.macheps
      let tol := max T.minGood (error * T.factor)
      match OneD.multCheb E p.1.reverse true with
      | .error e => .error e
      | .ok zeros => .ok ([⟨.macaulay, a, b⟩], (goodZeros1D zeros tol tol).map fun z => transform1 z a b)

end YRoots.Legacy
