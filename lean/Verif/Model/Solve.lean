import Verif.Model.Solver
import Verif.Model.Polynomial

/-!
# Model of `solve`

`/repo/yroots/Combined_Solver.py` lines 10-200.  The number of bounds equals the number of functions by typing (the
conversions of lines 92-102 and the `ValueError`s of lines 90, 104 are left out).  `returnBoundingBoxes=True`, as in all
recursive calls; otherwise only the roots are returned.  `chebApproximate` is a parameter.  Printing is left out.
-/

namespace YRoots

variable {n : ℕ} {K : Type*}

/-- An input function: a polynomial object or any other callable. -/
inductive Func (n : ℕ) (K : Type*) where
  | power (M : Tensor n K)
  | cheb (M : Tensor n K)
  | call (f : (Fin n → K) → K)

variable [Field K] [LinearOrder K]

/-- `transform(x, a, b)`, ChebyshevApproximator.py lines 9-26. -/
def transformPt (x a b : Fin n → K) : Fin n → K := fun i => ((b i - a i) * x i + (b i + a i)) / 2

/-- `ChebyshevApproximator.chebApproximate(f, a, b)` as an external function: coefficients and error, or an exception. -/
abbrev Approximator (n : ℕ) (K : Type*) := Func n K → (Fin n → K) → (Fin n → K) → Except Exc (Tensor n K × K)

/-- `unit_box`, lines 110-113: `np.allclose(a, -1)` and `np.allclose(b, 1)` with numpy's default tolerances. -/
def unitBox (a b : Fin n → K) : Bool :=
  !(!(decide (∀ i, closeTo (a i) (-1))) || !(decide (∀ i, closeTo (b i) 1)))

/-- The loop body of lines 117-126: coefficients and error for one function. -/
def approxOne (approx : Approximator n K) (f : Func n K) (a b : Fin n → K) : Except Exc (Tensor n K × K) :=
  match f, unitBox a b with
  | .power M, true => .ok (toCheb M, 1 / 2 ^ 52)
  | .cheb M, true => .ok (M, 1 / 2 ^ 52)
  | f, _ => approx f a b

/-- `itertools.product([False, True], repeat=n)`, line 143. -/
def boolProduct : (n : ℕ) → List (Fin n → Bool)
  | 0 => [Fin.elim0]
  | n + 1 => [false, true].flatMap fun v => (boolProduct n).map fun vs => Fin.cons v vs

/-- `midPoint`, line 147. -/
def midPoint (a b : Fin n → K) : Fin n → K := fun i => (a i + b i) * (51234912839471234 / 10 ^ 17)

/-- `newA`, `newB`, lines 148-149. -/
def splitBox (a b : Fin n → K) (val : Fin n → Bool) : (Fin n → K) × (Fin n → K) :=
  (fun i => if val i then midPoint a b i else a i, fun i => if val i then b i else midPoint a b i)

/-- `finalDimSize`, ChebyshevSubdivisionSolver.py lines 524-526. -/
def TrackedInterval.finalDimSize (t : TrackedInterval n K) (i : Fin n) : K :=
  t.getFinalInterval.hi i - t.getFinalInterval.lo i

/-- The condition of line 140. -/
def wholeBox (boxes : List (TrackedInterval n K)) (a b : Fin n → K) (minSize : K) : Bool :=
  match boxes with
  | [t] => decide (∀ i, t.finalDimSize i = 2) && decide (∀ i, b i - a i > minSize)
  | _ => false

/-- Roots and bounding boxes. -/
abbrev SolveResult (n : ℕ) (K : Type*) := List (Fin n → K) × List (Box n K)

/-- Collecting the results of recursive calls, lines 153-155 and 180-182. -/
def keepNonempty (r : SolveResult n K) : SolveResult n K := if r.1.length ≠ 0 then r else ([], [])

/-- Concatenation (`np.vstack`) of results, lines 156-158, 192-195. -/
def stack (rs : List (SolveResult n K)) : SolveResult n K := (rs.flatMap (·.1), rs.flatMap (·.2))

/-- The body of the loop of lines 168-190 for one bounding interval; `rec` is the recursive call. -/
def finishBox (rec : (Fin n → K) → (Fin n → K) → Except Exc (SolveResult n K)) (a b : Fin n → K) (minSize : K)
    (t : TrackedInterval n K) : Except Exc (SolveResult n K) :=
  let newA := transformPt t.getFinalInterval.lo a b
  let newB := transformPt t.getFinalInterval.hi a b
  if ∀ i, newB i - newA i > minSize * max (max |a i| |b i|) 1 then
    match rec newA newB with
    | .error e => .error e
    | .ok r => .ok (keepNonempty r)
  else if t.possibleDuplicateRoots.length > 0 then
    .ok (t.possibleDuplicateRoots.map fun p => transformPt p a b, [⟨newA, newB⟩])
  else .ok ([transformPt t.getFinalPoint a b], [⟨newA, newB⟩])

/-- `solve(funcs, a, b, returnBoundingBoxes=True, exact=exact, minBoundingIntervalSize=minSize)`. -/
def solve [FloorSemiring K] (env : Env n K) (approx : Approximator n K) (funcs : Fin n → Func n K) (exact : Bool) (minSize : K) :
    ℕ → (Fin n → K) → (Fin n → K) → Except Exc (SolveResult n K)
  | 0, _, _ => .error .outOfFuel
  | fuel + 1, a, b =>
    if ∃ i, b i < a i then .error .valueError
    else
      match (List.finRange n).mapM fun i => approxOne approx (funcs i) a b with
      | .error e => .error e
      | .ok ps =>
        let polys : Fin n → Tensor n K := fun i => (ps.getD i (⟨fun _ => 0, fun _ => 0⟩, 0)).1
        let errs : Fin n → K := fun i => (ps.getD i (⟨fun _ => 0, fun _ => 0⟩, 0)).2
        match solveChebyshevSubdivision env fuel polys errs exact true true false with
        | .error e => .error e
        | .ok (_, boundingBoxes) =>
          if wholeBox boundingBoxes a b minSize then
            match (boolProduct n).mapM fun val =>
                solve env approx funcs exact minSize fuel (splitBox a b val).1 (splitBox a b val).2 with
            | .error e => .error e
            | .ok rs => .ok (stack (rs.map keepNonempty))
          else
            match boundingBoxes.mapM (finishBox (solve env approx funcs exact minSize fuel) a b minSize) with
            | .error e => .error e
            | .ok rs => .ok (stack rs)

end YRoots
