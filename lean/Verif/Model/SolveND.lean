import Verif.Model.RootTracker
import Verif.Model.SolveLinear
import Verif.Model.TrimCoeffs

/-!
# The subdivision solver of the legacy code in several variables (`subdivision.py`, lines 522-574 and 662-831)

In exact arithmetic.  `full_cheb_approximate`, `get_abs_approx_tol` and `multiplication` are parameters (`NDLib`; the first is treated in
`Model/BlockCopy`, the last in `Model/Macaulay`); complex numbers are pairs.  `check_interval` goes through the list `interval_checks`,
which the constructor of `IntervalData` leaves empty (`IntervalChecks.py`, line 88), and returns `False`.  Printing is left out.
`check_eval_freq` is positive.

`a -= interval_buffer_size` changes the array of the caller.  Each array is passed to one call only, except in line 805, after which
it is not used any more, so the model passes values.
-/

namespace YRoots.Legacy

variable {n : ℕ} {K : Type*} [Field K] [LinearOrder K]

/-- What a call can raise. -/
inductive NDError
  | checks (e : Failure)
  | linear (e : LinearFailure)
  | macaulay
  deriving DecidableEq

/-- The functions called that are not modelled here. -/
structure NDLib (n : ℕ) (K : Type*) where
  /-- `full_cheb_approximate(func, a, b, deg, tol, rel_approx_tol, good_deg)`: coefficients or `None`, norm, error. -/
  approx : ((Fin n → K) → K) → Box n K → ℕ → K → Option ℕ → Option (Tensor n K) × K × K
  /-- `get_abs_approx_tol(func, 3, a, b, dim)`. -/
  noise : ((Fin n → K) → K) → Box n K → K
  solve : LinSolve n K
  rank : LinAlg n K
  /-- `multiplication(polys, ...)`; `none` if the condition number is too large. -/
  macaulay : List (Tensor n K) → Except NDError (Option (List (Fin n → K × K)))

/-- The tolerances of the current round: `abs_approx_tols[currTol]`, `target_tols[currTol]` and the others. -/
structure NDTols (K : Type*) where
  absTol : K
  targetTol : K
  relTol : K
  minGood : K
  factor : K
  checkEval : Bool
  freq : ℕ

/-- What the calls change: `interval_data`, `root_tracker`, `tols.abs_approx_tol`, `tols.target_tol`. -/
structure NDState (n : ℕ) (K : Type*) where
  data : Data n K
  tracker : Tracker n K
  absTol : K
  targetTol : K

/-- `good_zeros_nd(zeros, imag_tol, real_tol)`, lines 549-574. -/
def goodZerosND (zeros : List (Fin n → K × K)) (imagTol realTol : K) : List (Fin n → K) :=
  (zeros.filter fun z => decide (∀ i, |(z i).2| ≤ imagTol) && decide (∀ i, |(z i).1| ≤ 1 + realTol)).map fun z i => (z i).1

/-- `transform(x, a, b)`, `utils.py` lines 1241-1258, for one point. -/
def transformPoint (B : Box n K) (x : Fin n → K) : Fin n → K := fun i => ((B.hi i - B.lo i) * x i + (B.hi i + B.lo i)) / 2

/-- `zeros_in_interval(zeros, a, b, dim)`, lines 522-546, with the default tolerance. -/
def zerosInInterval (zeros : List (Fin n → K)) (B : Box n K) : List (Fin n → K) :=
  (List.finRange n).foldl (fun zs i =>
    (zs.filter fun z => decide (z i - B.lo i ≥ -(1 / 10 ^ 9))).filter fun z => decide (z i - B.hi i ≤ 1 / 10 ^ 9)) zeros

/-- Lines 734-738: the box with its buffer. -/
def buffered (B : Box n K) : Box n K :=
  ⟨fun i => B.lo i - (B.hi i - B.lo i) * (5 / 10 ^ 10), fun i => B.hi i + (B.hi i - B.lo i) * (5 / 10 ^ 10)⟩

/-- Lines 714-728. -/
def evalTols (lib : NDLib n K) (T : NDTols K) (level deg : ℕ) (funcs : List ((Fin n → K) → K)) (B : Box n K) (useTarget : Bool)
    (st : NDState n K) : NDState n K :=
  if T.checkEval then
    let numSpots : K := (deg * 2) ^ n - deg ^ n
    let grow := fun t => if level % T.freq = 0 then funcs.foldl (fun t f => max t (numSpots * lib.noise f B)) t else t
    if useTarget then { st with targetTol := grow T.targetTol } else { st with absTol := grow T.absTol }
  else st

/-- The loop of lines 748-776: on success (`inr`) coefficients, norms and errors; on a bad approximation (`inl`) the number of the
function and what was found before. -/
def approxLoop (lib : NDLib n K) (B : Box n K) (deg : ℕ) (tol : K) : List (((Fin n → K) → K) × Option ℕ) → List (Tensor n K × K × K) →
    (ℕ × List (Tensor n K × K × K)) ⊕ List (Tensor n K × K × K)
  | [], acc => .inr acc
  | (f, g) :: l, acc =>
    match lib.approx f B deg tol g with
    | (none, _, _) => .inl (acc.length, acc)
    | (some M, norm, err) => approxLoop lib B deg tol l (acc ++ [(M, norm, err)])

/-- `max(err, macheps)` unless `trust_small_evals`, lines 757-758, 771-772 and 780-781. -/
def floorErr (trust : Bool) (e : K) : K := if trust then e else max e macheps

/-- The calls for the subintervals, lines 766-767, 793-794, 799-800 and 823-824. -/
def descend (recur : Box n K → NDState n K → Except NDError (NDState n K)) :
    List (Box n K) → NDState n K → Except NDError (NDState n K)
  | [], st => .ok st
  | B :: l, st =>
    match recur B st with
    | .error e => .error e
    | .ok st => descend recur l st

/-- `interval_data.get_subintervals(og_a, og_b, ...)` and the calls for its answer. -/
def ndSplit (lib : NDLib n K) (B : Box n K) (approx : List (Tensor n K × K)) (checks : Bool)
    (recur : Box n K → NDState n K → Except NDError (NDState n K)) (st : NDState n K) : Except NDError (NDState n K) :=
  match getSubintervals lib.solve lib.rank st.data B.lo B.hi approx checks with
  | .error e => .error (.checks e)
  | .ok (L, D) => descend recur L { st with data := D }

/-- Lines 809-813 and 827-831: filter the roots and store them. -/
def record (st : NDState n K) (name : String) (zeros : List (Fin n → K × K)) (tol : K) (og B : Box n K) : NDState n K :=
  let zeros := zerosInInterval ((goodZerosND zeros tol tol).map (transformPoint B)) og
  { st with data := st.data.track name B, tracker := st.tracker.addRoots zeros B.lo B.hi name }

/-- Lines 707-709. -/
def tooDeep (B : Box n K) (st : NDState n K) : NDState n K :=
  { st with
    data := st.data.track "Too Deep" B
    tracker := st.tracker.addPotential (fun i => (B.lo i + B.hi i) / 2) B.lo B.hi "Too Deep." }

/-- `solve_linear(coeffs)` for a list, as many polynomials as variables. -/
def solveLinearList (S : LinSolve (n + 1) K) (coeffs : List (Tensor (n + 1) K)) : Except LinearFailure (Option (Fin (n + 1) → K)) :=
  if h : coeffs.length = n + 1 then solveLinear S fun i => coeffs.get (i.cast h.symm) else .error .indexError

/-- A call below: functions, box, degree, `good_degs`, `use_target_tol`, state. -/
abbrev NDCall (n : ℕ) (K : Type*) :=
  List ((Fin n → K) → K) → Box n K → ℕ → List (Option ℕ) → Bool → NDState n K → Except NDError (NDState n K)

/-- The body from line 778 on: all approximations are good.  `trim_coeffs` replaces the entries of the list it is given, so that afterwards
`cheb_approx_list` holds the trimmed arrays. -/
def ndGood (lib : NDLib (n + 1) K) (T : NDTols K) (targetDeg : ℕ) (trust : Bool) (recur retry : NDCall (n + 1) K)
    (funcs : List ((Fin (n + 1) → K) → K)) (og : Box (n + 1) K) (deg : ℕ) (goodDegs : List (Option ℕ))
    (l : List (Tensor (n + 1) K × K × K)) (st : NDState (n + 1) K) : Except NDError (NDState (n + 1) K) :=
  let B := buffered og
  let tr := trimCoeffs st.absTol T.relTol l
  let coeffs := tr.1.map Prod.fst
  let errors := tr.1.map fun p => floorErr trust p.2
  let goodDegs := if tr.2 then coeffs.map fun c => some (min (c.shape 0) deg) else goodDegs
  let tol := max T.minGood ((errors.map fun e => |e|).sum * T.factor)
  let split := ndSplit lib og (tr.1.map fun p => (p.1, floorErr trust p.2)) true fun C => recur funcs C deg goodDegs true
  if (coeffs.any fun c => decide (c.shape 0 > targetDeg + 1)) || !tr.2 then split st
  else if (errors.zip l).any fun p => decide (p.1 > st.targetTol + T.relTol * p.2.2.1) then split st
  else if coeffs.all fun c => decide (c.shape 0 = 2) then
    if deg ≠ 2 then retry funcs B 2 goodDegs true st
    else
      match solveLinearList lib.solve coeffs with
      | .error e => .error (.linear e)
      | .ok zero => .ok (record st "Base Case" (zero.toList.map fun z i => (z i, 0)) tol og B)
  else
    match lib.macaulay coeffs with
    | .error e => .error e
    | .ok none => split st
    | .ok (some zeros) => .ok (record st "Macaulay" zeros tol og B)

/-- The body from line 712 on; `recur` are the calls of the next level, `retry` is the call of line 805. -/
def ndBody (lib : NDLib (n + 1) K) (T : NDTols K) (targetDeg : ℕ) (trust : Bool) (level : ℕ) (recur retry : NDCall (n + 1) K) :
    NDCall (n + 1) K := fun funcs og deg goodDegs useTarget st =>
  let st := evalTols lib T level deg funcs og useTarget st
  match approxLoop lib (buffered og) deg (if useTarget then st.targetTol else st.absTol) (funcs.zip goodDegs) [] with
  | .inl (i, l) =>
    let approx := l.map fun p => (p.1, floorErr trust p.2.2)
    let funcs2 := funcs.eraseIdx i ++ (funcs[i]?).toList
    ndSplit lib og approx false (fun C => recur funcs2 C deg (List.replicate funcs2.length none) false) st
  | .inr l => ndGood lib T targetDeg trust recur retry funcs og deg goodDegs l st

/-- `subdivision_solve_nd`, lines 662-831; `left` is `max_level - level`.  The call of line 805 is made on the same level, with degree 2, so
that no other one can follow (`ndGood_two`). -/
def solveND (lib : NDLib (n + 1) K) (T : NDTols K) (targetDeg : ℕ) (trust : Bool) : (left level : ℕ) → NDCall (n + 1) K
  | 0, _ => fun _ B _ _ _ st => .ok (tooDeep B st)
  | left + 1, level =>
    let recur := solveND lib T targetDeg trust left (level + 1)
    ndBody lib T targetDeg trust level recur (ndBody lib T targetDeg trust level recur fun _ _ _ _ _ st => .ok st)

/-- `ndGood` makes the call of line 805 only if the degree is not 2. -/
theorem ndGood_two (lib : NDLib (n + 1) K) (T : NDTols K) (targetDeg : ℕ) (trust : Bool) (recur r1 r2 : NDCall (n + 1) K)
    (funcs : List ((Fin (n + 1) → K) → K)) (og : Box (n + 1) K) (goodDegs : List (Option ℕ)) (l : List (Tensor (n + 1) K × K × K))
    (st : NDState (n + 1) K) :
    ndGood lib T targetDeg trust recur r1 funcs og 2 goodDegs l st = ndGood lib T targetDeg trust recur r2 funcs og 2 goodDegs l st := by
  simp [ndGood]

end YRoots.Legacy
