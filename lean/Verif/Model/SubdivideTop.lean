import Verif.Model.SolveND

/-!
# The legacy solver (`subdivision.py`, lines 29-207) in several variables

`Tolerances` is treated in `Model/Tolerances`; here the tolerances of each round are given as a list.  Plotting, printing, the warning and the
memoised array (`Model/BlockCopy`) are left out.  `np.unique` sorts the intervals; the model keeps the order in which they were found.
-/

namespace YRoots.Legacy

variable {n : ℕ} {K : Type*} [Field K] [LinearOrder K]

/-- The arguments of `subdivide_to_linear`, lines 29-34: `deg`, `target_deg`, the names in `intervalReductions` that exist, `trust_small_evals`,
and the tolerances of the first and of the other rounds. -/
structure TopArgs (K : Type*) where
  deg : Option ℕ := none
  targetDeg : ℕ := 1
  reductions : List Reduction := [.improveBound, .getBoundingParallelogram]
  trust : Bool := false
  first : NDTols K
  more : List (NDTols K) := []

/-- Lines 130-135. -/
def defaultDeg (dim : ℕ) : ℕ := if dim > 4 then 2 else [100, 20, 9, 9].getD (dim - 1) 0

/-- Lines 138-141: the absolute tolerances are at least `1.01 * macheps`. -/
def clampTols (T : NDTols K) : NDTols K := { T with absTol := max T.absTol (101 / 100 * macheps) }

/-- `tols.nextTols()`, lines 150 and 180. -/
def startRound (T : NDTols K) (st : NDState n K) : NDState n K := { st with absTol := T.absTol, targetTol := T.targetTol }

/-- `solve_func(funcs, a, b, deg, target_deg, ..., max_level)` with the defaults `good_degs=None, level=0, use_target_tol=False`, then
`keep_possible_duplicates`; `max_level` is 52.  Lines 174-177 and 185-186. -/
def solveKeep (lib : NDLib (n + 1) K) (T : NDTols K) (targetDeg : ℕ) (trust : Bool) (funcs : List ((Fin (n + 1) → K) → K)) (deg : ℕ)
    (B : Box (n + 1) K) (st : NDState (n + 1) K) : Except NDError (NDState (n + 1) K) :=
  match solveND lib T targetDeg trust 52 0 funcs B deg (List.replicate funcs.length none) false st with
  | .error e => .error e
  | .ok st => .ok { st with tracker := st.tracker.keepDuplicates }

/-- The body of the loop over the intervals to polish, lines 183-186: `start_polish_interval` (`IntervalChecks.py`, lines 150-157) resets the area;
`trust_small_evals` is not passed on. -/
def polishOne (lib : NDLib (n + 1) K) (T : NDTols K) (targetDeg : ℕ) (funcs : List ((Fin (n + 1) → K) → K)) (deg : ℕ)
    (B : Box (n + 1) K) (st : NDState (n + 1) K) : Except NDError (NDState (n + 1) K) :=
  solveKeep lib T targetDeg false funcs deg B { st with data := { st.data with current_area := 0 } }

/-- One round of polishing, lines 180-186; `add_polish_intervals` is in `IntervalChecks.py`, lines 137-148. -/
def polishRound (lib : NDLib (n + 1) K) (T : NDTols K) (targetDeg : ℕ) (funcs : List ((Fin (n + 1) → K) → K)) (deg : ℕ)
    (st : NDState (n + 1) K) : Except NDError (NDState (n + 1) K) :=
  let p := st.tracker.getPolish
  descend (polishOne lib T targetDeg funcs deg) (p.1.map fun I => ⟨I.1, I.2⟩)
    { startRound T st with data := { st.data with polishing := true }, tracker := p.2 }

/-- The loop `while tols.nextTols()`, lines 180-186. -/
def polishLoop (lib : NDLib (n + 1) K) (targetDeg : ℕ) (funcs : List ((Fin (n + 1) → K) → K)) (deg : ℕ) :
    List (NDTols K) → NDState (n + 1) K → Except NDError (NDState (n + 1) K)
  | [], st => .ok st
  | T :: l, st =>
    match polishRound lib T targetDeg funcs deg st with
    | .error e => .error e
    | .ok st => polishLoop lib targetDeg funcs deg l st

/-- The state after `IntervalData(a, b, intervalReductions)`, `RootTracker()` and the first `nextTols`, lines 142-154. -/
def topState (A : TopArgs K) : NDState n K :=
  startRound (clampTols A.first) ⟨⟨A.reductions, [], 0, false⟩, {}, 0, 0⟩

/-- `subdivide_to_linear(funcs, a, b, ...)`, lines 29-207, for more than one function.  It returns `roots` and, if asked for, `potential_roots` of
the tracker. -/
def subdivideTop (lib : NDLib (n + 1) K) (A : TopArgs K) (funcs : List ((Fin (n + 1) → K) → K)) (a b : Fin (n + 1) → K) :
    Except NDError (NDState (n + 1) K) :=
  let deg := A.deg.getD (defaultDeg funcs.length)
  match solveKeep lib (clampTols A.first) A.targetDeg A.trust funcs deg ⟨a, b⟩ (topState A) with
  | .error e => .error e
  | .ok st => polishLoop lib A.targetDeg funcs deg (A.more.map clampTols) st

end YRoots.Legacy
