import Mathlib.Data.List.Basic
import Mathlib.Algebra.Field.Basic
import Mathlib.Algebra.Order.AbsoluteValue.Basic
import Mathlib.Algebra.BigOperators.Group.Finset.Basic
import Mathlib.Data.Fintype.Basic

/-!
# Sorting of polynomials and roots (`utils.py`)

`numpy.argsort` is a parameter; its default algorithm is not stable.  (`row_swap_matrix` is `rowSwap` in `Macaulay`.)
-/

namespace YRoots.Legacy

variable {P K : Type*}

/-- `[polys[i] for i in order]`, `array[order]`. -/
def takeOrder (L : List P) (order : List ℕ) : List P := order.filterMap fun i => L[i]?

/-- `sorted_polys_coeff(polys)`, `utils.py` lines 216-235.  `lead` is the leading coefficient, `coeffs` are all coefficients (the polynomial is
not zero). -/
def sortedPolysCoeff [Field K] [LinearOrder K] (argsort : List K → List ℕ) (lead : P → K) (coeffs : P → List K) (polys : List P) : List P :=
  takeOrder polys (argsort (polys.map fun p => |lead p| / ((coeffs p).map fun c => |c|).sum)).reverse

/-- `sorted_polys_monomial(polys)`, `utils.py` lines 237-262. -/
def sortedPolysMonomial [Zero K] [DecidableEq K] (argsort : List ℕ → List ℕ) (coeffs : P → List K) (polys : List P) : List P :=
  takeOrder polys (argsort (polys.map fun p => ((coeffs p).filter fun c => decide (c ≠ 0)).length))

/-- `sort_polys_by_degree(polys, ascending)`, `utils.py` lines 849-872. -/
def sortPolysByDegree (argsort : List ℕ → List ℕ) (degree : P → ℕ) (polys : List P) (ascending : Bool := true) : List P :=
  let sorted := takeOrder polys (argsort (polys.map degree))
  if ascending then sorted else sorted.reverse

/-- `sortRoots(roots, seed)`, `utils.py` lines 1499-1509.  The vector `r` of random numbers is a parameter. -/
def sortRoots [Field K] {n : ℕ} (argsort : List K → List ℕ) (r : Fin n → K) (roots : List (Fin n → K)) : List (Fin n → K) :=
  if roots.length = 0 then roots else takeOrder roots (argsort (roots.map fun x => ∑ i, x i * r i))

end YRoots.Legacy
