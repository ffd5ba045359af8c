import Verif.Model.Tensor
import Mathlib.Algebra.Order.Field.Basic

/-!
# Row reduction of linear polynomials (`LinearProjection.py`)

A matrix of shape `(m, v + 1)` is a function of two indices; the last column holds the constants.
-/

namespace YRoots.Legacy

variable {K : Type*} [Field K] [LinearOrder K]

/-- What `rref` raises: `np.float` does not exist in numpy 1.24 and later (`AttributeError`); the maximum of an array without
entries does not exist (`ValueError`); what `nullspace` raises for an empty list and for arrays without an entry for a variable is
`IndexError`. -/
inductive RrefFailure
  | indexError
  | attributeError
  | emptyMax
  deriving DecidableEq

/-- The positions of `A[j:, j:-1]` in the order of `np.where`. -/
def subPositions (m v j : ℕ) : List (ℕ × ℕ) :=
  (List.range' j (m - j)).flatMap fun k => (List.range' j (v - j)).map fun l => (k, l)

/-- The pivot `k, l`, `LinearProjection.py` lines 264-265: the first position of an entry with the largest absolute value; `none` if
there is no entry. -/
def rrefPivot (m v j : ℕ) (A : ℕ → ℕ → K) : Option (ℕ × ℕ) :=
  let mx := (subPositions m v j).foldl (fun s p => max s |A p.1 p.2|) 0
  (subPositions m v j).find? fun p => |A p.1 p.2| = mx

/-- `x[[j, k]] = x[[k, j]]`: the positions `j` and `k` are exchanged. -/
def swapped {α : Type*} (j k : ℕ) (f : ℕ → α) (i : ℕ) : α := if i = j then f k else if i = k then f j else f i

/-- The loop of `rref`, `LinearProjection.py` lines 263-277; the first argument is `m - j`.  The result is the number of rows, the
matrix and `Pc`. -/
def rrefLoop (m v : ℕ) : ℕ → ℕ → (ℕ → ℕ → K) → (ℕ → ℕ) → Except RrefFailure (ℕ × (ℕ → ℕ → K) × (ℕ → ℕ))
  | 0, _, A, Pc => .ok (m, A, Pc)
  | t + 1, j, A, Pc =>
    match rrefPivot m v j A with
    | none => .error .emptyMax
    | some (k, l) =>
      let A := swapped j k A
      let A := fun i => swapped j l (A i)
      let Pc := swapped j l Pc
      if A j j = 0 then .ok (j, A, Pc)
      else
        let A := fun i c => if i = j then A i c else if j ≤ c then A i c - A j c * A i j / A j j else A i c
        let A := fun i c => if i = j then A j c / A j j else A i c
        rrefLoop m v t (j + 1) A Pc

/-- `rref(A)`, `LinearProjection.py` lines 251-277, for a matrix with at least one column.  `npFloat`: the attribute `np.float`
exists (numpy before 1.24). -/
def rref (npFloat : Bool) (m v : ℕ) (A : ℕ → ℕ → K) : Except RrefFailure (ℕ × (ℕ → ℕ → K) × (ℕ → ℕ)) :=
  if npFloat then rrefLoop m v m 0 A id else .error .attributeError

/-- `nullspace(linear_polys)`, `LinearProjection.py` lines 228-249: row `i` holds the coefficients of the variables and the constant
of polynomial `i`. -/
def nullspace {n : ℕ} (npFloat : Bool) (polys : List (Tensor n K)) : Except RrefFailure (ℕ × (ℕ → ℕ → K) × (ℕ → ℕ)) :=
  if polys = [] ∨ ∃ p ∈ polys, ∃ j, p.shape j < 2 then .error .indexError
  else
    rref npFloat polys.length n fun i c =>
      match polys[i]? with
      | some p => if c = n then p.const else p.coef fun j => if j.1 = c then 1 else 0
      | none => 0

end YRoots.Legacy
