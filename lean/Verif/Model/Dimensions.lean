import Verif.Model.Polynomial

/-!
# Small helpers for polynomials and monomials (`utils.py`)

`slice_top` and `match_size` of `utils.py` (lines 538-553, 596-616) are the same as those of `polynomial.py` (`padTo`, `matchSize`).
-/

namespace YRoots.Legacy

variable {K : Type*}

/-- A coefficient array of any dimension. -/
abbrev AnyArray (K : Type*) := Σ n : ℕ, Tensor n K

/-- `coeff.reshape(coeff_shape)` with `d` axes of length one put in front, `utils.py` lines 589-592. -/
def frontAxes {n : ℕ} (d : ℕ) (M : Tensor n K) : Tensor (d + n) K where
  shape := Fin.append (fun _ => 1) M.shape
  coef k := M.coef fun i => k (Fin.natAdd d i)

/-- `match_poly_dimensions(polys)`, `utils.py` lines 572-594; `none` for an empty list (`max` raises `ValueError`).  The code changes the
polynomials in place and returns them. -/
def matchPolyDimensions [Field K] [LinearOrder K] (polys : List (AnyArray K)) : Option (List (AnyArray K)) :=
  match polys with
  | [] => none
  | _ =>
    let dim := (polys.map fun p => p.1).foldl max 0
    some (polys.map fun p => if p.1 ≠ dim then ⟨(dim - p.1) + p.1, mkPoly (frontAxes (dim - p.1) p.2)⟩ else p)

/-- `divides(mon1, mon2)`, `utils.py` lines 148-162, for exponent tuples of the same length. -/
def divides {n : ℕ} (mon1 mon2 : Fin n → ℕ) : Bool := decide (∀ i, ((mon2 i : ℤ) - mon1 i) ≥ 0)

/-- `lcm(a, b)`, `utils.py` lines 187-200, for the leading exponents. -/
def lcmMon {n : ℕ} (a b : Fin n → ℕ) : Fin n → ℕ := fun i => max (a i) (b i)

/-- `quotient(a, b)`, `utils.py` lines 202-214. -/
def quotientMon {n : ℕ} (a b : Fin n → ℕ) : Fin n → ℤ := fun i => a i - b i

/-- `clean_zeros_from_matrix(array, accuracy)`, `utils.py` lines 131-146, for a real array. -/
def cleanZeros [Zero K] [LinearOrder K] [Neg K] (accuracy : K) (array : List K) : List K :=
  array.map fun a => if a < accuracy ∧ -accuracy < a then 0 else a

/-- numpy compares complex numbers lexicographically. -/
def complexLt [LinearOrder K] (a b : K × K) : Prop := a.1 < b.1 ∨ (a.1 = b.1 ∧ a.2 < b.2)

instance [LinearOrder K] (a b : K × K) : Decidable (complexLt a b) := by unfold complexLt; infer_instance

/-- `clean_zeros_from_matrix(array, accuracy)` for a complex array; pairs are real and imaginary parts. -/
def cleanZerosComplex [Zero K] [LinearOrder K] [Neg K] (accuracy : K) (array : List (K × K)) : List (K × K) :=
  array.map fun a => if complexLt a (accuracy, 0) ∧ complexLt (-accuracy, 0) a then (0, 0) else a

end YRoots.Legacy
