import Verif.Spec.Cheb
import Mathlib.Algebra.BigOperators.Group.Finset.Basic
import Mathlib.Algebra.Order.Ring.Nat
import Mathlib.Data.List.Lex

/-!
# Specification: rows of the Macaulay matrix

A row is a list of coefficients; the monomial of a column is a list of exponents.
-/

namespace YRoots.Legacy

variable {K : Type*} [CommRing K]

/-- Graded lexicographic order: higher degree first, then larger exponents of the first variables. -/
def GrlexGt (a b : List ℕ) : Prop := b.sum < a.sum ∨ (a.sum = b.sum ∧ b < a)

/-- `L` lists the exponent tuples of length `dim` and degree at most `D`, in decreasing graded lexicographic order. -/
structure Columns (dim D : ℕ) (L : List (List ℕ)) : Prop where
  mem : ∀ m, m ∈ L ↔ m.length = dim ∧ m.sum ≤ D
  sorted : L.Pairwise GrlexGt

/-- The sum of the entries of a row times a function of the monomials of the columns. -/
def rowSum (L : List (List ℕ)) (r : List K) (φ : List ℕ → K) : K :=
  ∑ k ∈ Finset.range L.length, r.getD k 0 * φ (L.getD k [])

/-- The row has no entry in degrees above `D - c`. -/
def LowRow (L : List (List ℕ)) (D c : ℕ) (r : List K) : Prop := ∀ k < L.length, D < (L.getD k []).sum + c → r.getD k 0 = 0

/-- The value of a monomial. -/
def monVal (x : ℕ → K) (dim : ℕ) (m : List ℕ) : K := ∏ l ∈ Finset.range dim, x l ^ m.getD l 0

/-- The value of a product of Chebyshev polynomials. -/
noncomputable def chebVal (x : ℕ → K) (dim : ℕ) (m : List ℕ) : K := ∏ l ∈ Finset.range dim, chebT (m.getD l 0) (x l)

end YRoots.Legacy
