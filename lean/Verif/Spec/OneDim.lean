import Verif.Model.OneDim
import Mathlib.LinearAlgebra.Matrix.Charpoly.Basic
import Mathlib.RingTheory.Polynomial.Chebyshev
import Mathlib.Algebra.Polynomial.Roots

/-!
# Specification for the one-dimensional solver

The polynomial an array of coefficients stands for, its roots with multiplicity (Mathlib's `Polynomial.roots`), and what
is assumed of numpy's and scipy's eigenvalue routines in exact arithmetic.
-/

namespace YRoots.OneD

open Polynomial

/-- `c₀ + c₁ x + c₂ x² + …`. -/
noncomputable def powPoly (c : List ℝ) : ℂ[X] := ∑ i ∈ Finset.range c.length, C ((c.getD i 0 : ℝ) : ℂ) * X ^ i

/-- `c₀ T₀ + c₁ T₁ + c₂ T₂ + …`. -/
noncomputable def chebPoly (c : List ℝ) : ℂ[X] :=
  ∑ i ∈ Finset.range c.length, C ((c.getD i 0 : ℝ) : ℂ) * Chebyshev.T ℂ (i : ℤ)

/-- `eigvals` returns all complex eigenvalues with multiplicity; `eig(left=True)` the same eigenvalues, each with a
nonzero `v` such that `v^H A = λ v^H`. -/
structure Eigen.OK (E : Eigen) : Prop where
  eigvals : ∀ n A, ((E.eigvals n A : List ℂ) : Multiset ℂ) = (A.map ((↑) : ℝ → ℂ)).charpoly.roots
  eigLeft : ∀ n A, (((E.eigLeft n A).map Prod.fst : List ℂ) : Multiset ℂ) = (A.map ((↑) : ℝ → ℂ)).charpoly.roots
  left : ∀ n A, ∀ p ∈ E.eigLeft n A, p.2 ≠ 0 ∧
    ∀ j, ∑ i, (starRingEnd ℂ) (p.2 i) * ((A i j : ℝ) : ℂ) = p.1 * (starRingEnd ℂ) (p.2 j)

/-- The result consists of all complex roots of `P`, with multiplicity, and of nothing else. -/
def Finds (r : Except Failure (List (Option ℂ))) (P : ℂ[X]) : Prop :=
  ∃ l, r = .ok l ∧ (l : Multiset (Option ℂ)) = P.roots.map some

end YRoots.OneD
