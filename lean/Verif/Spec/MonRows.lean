import Mathlib.RingTheory.MvPolynomial.MonomialOrder
import Mathlib.Data.Finsupp.Fintype

/-!
# Specification: multiples of polynomials by monomials
-/

namespace YRoots.Legacy

/-- The exponents as a function of the variables. -/
noncomputable def expo (dim : ℕ) (m : List ℕ) : Fin dim →₀ ℕ := Finsupp.equivFunOnFinite.symm fun i => m.getD i 0

/-- The polynomial times the monomial with the given exponents. -/
noncomputable def monTimes {K : Type*} [CommSemiring K] {dim : ℕ} (f : MvPolynomial (Fin dim) K) (m : List ℕ) :
    MvPolynomial (Fin dim) K := MvPolynomial.monomial (expo dim m) 1 * f

/-- The exponents of the monomial times the `d`-th power of the variable `v`. -/
def raise (v d : ℕ) (m : List ℕ) : List ℕ := (List.range m.length).map fun i => m.getD i 0 + if i = v then d else 0

end YRoots.Legacy
