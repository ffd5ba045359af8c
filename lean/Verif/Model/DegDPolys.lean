import Verif.Model.MonCombos

/-!
# Rows of one degree of the Macaulay matrix (`utils.py`)

The polynomials are objects with a `degree` and a `mon_mult`; both are parameters of the model.
-/

namespace YRoots.Legacy

/-- The pairs of the number of a polynomial and an exponent tuple for which `deg_d_polys(polys, deg, dim)` adds a row,
`utils.py` lines 898-906, where `degrees` are the degrees of the polynomials.  `mon_combosHighest` with a negative degree
returns an empty list for `dim ≥ 2`; the case `dim = 1` with `deg` below a degree (a negative exponent) is left out. -/
def degDRows (degrees : List ℕ) (deg dim : ℕ) : List (ℕ × List ℕ) :=
  (List.range degrees.length).flatMap fun ignoreVar =>
    (if degrees.getD ignoreVar 0 ≤ deg then
      ((monCombosHighest (dim - 1) (List.replicate dim 0) (deg - degrees.getD ignoreVar 0) 0).1.filter fun mon =>
        (List.range ignoreVar).all fun i => decide (mon.getD i 0 + 1 ≤ degrees.getD i 0)).map fun mon => (ignoreVar, mon)
    else [])

/-- `deg_d_polys(polys, deg, dim)`, `utils.py` lines 874-906.  The degree and the multiplication `mon_mult` are
parameters. -/
def degDPolys {P R : Type*} [Inhabited P] (degree : P → ℕ) (monMult : P → List ℕ → R) (polys : List P) (deg dim : ℕ) : List R :=
  (degDRows (polys.map degree) deg dim).map fun r => monMult (polys.getD r.1 default) r.2

end YRoots.Legacy
