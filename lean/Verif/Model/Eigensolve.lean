import Mathlib.Analysis.Complex.Norm

/-!
# Common roots of polynomials in one variable (`polyroots.py`)
-/

namespace YRoots.Legacy

variable {P : Type*}

/-- One pass of the loop of `eigensolve`, `polyroots.py` lines 57-66; `solve` is `oneD.solve`, `uniq` is `np.unique`. -/
noncomputable def commonStep (uniq : List ℂ → List ℂ) (solve : P → List ℂ) (zeros : List ℂ) (poly : P) : List ℂ :=
  (uniq (solve poly)).filter fun zero => decide (∃ x ∈ zeros, ‖x - zero‖ < 1e-10)

/-- The loop with its `break`, `polyroots.py` lines 54-66. -/
noncomputable def commonLoop (uniq : List ℂ → List ℂ) (solve : P → List ℂ) : List P → List ℂ → List ℂ
  | [], zeros => zeros
  | poly :: polys, zeros => if zeros = [] then zeros else commonLoop uniq solve polys (commonStep uniq solve zeros poly)

/-- `eigensolve(polys)` for polynomials in one variable, `polyroots.py` lines 49-67; `none` for the `IndexError` of an empty list. -/
noncomputable def eigensolve1 (uniq : List ℂ → List ℂ) (solve : P → List ℂ) : List P → Option (List ℂ)
  | [] => none
  | [p] => some (solve p)
  | p :: q :: polys => some (commonLoop uniq solve (q :: polys) (uniq (solve p)))

end YRoots.Legacy
