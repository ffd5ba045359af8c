import Verif.Model.Parallelepiped
import Verif.Model.BlockCopy
import Verif.Model.Polynomial

/-!
# Elimination of linear polynomials (`LinearProjection.py`, lines 9-151)

The polynomials are `MultiCheb` objects.  Two things that the code uses are parameters, since they do not exist in this form in the rest of
the package: the attribute `degree` of a polynomial, and `trim_coeffs` with two arguments.  `pinnedDegree` and `pinnedTrim` are what the code
of this commit does.
-/

namespace YRoots.Legacy

/-- The exceptions. -/
inductive RemoveErr
  /-- `assert len(polys) > 0` -/
  | assertion
  /-- `ValueError("All of the polynomials were linear.")` -/
  | allLinear
  /-- `IndexError` in `bounding_parallelepiped` -/
  | index
  /-- `AttributeError`: no attribute `degree` -/
  | noDegree
  /-- `TypeError`: `trim_coeffs` called with two of five arguments -/
  | missingArgs
  /-- `ValueError`: not enough values to unpack (expected 3, got 2) -/
  | unpack
  /-- fewer than two variables left: not modelled -/
  | lowDim
  deriving DecidableEq

/-- What the functions depend on.  `arr n` is the shared array of `values_arr(n)`, `garbage n` the content of a new array. -/
structure RemoveEnv where
  lib : ∀ n, ProjLib n ℝ
  degree : ∀ {n : ℕ}, Tensor n ℝ → Except RemoveErr ℕ
  trim : ∀ {n : ℕ}, List (Tensor n ℝ) → ℝ → Except RemoveErr (List (Tensor n ℝ))
  garbage : ∀ n, (Fin n → ℕ) → ℝ
  arr : ∀ n, ValuesArr n

/-- `f.degree` at this commit: `Polynomial` (`polynomial.py` lines 95-248) sets `coeff`, `dim`, `shape`, no `degree`. -/
def pinnedDegree {n : ℕ} (_ : Tensor n ℝ) : Except RemoveErr ℕ := .error .noDegree

/-- `trim_coeffs(coeffs, approx_tol)[0]` at this commit: `subdivision.py` line 833 has five parameters and no defaults. -/
def pinnedTrim {n : ℕ} (_ : List (Tensor n ℝ)) (_ : ℝ) : Except RemoveErr (List (Tensor n ℝ)) := .error .missingArgs

variable {n : ℕ}

/-- `proj_approximate_nd(f, transform)`, `LinearProjection.py` lines 104-151.  The shared array is in the state `env.arr n` at every call
(in the code it holds the values of earlier calls; they do not matter, see C73).  A degree 0 (division by zero in the code) gives junk. -/
noncomputable def projApproximate (env : RemoveEnv) {m : ℕ} (f : Tensor m ℝ) (T : (Fin n → ℝ) → Fin m → ℝ) : Except RemoveErr (Tensor n ℝ) := do
  let deg ← env.degree f
  let block := fun j : Fin n → ℕ => f.eval (T fun i => chebPt deg (j i))
  let values := sharedCopy (env.garbage n) deg block (env.arr n)
  let coeffs := fun k => (fftn (fun _ => min values.size (2 * deg)) (fun j => values.arr j / (deg : ℝ) ^ n) k).re
  return ⟨fun _ => deg + 1, halveEdges (fun _ => deg) coeffs⟩

/-- `project_down(polys, linear, approx_tol, solve_tol)`, `LinearProjection.py` lines 56-102; the map returned is `projT`.  The reads
`linear[idx]` of `bounding_parallelepiped` (line 187) fail if an axis has length 1. -/
noncomputable def projectDown (env : RemoveEnv) (polys : List (Tensor (n + 1) ℝ)) (linear : Tensor (n + 1) ℝ) (approxTol : ℝ) :
    Except RemoveErr (List (Tensor n ℝ)) := do
  if ∃ j, linear.shape j < 2 then throw .index
  let coeffs ← polys.mapM fun p => projApproximate env p (projT (env.lib n) linear)
  if 1 < polys.length then env.trim coeffs approxTol else return coeffs

/-- What `remove_linear` returns: polynomials in `m` variables, the map, and the flag if there is one. -/
structure RemoveOut (N : ℕ) where
  m : ℕ
  polys : List (Tensor m ℝ)
  transform : (Fin m → ℝ) → Fin N → ℝ
  flag : Option Bool

/-- `max(poly.shape) - 1 < 2`. -/
def looksLinear (p : Tensor n ℝ) : Bool := decide (∀ j, p.shape j - 1 < 2)

/-- `remove_linear(polys, approx_tol, solve_tol, transform_in)`, `LinearProjection.py` lines 9-54.  `polys_copy.remove(poly)` removes the
first polynomial that is close to `poly` and of its shape, which is `poly` itself, since an earlier one of that shape would have been taken. -/
noncomputable def removeLinear (env : RemoveEnv) (approxTol : ℝ) {N : ℕ} :
    (n : ℕ) → List (Tensor n ℝ) → ((Fin n → ℝ) → Fin N → ℝ) → Except RemoveErr (RemoveOut N)
  | _, [], _ => .error .assertion
  | 0, _ :: _, _ => .error .lowDim
  | n + 1, [p], transformIn => if p.shape 0 ≤ 2 then .error .allLinear else .ok ⟨n + 1, [p], transformIn, none⟩
  | n + 1, p :: q :: l, transformIn =>
    let polys := p :: q :: l
    match polys.find? looksLinear with
    | none => .ok ⟨n + 1, polys, transformIn, some false⟩
    | some linear =>
      if n = 0 then .error .lowDim
      else do
        let new ← projectDown env (polys.eraseIdx (polys.findIdx looksLinear)) linear approxTol
        let r ← removeLinear env approxTol n (new.map cleanCoeff) fun x => transformIn (projT (env.lib n) linear x)
        match r.flag with
        | none => .error .unpack
        | some _ => .ok ⟨r.m, r.polys, r.transform, some true⟩

end YRoots.Legacy
