import Verif.Model.MonCombos
import Verif.Model.MonMult
import Mathlib.Data.Complex.BigOperators
import Mathlib.Analysis.Complex.Norm
import Mathlib.Data.List.MinMax
import Mathlib.LinearAlgebra.Matrix.ConjTranspose

/-!
# The Macaulay matrix solver (`MacaulayReduce.py`, `Multiplication.py`)

`numpy` and `scipy` factorisations are fields of `MacLib` and `MsLib`; what is assumed of them is stated in the property file.
In the pinned commit `polynomial.py` has neither `is_power` nor the attribute `degree` nor the method `mon_mult`, so that
`Multiplication.py` cannot be imported.  The model supplies them: `power` says which basis the polynomials are in, a polynomial
is its coefficient array with its degree, and the multiplication by a monomial is `mon_mult2` of `utils.py`.
-/

namespace YRoots.Legacy

open scoped Matrix

/-- How the solver fails. -/
inductive MacError
  | nameError | valueError | indexError | unbound | singular | illConditioned
  deriving DecidableEq, Repr

/-! ### The matrix -/

/-- `mon_combosHighest([0]*dim,d)[::-1]`, `Multiplication.py` lines 598 and 603. -/
def highestRev (dim d : ℕ) : List (List ℕ) := (monCombosHighest (dim - 1) (List.replicate dim 0) d 0).1.reverse

/-- The loop `while d > 1`, `Multiplication.py` lines 600-604. -/
def otherMons (dim : ℕ) : ℕ → List (List ℕ)
  | 0 => []
  | 1 => []
  | d + 2 => highestRev dim (d + 2) ++ otherMons dim (d + 1)

/-- `sorted_matrix_terms(degree, dim)`, `Multiplication.py` lines 580-624. -/
def sortedMatrixTerms (degree dim : ℕ) : List (List ℕ) × ℕ :=
  let xs := (monCombos (dim - 1) (List.replicate dim 0) 1 0).1.reverse
  if degree = 1 then (xs, 0)
  else (highestRev dim degree ++ otherMons dim (degree - 1) ++ xs, (highestRev dim degree).length)

variable {dim : ℕ} {K : Type*}

/-- A row of exponents as a function. -/
def asMon (t : List ℕ) : Fin dim → ℕ := fun i => t.getD i 0

/-- `find_degree(poly_list)`, `MacaulayReduce.py` lines 49-66 (for degrees of at least one). -/
def findDegree (degrees : List ℕ) : ℕ := degrees.sum + 1 - degrees.length

/-- `add_polys(degree, poly, [])`, `MacaulayReduce.py` lines 18-47; `mult` is `poly.mon_mult`, `none` an exception in it. -/
def addPolys (mult : Tensor dim K → (Fin dim → ℕ) → Option (Tensor dim K)) (degree : ℕ) (poly : Tensor dim K × ℕ) :
    Option (List (Tensor dim K)) :=
  let mons := (monCombos (dim - 1) (List.replicate dim 0) (degree - poly.2) 0).1
  (mons.tail.mapM fun mon => mult poly.1 (asMon mon)).map (poly.1 :: ·)

/-- The loop over `poly_coeffs`, `Multiplication.py` lines 563-570; `z` is the scratch array `added_zeros`. -/
def flatPolys [Zero K] (degree : ℕ) (terms : List (List ℕ)) :
    List (Tensor dim K) → ((Fin dim → ℕ) → K) → Except MacError (List (List K))
  | [], _ => .ok []
  | T :: l, z =>
    if ∃ i, degree + 1 < T.shape i then .error .valueError
    else
      let filled := fun k => if ∀ i, k i < T.shape i then T.coef k else z k
      let emptied := fun k => if ∀ i, k i < T.shape i then 0 else filled k
      match flatPolys degree terms l emptied with
      | .error e => .error e
      | .ok rows => .ok ((terms.map fun t => filled (asMon t)) :: rows)

/-- `row_swap_matrix(matrix)`, `utils.py` lines 264-288. -/
def rowSwap [Zero K] [DecidableEq K] (argsort : List ℕ → List ℕ) (rows : List (List K)) : Except MacError (List (List K)) :=
  match rows.mapM fun r => r.findIdx? (· ≠ 0) with
  | none => .error .indexError
  | some leading => .ok ((argsort leading).map fun i => rows.getD i [])

/-- `create_matrix(poly_coeffs, degree, dim)`, `Multiplication.py` lines 532-578; the rows of the matrix. -/
def createMatrix [Zero K] [DecidableEq K] (argsort : List ℕ → List ℕ) (coeffs : List (Tensor dim K)) (degree : ℕ) :
    Except MacError (List (List K)) :=
  match flatPolys degree (sortedMatrixTerms degree dim).1 coeffs fun _ => 0 with
  | .error e => .error e
  | .ok rows => rowSwap argsort rows

/-- `build_macaulay(initial_poly_list)`, `Multiplication.py` lines 424-486. -/
def buildMacaulay [Zero K] [DecidableEq K] (argsort : List ℕ → List ℕ)
    (mult : Tensor dim K → (Fin dim → ℕ) → Option (Tensor dim K)) (polys : List (Tensor dim K × ℕ)) :
    Except MacError (List (List K)) :=
  let degree := findDegree (polys.map Prod.snd)
  match polys.mapM (addPolys mult degree) with
  | none => .error .indexError
  | some l => createMatrix argsort l.flatten degree

/-! ### The reduction -/

/-- The routines of numpy and scipy: `condExceeds A t` is `np.linalg.cond(A) > t`, `qrQ`, `qrR` are `qr(A)`,
`svdV A` is `svd(A)[2].conj().T`, `qrpQ`, `qrpR`, `qrpP` are `qr(A, pivoting=True)` and `solveTri` is `solve_triangular`
(`none` for a `LinAlgError`). -/
structure MacLib where
  condExceeds : ∀ {p q : ℕ}, Matrix (Fin p) (Fin q) ℝ → ℝ → Bool
  qrQ : ∀ {p q : ℕ}, Matrix (Fin p) (Fin q) ℝ → Matrix (Fin p) (Fin p) ℝ
  qrR : ∀ {p q : ℕ}, Matrix (Fin p) (Fin q) ℝ → Matrix (Fin p) (Fin q) ℝ
  svdV : ∀ {p q : ℕ}, Matrix (Fin p) (Fin q) ℝ → Matrix (Fin q) (Fin q) ℝ
  qrpQ : ∀ {p q : ℕ}, Matrix (Fin p) (Fin q) ℝ → Matrix (Fin p) (Fin p) ℝ
  qrpR : ∀ {p q : ℕ}, Matrix (Fin p) (Fin q) ℝ → Matrix (Fin p) (Fin q) ℝ
  qrpP : ∀ {p q : ℕ}, Matrix (Fin p) (Fin q) ℝ → Equiv.Perm (Fin q)
  solveTri : ∀ {p q : ℕ}, Matrix (Fin p) (Fin p) ℝ → Matrix (Fin p) (Fin q) ℝ → Option (Matrix (Fin p) (Fin q) ℝ)

/-- The two methods that transform the lower columns by an orthogonal matrix. -/
inductive ColMethod
  | svd | qrt
  deriving DecidableEq, Repr

variable {c b k n : ℕ}

/-- The orthogonal matrix `Q` of `MacaulayReduce.py` line 164 (`svd`) or 113 (`qrt`). -/
def MacLib.colQ (L : MacLib) : ColMethod → Matrix (Fin b) (Fin (k + n)) ℝ → Matrix (Fin (k + n)) (Fin (k + n)) ℝ
  | .svd, B => L.svdV B
  | .qrt, B => L.qrpQ Bᵀ

/-- `M[:,cut:] = Q.T @ M[:,cut:]`, `MacaulayReduce.py` lines 106, 157 and 189. -/
def MacLib.lower (L : MacLib) {l : ℕ} (M : Matrix (Fin (c + b)) (Fin (c + l)) ℝ) : Matrix (Fin (c + b)) (Fin l) ℝ :=
  (L.qrQ (M.submatrix id (Fin.castAdd l)))ᵀ * M.submatrix id (Fin.natAdd c)

/-- `reduce_macaulay_qrt` and `reduce_macaulay_svd`, `MacaulayReduce.py` lines 68-117 and 119-168.  The matrix has `c = cut`
columns of highest degree and `k + n` others, `n` is `bezout_bound`, and `c + b` rows; the computation of the rank
only issues warnings and is left out.  For `b = 0` the name `Q` has been deleted. -/
def reduceCols (L : MacLib) (meth : ColMethod) (maxCond : ℝ) (M : Matrix (Fin (c + b)) (Fin (c + (k + n))) ℝ) :
    Except MacError (Matrix (Fin c) (Fin n) ℝ × Matrix (Fin (k + n)) (Fin n) ℝ) :=
  let H := M.submatrix id (Fin.castAdd (k + n))
  if L.condExceeds H maxCond then .error .illConditioned
  else if b = 0 then .error .unbound
  else
    let Q := L.colQ meth ((L.lower M).submatrix (Fin.natAdd c) id)
    let T := (L.lower M).submatrix (Fin.castAdd b) id * Q
    match L.solveTri ((L.qrR H).submatrix (Fin.castAdd b) id) (T.submatrix id (Fin.natAdd k)) with
    | none => .error .singular
    | some E => .ok (E, Q.submatrix id (Fin.natAdd k))

/-- The matrix `M` of `reduce_macaulay_tvb` after line 197 of `MacaulayReduce.py`. -/
def tvbMatrix (L : MacLib) {l : ℕ} (M : Matrix (Fin (c + b)) (Fin (c + l)) ℝ) : Matrix (Fin (c + b)) (Fin (c + l)) ℝ :=
  let B := (L.lower M).submatrix (Fin.natAdd c) id
  fun i j => Fin.addCases (fun j' => L.qrR (M.submatrix id (Fin.castAdd l)) i j')
    (fun j' => Fin.addCases (fun i' => L.lower M (Fin.castAdd b i') (L.qrpP B j')) (fun i' => L.qrpR B i' j') i) j

/-- `reduce_macaulay_tvb`, `MacaulayReduce.py` lines 170-204.  With fewer than `bezout_rank = c + k` rows the primary submatrix
is not square and `solve_triangular` raises. -/
def reduceTvb (L : MacLib) (maxCond : ℝ) (M : Matrix (Fin (c + b)) (Fin (c + (k + n))) ℝ) :
    Except MacError (Matrix (Fin (c + k)) (Fin n) ℝ × Equiv.Perm (Fin (k + n))) :=
  if L.condExceeds (M.submatrix id (Fin.castAdd (k + n))) maxCond then .error .illConditioned
  else if b = 0 then .error .unbound
  else if h : k ≤ b then
    let N := (tvbMatrix L M).submatrix (Fin.castLE (Nat.add_le_add_left h c)) (Fin.cast (Nat.add_assoc c k n))
    if L.condExceeds (N.submatrix id (Fin.castAdd n)) maxCond then .error .illConditioned
    else
      match L.solveTri (N.submatrix id (Fin.castAdd n)) (N.submatrix id (Fin.natAdd (c + k))) with
      | none => .error .singular
      | some E => .ok (E, L.qrpP ((L.lower M).submatrix (Fin.natAdd c) id))
  else .error .valueError

/-! ### The Möller-Stetter matrices -/

/-- `np.argmin(np.abs(t - matrix_terms).sum(axis=-1))`: the first term at the smallest distance from `t`, `Multiplication.py`
lines 122, 154 and 155 (`j₀` stands for the answer for an empty list of terms, which does not occur). -/
def nearestTerm {N : ℕ} (terms : Fin N → Fin dim → ℕ) (j₀ : Fin N) (t : Fin dim → ℕ) : Fin N :=
  ((List.finRange N).argmin fun j => ∑ i, ((t i : ℤ) - terms j i).natAbs).getD j₀

/-- `t` with one added to the exponent of `x_var`. -/
def upTerm (t : Fin dim → ℕ) (var : Fin dim) : Fin dim → ℕ := Function.update t var (t var + 1)

/-- `t` with one subtracted from the exponent of `x_var`, `-1` being replaced by `1`, `Multiplication.py` lines 151-153. -/
def downTerm (t : Fin dim → ℕ) (var : Fin dim) : Fin dim → ℕ :=
  Function.update t var (if t var = 0 then 1 else t var - 1)

/-- `np.hstack((-E.T,Q.T))`. -/
def hstackA {p q : ℕ} (E : Matrix (Fin p) (Fin n) ℝ) (Q : Matrix (Fin q) (Fin n) ℝ) : Matrix (Fin n) (Fin (p + q)) ℝ :=
  fun r j => Fin.addCases (fun j' => -E j' r) (fun j' => Q j' r) j

/-- The columns `A[:,arr]` (power basis) or `.5*(A[:,arr1]+A[:,arr2])` (Chebyshev basis) with the arrays of
`indexarray` and `indexarray_cheb`, `Multiplication.py` lines 99-156. -/
noncomputable def shifted (power : Bool) {p q : ℕ} (A : Matrix (Fin n) (Fin (p + q)) ℝ) (terms : Fin (p + q) → Fin dim → ℕ) (var : Fin dim) :
    Matrix (Fin n) (Fin q) ℝ := fun r j =>
  let j₀ := Fin.natAdd p j
  if power then A r (nearestTerm terms j₀ (upTerm (terms j₀) var))
  else 1 / 2 * (A r (nearestTerm terms j₀ (upTerm (terms j₀) var)) + A r (nearestTerm terms j₀ (downTerm (terms j₀) var)))

/-- `ms_matrices` and `ms_matrices_cheb`, `Multiplication.py` lines 158-214. -/
noncomputable def msMatrices (power : Bool) {l : ℕ} (E : Matrix (Fin c) (Fin n) ℝ) (Q : Matrix (Fin l) (Fin n) ℝ)
    (terms : Fin (c + l) → Fin dim → ℕ) (i : Fin dim) : Matrix (Fin n) (Fin n) ℝ :=
  shifted power (hstackA E Q) terms i * Q

/-- `matrix_terms[cut:] = matrix_terms[cut:][P]`, `Multiplication.py` lines 218 and 248. -/
def permTerms {l : ℕ} (terms : Fin (c + l) → Fin dim → ℕ) (P : Equiv.Perm (Fin l)) : Fin (c + l) → Fin dim → ℕ :=
  Fin.addCases (fun j => terms (Fin.castAdd l j)) (fun j => terms (Fin.natAdd c (P j)))

/-- `ms_matrices_p` and `ms_matrices_p_cheb`, `Multiplication.py` lines 216-254. -/
noncomputable def msMatricesP (power : Bool) (E : Matrix (Fin (c + k)) (Fin n) ℝ) (P : Equiv.Perm (Fin (k + n)))
    (terms : Fin (c + (k + n)) → Fin dim → ℕ) (i : Fin dim) : Matrix (Fin n) (Fin n) ℝ :=
  shifted power (hstackA E 1) (fun j => permTerms terms P (Fin.cast (Nat.add_assoc c k n) j)) i

/-! ### The roots -/

/-- The routines of scipy used by `msroots`: `schurU A` is `schur(A, output='complex')[1]`, `eigvals A` is
`eig(A, right=False)`. -/
structure MsLib where
  schurU : ∀ {n : ℕ}, Matrix (Fin n) (Fin n) ℂ → Matrix (Fin n) (Fin n) ℂ
  eigvals : ∀ {n : ℕ}, Matrix (Fin n) (Fin n) ℂ → Fin n → ℂ

/-- The loop of `sort_eigs`, `Multiplication.py` lines 275-278.  `np.argmin` of an empty array, which would raise, does not occur:
there are as many eigenvalues as entries on the diagonal. -/
noncomputable def matchLoop (diag : ℕ → ℂ) : List ℂ → List ℕ → List ℕ
  | [], _ => []
  | e :: es, lst =>
    match lst.argmin fun j => ‖diag j - e‖ with
    | none => []
    | some i => i :: matchLoop diag es (lst.erase i)

/-- `sort_eigs(eigs,diag)`, `Multiplication.py` lines 256-279. -/
noncomputable def sortEigs (argsort : List ℕ → List ℕ) (eigs : List ℂ) (n : ℕ) (diag : ℕ → ℂ) : List ℕ :=
  argsort (matchLoop diag eigs (List.range n))

/-- The diagonal of a matrix, as a function on the natural numbers. -/
noncomputable def natDiag (T : Matrix (Fin n) (Fin n) ℂ) : ℕ → ℂ := fun j => if h : j < n then T ⟨j, h⟩ ⟨j, h⟩ else 0

/-- The matrices after the rotation, `Multiplication.py` line 326. -/
noncomputable def rotated (Q : Matrix (Fin dim) (Fin dim) ℝ) (M : Fin dim → Matrix (Fin n) (Fin n) ℝ) (i : Fin dim) : Matrix (Fin n) (Fin n) ℂ :=
  (∑ j, Q i j • M j).map ((↑) : ℝ → ℂ)

/-- The loop body, `Multiplication.py` lines 333-336. -/
noncomputable def sortedEigs (L : MsLib) (argsort : List ℕ → List ℕ) (U M : Matrix (Fin n) (Fin n) ℂ) : List ℂ :=
  let w := List.ofFn (L.eigvals M)
  (sortEigs argsort w n (natDiag (Uᴴ * M * U))).map fun j => w.getD j 0

/-- `msroots(M)`, `Multiplication.py` lines 303-339; `Q` and `cs` are the answer of `get_Q_c(dim)`. -/
noncomputable def msroots (L : MsLib) (argsort : List ℕ → List ℕ) (Q : Matrix (Fin dim) (Fin dim) ℝ) (cs : Fin dim → ℝ)
    (M : Fin dim → Matrix (Fin n) (Fin n) ℝ) : List (Fin dim → ℂ) :=
  let U := L.schurU (∑ i, (cs i : ℂ) • rotated Q M i)
  let eigs := fun i => sortedEigs L argsort U (rotated Q M i)
  (List.range n).map fun r d => ∑ i, (Q i d : ℂ) * (eigs i).getD r 0

/-! ### The solver -/

inductive MacMethod
  | col (m : ColMethod) | tvb
  deriving DecidableEq, Repr

/-- The matrix with the given rows. -/
def matrixOfRows (rows : List (List ℝ)) (p q : ℕ) : Matrix (Fin p) (Fin q) ℝ := fun i j => (rows.getD i []).getD j 0

/-- `multiplication(polys, ...)` from line 56 of `Multiplication.py` on, for a matrix with `c + b` rows and `c + (k + n)` columns. -/
noncomputable def solveReduced (L : MacLib) (S : MsLib) (argsort : List ℕ → List ℕ) (Q : Matrix (Fin dim) (Fin dim) ℝ) (cs : Fin dim → ℝ)
    (power : Bool) (method : MacMethod) (maxCond : ℝ) (M : Matrix (Fin (c + b)) (Fin (c + (k + n))) ℝ)
    (terms : Fin (c + (k + n)) → Fin dim → ℕ) : Except MacError (List (Fin dim → ℂ)) :=
  match method with
  | .col m =>
    match reduceCols L m maxCond M with
    | .error e => .error e
    | .ok r => .ok (msroots S argsort Q cs (msMatrices power r.1 r.2 terms))
  | .tvb =>
    match reduceTvb L maxCond M with
    | .error e => .error e
    | .ok r => .ok (msroots S argsort Q cs (msMatricesP power r.1 r.2 terms))

/-- The filter for the unit box, `Multiplication.py` lines 93-97. -/
noncomputable def unitBox (all : Bool) (roots : List (Fin dim → ℂ)) : List (Fin dim → ℂ) :=
  if all then roots else roots.filter fun z => decide (∀ i, ‖z i‖ ≤ 1)

/-- `multiplication(polys, max_cond_num, verbose, return_all_roots, method)`, `Multiplication.py` lines 15-97.  `linear` is the answer of
`solve_linear` (see `solveLinear`).  With at most `cut` rows, or a `bezout_bound` that is zero or larger than the number of
lower columns, the code raises in one of the functions called (or reports a bad condition number before that). -/
noncomputable def multiplication (L : MacLib) (S : MsLib) (argsort : List ℕ → List ℕ) (Q : Matrix (Fin dim) (Fin dim) ℝ) (cs : Fin dim → ℝ)
    (mult : Tensor dim ℝ → (Fin dim → ℕ) → Option (Tensor dim ℝ)) (linear : Except MacError (List (Fin dim → ℂ)))
    (power : Bool) (method : MacMethod) (maxCond : ℝ) (all : Bool) (polys : List (Tensor dim ℝ × ℕ)) :
    Except MacError (List (Fin dim → ℂ)) :=
  if polys.length = 1 then .error .nameError
  else
    match buildMacaulay argsort mult polys with
    | .error e => .error e
    | .ok rows =>
      let st := sortedMatrixTerms (findDegree (polys.map Prod.snd)) dim
      let n := (polys.map Prod.snd).prod
      if st.2 = 0 then linear.map (unitBox all)
      else if rows.length ≤ st.2 then .error .unbound
      else if n = 0 ∨ st.1.length < st.2 + n then .error .valueError
      else
        (solveReduced L S argsort Q cs power method maxCond
          (matrixOfRows rows (st.2 + (rows.length - st.2)) (st.2 + (st.1.length - st.2 - n + n)))
          (fun j => asMon (st.1.getD j []))).map (unitBox all)

end YRoots.Legacy
