import Verif.Model.Transform
import Verif.Model.Polynomial

/-!
# Multiplication by a monomial (`utils.py`)

`_fold_in_i_dir` indexes arrays with lists of slices.  numpy reads such a list as a tuple up to version 1.22 (the version of
`requirements_dev.txt`) and raises `IndexError` from version 1.23 on (`requirements.txt` has 1.24.3); the argument
`listIndex` says which.
-/

namespace YRoots.Legacy

section Rows

variable {V : Type*} [AddCommGroup V]

/-- The loop of `_fold_in_i_dir`, `utils.py` lines 660-681, from `n` on: `c` are the slices of the array along the axis, `N` their
number, `f` the index to fold around.  The first argument is the number of values of `n` that are left. -/
def foldLoop (c : ℕ → V) (N f : ℕ) : ℕ → ℕ → (ℕ → V) → ℕ → V
  | 0, _, sol => sol
  | r + 1, n, sol =>
    if f < n + 1 then
      if f + n + 2 > N then sol
      else foldLoop c N f r (n + 1) (Function.update sol (n + 1) (c (f + n + 1)))
    else
      if f + n + 2 > N then foldLoop c N f r (n + 1) (Function.update sol (n + 1) (c (f - n - 1)))
      else foldLoop c N f r (n + 1) (Function.update sol (n + 1) (c (f - n - 1) + c (f + n + 1)))

/-- `_fold_in_i_dir`, `utils.py` lines 618-683; `none` is the `IndexError`. -/
def foldIn (listIndex : Bool) (c : ℕ → V) (N f : ℕ) : Option (ℕ → V) :=
  if f = 0 then some c
  else if listIndex then some (foldLoop c N f N 0 (Function.update (fun _ => 0) 0 (c f)))
  else none

/-- `_mon_mult1`, `utils.py` lines 685-732, on the slices along the axis `dim_mult`; `m` is `idx[dim_mult]`, the only entry of
`idx` that may differ from zero.  The result has `N + m` slices. -/
def monMultRows {K : Type*} [Field K] [Module K V] (listIndex : Bool) (c : ℕ → V) (N m : ℕ) : Option (ℕ → V) :=
  let p1 := fun j => if j < m then 0 else c (j - m)
  let N' := if N ≤ m then m + 1 else N
  let padded := fun j => if j < N then c j else 0
  match foldIn listIndex padded N' m with
  | none => none
  | some sol =>
    let result := fun j => if j < N' then sol j else 0
    some fun j => (1 / 2 : K) • (p1 j + result j)

end Rows

variable {n : ℕ} {K : Type*} [Field K]

/-- `_mon_mult1(initial_matrix, idx, dim_mult)` on an array. -/
def monMult1 (listIndex : Bool) (M : Tensor n K) (d : Fin n) (m : ℕ) : Option (Tensor n K) :=
  (monMultRows (K := K) listIndex (M.rows d) (M.shape d) m).map fun r => M.ofRows d (r, M.shape d + m)

/-- `mon_mult2(matrix, mon, True)`, `utils.py` lines 735-739. -/
def monMultPower (M : Tensor n K) (mon : Fin n → ℕ) : Tensor n K where
  shape i := M.shape i + mon i
  coef k := if ∀ i, mon i ≤ k i then M.coef fun i => k i - mon i else 0

/-- `mon_mult2(matrix, mon, False)`, `utils.py` lines 740-746. -/
def monMultCheb (listIndex : Bool) (M : Tensor n K) (mon : Fin n → ℕ) : Option (Tensor n K) :=
  (List.finRange n).foldlM (fun M d => monMult1 listIndex M d (mon d)) M

end YRoots.Legacy
