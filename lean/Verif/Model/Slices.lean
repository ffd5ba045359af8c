import Verif.Model.Zoom
import Mathlib.Data.Int.Order.Basic

/-!
# Slices into a corner of an array and the list of variables (`utils.py`)

What numpy does with them: slice assignment and indexing with a tuple of index lists.
-/

namespace YRoots.Legacy

variable {n : ℕ} {K : Type*}

/-- `slice(start, stop)`; `none` is `None`. -/
structure PySlice where
  start : Option ℤ
  stop : Option ℤ

/-- A bound of a slice on an axis of length `N`: negative bounds count from the end, then the bound is clipped. -/
def clipBound (N : ℕ) (z : ℤ) : ℕ := if z < 0 then (z + N).toNat else min z.toNat N

/-- First position of the slice on an axis of length `N` (`slice.indices`). -/
def PySlice.first (s : PySlice) (N : ℕ) : ℕ := match s.start with
  | none => 0
  | some z => clipBound N z

/-- Position after the slice. -/
def PySlice.last (s : PySlice) (N : ℕ) : ℕ := match s.stop with
  | none => N
  | some z => clipBound N z

/-- Number of positions. -/
def PySlice.len (s : PySlice) (N : ℕ) : ℕ := s.last N - s.first N

/-- `slice_top(matrix_shape)`, `utils.py` lines 538-553. -/
def sliceTop (shape : Fin n → ℕ) : Fin n → PySlice := fun i => ⟨some 0, some (shape i)⟩

/-- `slice_bottom(matrix)`, `utils.py` lines 555-570. -/
def sliceBottom (M : Tensor n K) : Fin n → PySlice := fun i => ⟨some (-(M.shape i : ℤ)), none⟩

/-- `np.zeros(shape)`. -/
def zerosOf [Zero K] (shape : Fin n → ℕ) : Tensor n K := ⟨shape, fun _ => 0⟩

/-- `A[slices] = M` for one slice per axis: `M` is broadcast, an axis of length 1 to any length; `ValueError` if it does not fit. -/
def assignSlices (A : Tensor n K) (s : Fin n → PySlice) (M : Tensor n K) : Except Exc (Tensor n K) :=
  if ∀ d, M.shape d = (s d).len (A.shape d) ∨ M.shape d = 1 then
    .ok ⟨A.shape, fun k =>
      if ∀ d, (s d).first (A.shape d) ≤ k d ∧ k d < (s d).first (A.shape d) + (s d).len (A.shape d)
      then M.coef fun d => if M.shape d = 1 then 0 else k d - (s d).first (A.shape d)
      else A.coef k⟩
  else .error .valueError

/-- `get_var_list(dim)`, `utils.py` lines 290-299: the loop with the list `var` that is changed and changed back. -/
def getVarList (dim : ℕ) : List (List ℕ) :=
  ((List.range dim).foldl (fun s i => (s.1 ++ [s.2.set i 1], (s.2.set i 1).set i 0)) ([], List.replicate dim 0)).1

/-- `M[(l_0, ..., l_{n-1})]` with `n > 0` index lists of the same length: entry `r` of the result is `M[l_0[r], ..., l_{n-1}[r]]`. -/
def fancyIndex (M : Tensor n K) (idx : List (List ℕ)) : Except Exc (List K) :=
  (List.range (idx.headD []).length).mapM fun r =>
    if ∀ d : Fin n, (idx.getD d []).getD r 0 < M.shape d then .ok (M.coef fun d => (idx.getD d []).getD r 0)
    else .error .indexError

/-- `M[l]` with one index per axis, such as `coeff[var_list[col]]` (`utils.py` line 420). -/
def tupleIndex (M : Tensor n K) (l : List ℕ) : Except Exc K :=
  if ∀ d : Fin n, l.getD d 0 < M.shape d then .ok (M.coef fun d => l.getD d 0) else .error .indexError

end YRoots.Legacy
