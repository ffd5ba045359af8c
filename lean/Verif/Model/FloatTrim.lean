import Verif.Model.FloatBounding
import Verif.Model.Zoom

/-!
# Trimming in floating-point arithmetic

`trimMs`, `ChebyshevSubdivisionSolver.py` lines 1131-1171, with every operation rounded.  Overflow and underflow are left out.
-/

namespace YRoots

variable {n : ℕ} {K : Type*} [Field K] [LinearOrder K]

/-- `M[..., -1, ...]` along axis `d`, with the axis kept (of length one); the entries come in the same order. -/
def Tensor.lastSlice (M : Tensor n K) (d : Fin n) : Tensor n K :=
  ⟨Function.update M.shape d 1, fun k => M.coef (Function.update k d (M.shape d - 1))⟩

/-- `np.sum(np.abs(M[..., -1, ...]))`, lines 1156 and 1169. -/
def lastSumF (ar : FloatArith K) (M : Tensor n K) (d : Fin n) : K := ar.sum (M.lastSlice d).absList

/-- The while loop of lines 1160-1169 along axis `d`, rounded. -/
def trimAxisF (ar : FloatArith K) (d : Fin n) (s : TrimState n K) : TrimState n K :=
  if h : lastSumF ar s.M d < s.allowed ∧ 3 < s.M.shape d then
    trimAxisF ar d ⟨s.M.dropLast d, ar.fl (s.allowed - lastSumF ar s.M d), ar.fl (s.err + lastSumF ar s.M d)⟩
  else s
termination_by s.M.shape d
decreasing_by
  simp only [Tensor.dropLast, Function.update_self]
  omega

/-- The body of the loop over polynomials, lines 1151-1171, rounded. -/
def trimPolyF (ar : FloatArith K) (M : Tensor n K) (error relTol absTol : K) : TrimState n K :=
  (List.finRange n).foldl (fun s d => trimAxisF ar d s) ⟨M, ar.fl (absTol + ar.fl (error * relTol)), error⟩

/-- `trimMs(Ms, errors)`, lines 1131-1171, with the default tolerances, rounded; `1e-3` is the nearest double. -/
def trimMsF (ar : FloatArith K) (Ms : Fin n → Tensor n K) (errors : Fin n → K) : (Fin n → Tensor n K) × (Fin n → K) :=
  (fun i => (trimPolyF ar (Ms i) (errors i) (ar.fl (1 / 10 ^ 3)) 0).M,
   fun i => (trimPolyF ar (Ms i) (errors i) (ar.fl (1 / 10 ^ 3)) 0).err)

end YRoots
