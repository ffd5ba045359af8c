import Verif.Model.Zoom
import Mathlib.Data.Fin.Tuple.Basic

/-!
# Model of `yroots/polynomial.py`

Coefficient arrays are `Tensor n K` with `n ≥ 1`.  Evaluation arrays carry numpy's broadcasting explicitly, because
the *shape* of what is returned is one of the questions.  The two copies `polyval`/`polyval2` and `chebval`/`chebval2`
(numba and plain versions) are the same code and are modelled once.  `scipy.signal.convolve` and numpy's
`polyder`/`chebder` are external.
-/

namespace YRoots

variable {n : ℕ} {K : Type*}

/-! ### Cleaning, sizes, arithmetic -/

section Arith

variable [Field K] [LinearOrder K]

/-- The while loop of `clean_coeff` for one axis, polynomial.py lines 160-174.  (`continue` with `change = False` leaves
the loop.) -/
def cleanAxis (d : Fin n) (M : Tensor n K) : Tensor n K :=
  if h : M.shape d = 1 then M
  else if h2 : M.lastSum d = 0 ∧ 0 < M.shape d then cleanAxis d (M.dropLast d)
  else M
termination_by M.shape d
decreasing_by
  simp only [Tensor.dropLast, Function.update_self]
  omega

/-- `Polynomial.clean_coeff`, lines 155-174. -/
def cleanCoeff (M : Tensor n K) : Tensor n K :=
  (List.finRange n).foldl (fun M d => cleanAxis d M) M

/-- The coefficient array of `Polynomial(coeff, clean_zeros)`, lines 137-153 (exact numbers: the dtype is the subject of
`Verif.Model.Dtype`). -/
def mkPoly (M : Tensor n K) (clean_zeros : Bool := true) : Tensor n K :=
  if clean_zeros then cleanCoeff M else M

/-- `a_new = np.zeros(new_shape); a_new[slice_top(a.shape)] = a`, lines 6-22, 39-40. -/
def padTo (M : Tensor n K) (shape : Fin n → ℕ) : Tensor n K where
  shape := shape
  coef k := if ∀ i, k i < M.shape i then M.coef k else 0

/-- `match_size(a, b)`, lines 23-43. -/
def matchSize (A B : Tensor n K) : Tensor n K × Tensor n K :=
  let s := fun i => max (A.shape i) (B.shape i)
  (padTo A s, padTo B s)

/-- The common beginning of the arithmetic methods, e.g. lines 291-294. -/
def sameSize (A B : Tensor n K) : Tensor n K × Tensor n K :=
  if A.shape ≠ B.shape then matchSize A B else (A, B)

/-- Entrywise addition of arrays of the same shape. -/
def Tensor.addA (A B : Tensor n K) : Tensor n K := ⟨A.shape, fun k => A.coef k + B.coef k⟩

/-- Entrywise subtraction of arrays of the same shape. -/
def Tensor.subA (A B : Tensor n K) : Tensor n K := ⟨A.shape, fun k => A.coef k - B.coef k⟩

/-- External: `scipy.signal.convolve(a, b)` (full mode), by its defining sum. -/
def convolve (A B : Tensor n K) : Tensor n K where
  shape i := A.shape i + B.shape i - 1
  coef k := ∑ a ∈ A.idx, ∑ b ∈ B.idx, if (∀ i, a i + b i = k i) then A.coef a * B.coef b else 0

/-- `MultiCheb.__add__`, lines 278-296. -/
def chebAdd (A B : Tensor n K) : Tensor n K := mkPoly ((sameSize A B).1.addA (sameSize A B).2)

/-- `MultiCheb.__sub__`, lines 298-315. -/
def chebSub (A B : Tensor n K) : Tensor n K := mkPoly ((sameSize A B).1.subA (sameSize A B).2) false

/-- `MultiPower.__add__`, lines 443-460. -/
def powAdd (A B : Tensor n K) : Tensor n K := mkPoly ((sameSize A B).1.addA (sameSize A B).2) false

/-- `MultiPower.__sub__`, lines 462-480. -/
def powSub (A B : Tensor n K) : Tensor n K := mkPoly ((sameSize A B).1.subA (sameSize A B).2) false

/-- `MultiPower.__mul__`, lines 482-501. -/
def powMul (A B : Tensor n K) : Tensor n K := mkPoly (convolve (sameSize A B).1 (sameSize A B).2)

/-- `np.allclose(a, b)` for entries: `|a - b| <= atol + rtol * |b|` with the default tolerances. -/
def closeTo (a b : K) : Prop := |a - b| ≤ 1 / 10 ^ 8 + 1 / 10 ^ 5 * |b|

instance (a b : K) : Decidable (closeTo a b) := inferInstanceAs (Decidable (_ ≤ _))

/-- `Polynomial.__eq__`, lines 227-233. -/
def polyEq (A B : Tensor n K) : Bool :=
  if A.shape ≠ B.shape then false else decide (∀ k ∈ A.idx, closeTo (A.coef k) (B.coef k))

end Arith

/-! ### Evaluation -/

/-- A numpy array during evaluation: `m` coefficient axes, then axes of lengths `pre`, then one last axis of length
`len`.  Entry at coefficient index `k`, `pre`-index `g` and last index `p`. -/
structure PArr (m : ℕ) (K : Type*) where
  shape : Fin m → ℕ
  pre : List ℕ
  len : ℕ
  val : (Fin m → ℕ) → (ℕ → ℕ) → ℕ → K

namespace PArr

variable {m : ℕ}

/-- Broadcast reading along the last axis. -/
def get (A : PArr m K) (k : Fin m → ℕ) (g : ℕ → ℕ) (p : ℕ) : K := A.val k g (if A.len = 1 then 0 else p)

/-- Broadcast length (numpy raises an error for incompatible lengths; they never are here). -/
def blen (a b : ℕ) : ℕ := if a = 1 then b else a

/-- `cc[j]`. -/
def slice (A : PArr (m + 1) K) (j : ℕ) : PArr m K :=
  ⟨fun i => A.shape i.succ, A.pre, A.len, fun k g p => A.val (Fin.cons j k) g p⟩

/-- Entrywise operation with broadcasting in the last axis. -/
def bin (f : K → K → K) (A B : PArr m K) : PArr m K :=
  ⟨A.shape, A.pre, blen A.len B.len, fun k g p => f (A.get k g p) (B.get k g p)⟩

/-- `A * x` for a vector `x` of length `N`. -/
def mulVec [Mul K] (A : PArr m K) (N : ℕ) (x : ℕ → K) : PArr m K :=
  ⟨A.shape, A.pre, blen A.len N, fun k g p => A.get k g p * x (if N = 1 then 0 else p)⟩

/-- `np.zeros_like(A)`. -/
def zerosLike [Zero K] (A : PArr m K) : PArr m K := ⟨A.shape, A.pre, A.len, fun _ _ _ => 0⟩

end PArr

/-- `polyval(x, cc)`, lines 47-57, for a vector `x` of length `N`. -/
def polyval {m : ℕ} [Field K] (N : ℕ) (x : ℕ → K) (cc : PArr (m + 1) K) : PArr m K :=
  let L := cc.shape 0
  (List.range' 2 (L - 1)).foldl (fun c0 i => PArr.bin (· + ·) (cc.slice (L - i)) (c0.mulVec N x)) (cc.slice (L - 1))

/-- `chebval(x, cc)`, lines 59-91, for a vector `x` of length `N`. -/
def chebval {m : ℕ} [Field K] (N : ℕ) (x : ℕ → K) (cc : PArr (m + 1) K) : PArr m K :=
  let L := cc.shape 0
  let c : PArr m K × PArr m K :=
    if L = 1 then (cc.slice 0, (cc.slice 0).zerosLike)
    else if L = 2 then (cc.slice 0, cc.slice 1)
    else
      (List.range' 3 (L - 2)).foldl
        (fun c i => (PArr.bin (· - ·) (cc.slice (L - i)) c.2, PArr.bin (· + ·) c.1 (c.2.mulVec N fun p => 2 * x p)))
        (cc.slice (L - 2), cc.slice (L - 1))
  PArr.bin (· + ·) c.1 (c.2.mulVec N x)

/-- The two bases: `MultiPower` and `MultiCheb`. -/
inductive Basis where
  | power
  | cheb
  deriving DecidableEq

/-- `polyval`/`chebval` according to the class. -/
def basisVal {m : ℕ} [Field K] : Basis → ℕ → (ℕ → K) → PArr (m + 1) K → PArr m K
  | .power => polyval
  | .cheb => chebval

/-- The array argument `points`: a scalar, a 1-d array or a 2-d array. -/
inductive PointsArg (K : Type*) where
  | scalar (x : K)
  | vec (len : ℕ) (x : ℕ → K)
  | mat (rows cols : ℕ) (x : ℕ → ℕ → K)

/-- `Polynomial.__call__`, lines 176-205: the points as an array with one row per point, or `ValueError`. -/
def callPoints (n : ℕ) (a : PointsArg K) : Except Exc (ℕ × (ℕ → ℕ → K)) :=
  let toMat : ℕ → (ℕ → K) → ℕ × ℕ × (ℕ → ℕ → K) := fun len x =>
    if n > 1 then (1, len, fun _ j => x j) else (len, 1, fun i _ => x i)
  let r : ℕ × ℕ × (ℕ → ℕ → K) := match a with
    | .scalar x => toMat 1 fun _ => x
    | .vec len x => toMat len x
    | .mat rows cols x => (rows, cols, x)
  if r.2.1 ≠ n then .error .valueError else .ok (r.1, r.2.2)

/-- The loop of `__call__`, lines 336-338 (522-524): evaluate the axes one after the other; column `j` of the points
belongs to the axis now first. -/
def callLoop [Field K] (B : Basis) (N : ℕ) (points : ℕ → ℕ → K) : (m : ℕ) → ℕ → PArr m K → PArr 0 K
  | 0, _, A => A
  | m + 1, j, A => callLoop B N points m (j + 1) (basisVal B N (fun p => points p j) A)

/-- `cc = c.reshape(c.shape + (1,)*points.ndim)` with `points.ndim = 2`, line 335 (521). -/
def reshape2 (M : Tensor n K) : PArr n K := ⟨M.shape, [1], 1, fun k _ _ => M.coef k⟩

/-- `MultiCheb.__call__` lines 317-342, `MultiPower.__call__` lines 503-528: the returned values.  The array is now of
shape `(1, len)`, so that `len(c) == 1` always holds and `c[0]` is returned (lines 339-340, 525-526). -/
def polyCall [Field K] (B : Basis) (M : Tensor n K) (a : PointsArg K) : Except Exc (List K) :=
  match callPoints n a with
  | .error e => .error e
  | .ok (N, points) =>
    let c := callLoop B N points n 0 (reshape2 M)
    .ok ((List.range c.len).map fun p => c.val Fin.elim0 (fun _ => 0) p)

/-- `c.reshape(c.shape + (1,))`, lines 363, 549. -/
def addAxis {m : ℕ} (A : PArr m K) : PArr m K :=
  ⟨A.shape, A.pre ++ [A.len], 1, fun k g _ => A.val k g (g A.pre.length)⟩

/-- The loop of `evaluate_grid`, lines 362-364 (548-550).  The first pass starts from the array without trailing axes,
see `gridCall`. -/
def gridLoop [Field K] (B : Basis) (N : ℕ) (xyz : ℕ → ℕ → K) : (m : ℕ) → ℕ → PArr m K → PArr 0 K
  | 0, _, A => A
  | m + 1, j, A => gridLoop B N xyz m (j + 1) (basisVal B N (fun p => xyz p j) (addAxis A))

/-- `MultiCheb.evaluate_grid` lines 344-371, `MultiPower.evaluate_grid` lines 530-557: shape and entries of the result.
Here one leading axis of length 1 is carried along (the array without trailing axes is `⟨shape, [], 1⟩`), which
`gridCall` removes at the end. -/
def gridCall [Field K] (B : Basis) (M : Tensor n K) (a : PointsArg K) : Except Exc (List ℕ × ((ℕ → ℕ) → K)) :=
  match callPoints n a with
  | .error e => .error e
  | .ok (N, xyz) =>
    let c := gridLoop B N xyz n 0 ⟨M.shape, [], 1, fun k _ _ => M.coef k⟩
    .ok ((c.pre ++ [c.len]).tail, fun g => c.val Fin.elim0 (fun j => if j = 0 then 0 else g (j - 1)) (g (c.pre.length - 1)))

/-! ### Gradient -/

/-- A polynomial object with its cached Jacobian (`self.coeff`, `self.jac`). -/
structure PolyObj (n : ℕ) (K : Type*) where
  coeff : Tensor n K
  jac : Option (Fin n → Tensor n K)

/-- `chebvalnd(x, c)` lines 647-668, `polyvalnd(x, c)` lines 670-691, at one point: numpy's `chebval`, `polyval` evaluate
axis after axis by the same recurrences. -/
def valnd [Field K] (B : Basis) (x : Fin n → K) (c : Tensor n K) : K :=
  (callLoop B 1 (fun _ j => if h : j < n then x ⟨j, h⟩ else 0) n 0 (reshape2 c)).get Fin.elim0 (fun _ => 0) 0

/-- `MultiCheb.grad` lines 373-401, `MultiPower.grad` lines 559-586, for a point of the right dimension; `der` is the
external `chebder`/`polyder`. -/
def gradCall [Field K] (B : Basis) (der : Tensor n K → Fin n → Tensor n K) (p : PolyObj n K) (point : Fin n → K) :
    (Fin n → K) × PolyObj n K :=
  let jac := match p.jac with
    | none => der p.coeff
    | some j => j
  (fun i => valnd B point (jac i), { p with jac := some jac })

/-- External: `numpy.polynomial.polynomial.polyder(c)` on rows, `N = len(c)`: rows and their number. -/
def polyder1D {V : Type*} [Field K] [AddCommGroup V] [Module K V] (c : ℕ → V) (N : ℕ) : (ℕ → V) × ℕ :=
  if N ≤ 1 then (fun _ => 0, 1) else (fun j => ((j : K) + 1) • c (j + 1), N - 1)

/-- External: `numpy.polynomial.chebyshev.chebder(c)` on rows, `N = len(c)`, with numpy's downward loop
`der[j-1] = 2j c[j]; c[j-2] += j c[j]/(j-2)` for `j = N-1, ..., 3`, then `der[1] = 4 c[2]`, `der[0] = c[1]`. -/
def chebder1D {V : Type*} [Field K] [AddCommGroup V] [Module K V] (c : ℕ → V) (N : ℕ) : (ℕ → V) × ℕ :=
  if N ≤ 1 then (fun _ => 0, 1)
  else
    let s := (List.range (N - 3)).foldl
      (fun (s : (ℕ → V) × (ℕ → V)) t =>
        let j := N - 1 - t
        (Function.update s.1 (j - 2) (s.1 (j - 2) + ((j : K) / ((j : K) - 2)) • s.1 j),
         Function.update s.2 (j - 1) ((2 * (j : K)) • s.1 j)))
      (c, fun _ => 0)
    let der := if N - 1 > 1 then Function.update s.2 1 ((4 : K) • s.1 2) else s.2
    (Function.update der 0 (s.1 1), N - 1)

/-- External: `polyder(c, axis=i)` / `chebder(c, axis=i)`. -/
def npDer [Field K] (B : Basis) (M : Tensor n K) (i : Fin n) : Tensor n K :=
  M.ofRows i (match B with
    | .power => polyder1D (K := K) (M.rows i) (M.shape i)
    | .cheb => chebder1D (K := K) (M.rows i) (M.shape i))

/-! ### Conversion to the Chebyshev basis -/

section ToCheb

variable [Field K]

/-- `get_new_As(As)`, lines 589-612, on an array of length `L`; the result has length `L + 1`. -/
def getNewAs (L : ℕ) (As : ℕ → K) : ℕ → K :=
  if L = 0 then Function.update (fun _ => 0) 0 1
  else
    let Bs : ℕ → K := fun _ => 0
    if L = 1 then Function.update Bs 1 (As 0)
    else
      let Bs := if L % 2 = 0 then Function.update Bs 0 (As 1 / 2) else Bs
      let Bs := Function.update Bs L (As (L - 1) / 2)
      if L = 2 then Function.update Bs 1 (As 0)
      else
        let Bs := if L % 2 = 1 then Function.update Bs 1 (As 0 + As 2 / 2) else Bs
        -- `Bs[2+n%2:-2:2] = (As[1+n%2:-2:2] + As[3+n%2::2])/2`
        if L > 3 then fun i =>
          if 2 + L % 2 ≤ i ∧ i < L - 1 ∧ (i - (2 + L % 2)) % 2 = 0 then (As (i - 1) + As (i + 1)) / 2 else Bs i
        else Bs

/-- `to_cheb1D(coeffs)`, lines 613-624, on rows; `N = len(coeffs)`. -/
def toCheb1D {V : Type*} [AddCommGroup V] [Module K V] (coeffs : ℕ → V) (N : ℕ) : ℕ → V :=
  ((List.range N).foldl
    (fun (s : (ℕ → K) × (ℕ → V)) i =>
      let As := getNewAs i s.1
      (As, fun r => if r < i + 1 then s.2 r + As r • coeffs i else s.2 r))
    ((fun _ => 0), fun _ => 0)).2

/-- `to_chebND(coeffs, dim)`, lines 625-633. -/
def toChebND (M : Tensor n K) (d : Fin n) : Tensor n K :=
  let z : Fin n := ⟨0, d.pos⟩
  let T := M.transpose (moveAxisOrder d)
  (T.ofRows z (toCheb1D (K := K) (T.rows z) (T.shape z), T.shape z)).transpose (moveAxisOrder d).symm

/-- `MultiPower.to_cheb()`, lines 587-638. -/
def toCheb (M : Tensor n K) : Tensor n K :=
  (List.finRange n).foldl toChebND M

end ToCheb

end YRoots
