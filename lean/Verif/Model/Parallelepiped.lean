import Verif.Model.IntervalChecks

/-!
# Projection along a linear polynomial (`LinearProjection.py`)

The QR factorisations are oracles.  The arrays have `n + 1` axes.
-/

namespace YRoots.Legacy

variable {n : ℕ} {K : Type*} [Field K] [LinearOrder K]

/-- The QR factorisations used: `scipy.linalg.qr(A, pivoting=True)` of a matrix with `m` columns gives `Q`, `R` and the permutation;
`np.linalg.qr` of a square matrix gives `Q`. -/
structure ProjLib (n : ℕ) (K : Type*) where
  qrQ : ∀ {m : ℕ}, Matrix (Fin (n + 1)) (Fin m) K → Matrix (Fin (n + 1)) (Fin (n + 1)) K
  qrR : ∀ {m : ℕ}, Matrix (Fin (n + 1)) (Fin m) K → Matrix (Fin (n + 1)) (Fin m) K
  qrP : ∀ {m : ℕ}, Matrix (Fin (n + 1)) (Fin m) K → Equiv.Perm (Fin m)
  qr : Matrix (Fin (n + 1)) (Fin (n + 1)) K → Matrix (Fin (n + 1)) (Fin (n + 1)) K

/-- `product(*coord)`: all tuples of `-1` and `1`, in the order of `itertools.product`. -/
def signTuples : (n : ℕ) → List (Fin n → K)
  | 0 => [Fin.elim0]
  | n + 1 => [-1, 1].flatMap fun s : K => (signTuples n).map fun t => Fin.cons s t

/-- The points on the edges in direction `i`, `LinearProjection.py` lines 195-206: none if the coefficient is close to zero
(`np.isclose`: at most `1e-8`), since `nan` passes no comparison. -/
def edgePoints (const : K) (coeff : Fin (n + 1) → K) (i : Fin (n + 1)) : List (Fin (n + 1) → K) :=
  if |coeff i| ≤ 1 / 10 ^ 8 then []
  else
    ((signTuples n).map fun t =>
      let pt : Fin (n + 1) → K := i.insertNth 0 t
      let val := (List.finRange (n + 1)).foldl (fun val j => if i = j then val else val - coeff j * pt j) (-const)
      Function.update pt i (val / coeff i)).filter fun pt => (∀ j, -1 ≤ pt j) ∧ ∀ j, pt j ≤ 1

/-- Lexicographic order of rows. -/
def rowLE {m : ℕ} (a b : Fin m → K) : Bool :=
  match (List.finRange m).find? fun i => a i ≠ b i with
  | some i => a i < b i
  | none => true

/-- `np.unique(·, axis=0)`. -/
def uniqueRows {m : ℕ} (l : List (Fin m → K)) : List (Fin m → K) := l.dedup.mergeSort rowLE

/-- `np.min` of a row. -/
def rowMin : List K → K
  | [] => 0
  | a :: l => l.foldl min a

/-- `np.max` of a row. -/
def rowMax : List K → K
  | [] => 0
  | a :: l => l.foldl max a

/-- `bounding_parallelepiped(linear)`, `LinearProjection.py` lines 153-226: the vertex `p0` and the matrix whose columns are the edges. -/
def boundingParallelepiped (L : ProjLib n K) (linear : Tensor (n + 1) K) :
    (Fin (n + 1) → K) × Matrix (Fin (n + 1)) (Fin n) K :=
  let const := linear.const
  let coeff := linCoef linear
  let vert := (List.finRange (n + 1)).flatMap (edgePoints const coeff)
  match uniqueRows vert with
  | [] =>
    (fun i => -const / (∑ j, coeff j * coeff j) * coeff i,
      Matrix.of fun i k => L.qr (Matrix.of fun i j => Fin.cases (coeff i) (fun k => if i = k.castSucc then 1 else 0) j) i k.succ)
  | v0 :: vs =>
    let shift : Matrix (Fin (n + 1)) (Fin (v0 :: vs).length) K := Matrix.of fun i j => (v0 :: vs).get j i - v0 i
    let Q := L.qrQ shift
    let minVals := fun k : Fin n => rowMin (List.ofFn (L.qrR shift k.castSucc))
    let maxVals := fun k : Fin n => rowMax (List.ofFn (L.qrR shift k.castSucc))
    (fun i => ∑ k : Fin n, Q i k.castSucc * minVals k + v0 i, Matrix.of fun i k => Q i k.castSucc * (maxVals k - minVals k))

/-- The map `T` of `project_down`, `LinearProjection.py` lines 89-92. -/
def projT (L : ProjLib n K) (linear : Tensor (n + 1) K) (x : Fin n → K) (i : Fin (n + 1)) : K :=
  let p := boundingParallelepiped L linear
  ∑ k, p.2 i k / 2 * x k + (p.1 i + (∑ k, p.2 i k) / n)

end YRoots.Legacy
