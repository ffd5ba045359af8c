import Verif.Model.Tensor

/-!
# Polynomials given as strings (`utils.py`)

Strings are lists of characters.  `int` and `float` of Python are parameters (`none` is `ValueError`).  A numpy array of unknown
dimension is `NDArr`.
-/

namespace YRoots.Legacy

/-- Python's `int` and `float` on strings; `none` stands for `ValueError`. -/
structure PyParse (K : Type) where
  int : List Char → Option ℤ
  float : List Char → Option K

/-- The exceptions `makePolyCoeffMatrix` can raise. -/
inductive ParseExc
  | valueError
  | indexError
  deriving DecidableEq

/-- An array with as many axes as `shape` has entries. -/
structure NDArr (K : Type) where
  shape : List ℕ
  coef : List ℕ → K

/-- The array as a tensor. -/
def NDArr.toTensor {K : Type} (A : NDArr K) : Tensor A.shape.length K :=
  ⟨fun i => A.shape.get i, fun k => A.coef (List.ofFn k)⟩

/-- `first_x`, `utils.py` lines 442-460. -/
def firstX : List Char → ℕ
  | [] => 0
  | c :: s => if c = 'x' then 0 else firstX s + 1

/-- A Python index into an axis of length `N`: negative indices count from the end. -/
def pyIndex (N : ℕ) (i : ℤ) : Except ParseExc ℕ :=
  if 0 ≤ i ∧ i < N then .ok i.toNat
  else if i < 0 ∧ -(N : ℤ) ≤ i then .ok (i + N).toNat
  else .error .indexError

variable {K : Type}

/-- `int(s)` with the exception. -/
def PyParse.intE (P : PyParse K) (s : List Char) : Except ParseExc ℤ :=
  match P.int s with
  | some i => .ok i
  | none => .error .valueError

/-- `float(s)` with the exception. -/
def PyParse.floatE (P : PyParse K) (s : List Char) : Except ParseExc K :=
  match P.float s with
  | some i => .ok i
  | none => .error .valueError

/-- The exponent of a factor, `utils.py` lines 507-510. -/
def parsePower (P : PyParse K) (stuff : List (List Char)) : Except ParseExc ℤ :=
  if stuff.length = 1 then .ok 1 else P.intE (stuff.getD 1 [])

/-- The variable of a factor, `utils.py` lines 511-514. -/
def parseVar (P : PyParse K) (stuff : List (List Char)) : Except ParseExc ℤ :=
  if stuff.getD 0 [] = [] then .ok (-1) else P.intE ((stuff.getD 0 []).drop 1)

/-- One pass of the loop `for mon in mons`, `utils.py` lines 506-518. -/
def parseFactor (P : PyParse K) (spot : List ℤ) (mon : List Char) : Except ParseExc (List ℤ) := do
  let stuff := mon.splitOn '^'
  let power ← parsePower P stuff
  let varDegree ← parseVar P stuff
  if varDegree ≠ -1 then
    let spot := if (spot.length : ℤ) ≤ varDegree then
      spot ++ List.replicate (varDegree - spot.length + 1).toNat 0 else spot
    let i ← pyIndex spot.length varDegree
    pure (spot.set i power)
  else pure spot

/-- The coefficient of a monomial, `utils.py` lines 497-502. -/
def parseCoef [Ring K] (P : PyParse K) (s : List Char) : Except ParseExc K :=
  if s = ['-'] then .ok (-1) else if s = [] then .ok 1 else P.floatE s

/-- One pass of the loop over the monomials, `utils.py` lines 495-520. -/
def parseMonomial [Ring K] (P : PyParse K) (monomial : List Char) : Except ParseExc (List ℤ × K) := do
  let coefficient ← parseCoef P (monomial.take (firstX monomial))
  let spot ← ((monomial.drop (firstX monomial)).splitOn '*').foldlM (parseFactor P) [0]
  pure (spot, coefficient)

/-- Padding with zeros at the end to a given length, `utils.py` lines 521-527. -/
def padSpot (length : ℕ) (spot : List ℤ) : List ℤ := spot ++ List.replicate (length - spot.length) 0

/-- `np.maximum.reduce` of rows of the same length (`[]` for no rows, which does not occur), `utils.py` line 528. -/
def maxRows : List (List ℤ) → List ℤ
  | [] => []
  | r :: rs => rs.foldl (List.zipWith max) r

/-- `matrix[tuple(matrixSpot)] = coefficient`, `utils.py` lines 532-535. -/
def setSpot (A : NDArr K) (spot : List ℤ) (c : K) : Except ParseExc (NDArr K) := do
  let k ← (A.shape.zip spot).mapM fun p => pyIndex p.1 p.2
  pure ⟨A.shape, fun j => if j = k then c else A.coef j⟩

/-- `makePolyCoeffMatrix`, `utils.py` lines 480-536.  `np.zeros` raises `ValueError` for a negative length. -/
def makePolyCoeffMatrix [Ring K] (P : PyParse K) (inputString : List Char) : Except ParseExc (NDArr K) := do
  let parsed ← (inputString.splitOn '+').mapM (parseMonomial P)
  let length := (parsed.map fun p => p.1.length).foldl max 0
  let spots := parsed.map fun p => padSpot length p.1
  let matrixSize := ((maxRows spots).map (· + 1)).reverse
  if ∃ s ∈ matrixSize, s < 0 then .error .valueError
  else
    (spots.zip (parsed.map Prod.snd)).foldlM (fun A p => setSpot A p.1.reverse p.2)
      (⟨matrixSize.map Int.toNat, fun _ => 0⟩ : NDArr K)

end YRoots.Legacy
