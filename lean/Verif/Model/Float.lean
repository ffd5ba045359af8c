import Mathlib.Algebra.Field.Defs

/-!
# Model of the error-free transformations in floating-point arithmetic

`/repo/yroots/ChebyshevSubdivisionSolver.py`, lines 755-805.  Every operation is followed by the rounding `fl` of the
arithmetic; the integer literal `2**27 + 1` is exactly representable.  The numba versions and the `_NoNumba` versions
have the same bodies.
-/

namespace YRoots

variable {K : Type*} [Field K]

/-- `TwoSum(a, b)`, lines 755-761 (762-767). -/
def twoSumF (fl : K → K) (a b : K) : K × K :=
  let x := fl (a + b)
  let z := fl (x - a)
  let y := fl (fl (a - fl (x - z)) + fl (b - z))
  (x, y)

/-- `Split(a)`, lines 769-775 (776-781). -/
def splitF (fl : K → K) (a : K) : K × K :=
  let c := fl ((2 ^ 27 + 1) * a)
  let x := fl (c - fl (c - a))
  let y := fl (a - x)
  (x, y)

/-- The last line of `TwoProd`, `TwoProdWithSplit`: `y=a2*b2-(((x-a1*b1)-a2*b1)-a1*b2)`. -/
def prodError (fl : K → K) (x a1 a2 b1 b2 : K) : K :=
  fl (fl (a2 * b2) - fl (fl (fl (x - fl (a1 * b1)) - fl (a2 * b1)) - fl (a1 * b2)))

/-- `TwoProd(a, b)`, lines 783-790 (791-797). -/
def twoProdF (fl : K → K) (a b : K) : K × K :=
  let x := fl (a * b)
  let a12 := splitF fl a
  let b12 := splitF fl b
  (x, prodError fl x a12.1 a12.2 b12.1 b12.2)

/-- `TwoProdWithSplit(a, b, a1, a2)`, lines 799-805. -/
def twoProdWithSplitF (fl : K → K) (a b a1 a2 : K) : K × K :=
  let x := fl (a * b)
  let b12 := splitF fl b
  (x, prodError fl x a1 a2 b12.1 b12.2)

end YRoots
