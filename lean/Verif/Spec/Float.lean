import Mathlib.Algebra.Order.Floor.Ring
import Mathlib.Algebra.Order.Field.Basic
import Mathlib.Algebra.Order.Archimedean.Basic
import Mathlib.Data.Int.Log
import Mathlib.Algebra.Ring.Int.Parity

/-!
# Specification: binary floating-point numbers without exponent limits

Nothing in this file refers to the code under study.  Overflow and underflow are left out by allowing all exponents.
-/

namespace YRoots

variable {K : Type*} [Field K] [LinearOrder K]

/-- `x` is a binary floating-point number with `p` digits. -/
def IsFloat (p : ℕ) (x : K) : Prop := ∃ m e : ℤ, |m| < 2 ^ p ∧ x = m * 2 ^ e

/-- `fl` rounds every number to a nearest floating-point number with `p` digits (no condition on ties). -/
structure RoundsToNearest (p : ℕ) (fl : K → K) : Prop where
  isFloat : ∀ x, IsFloat p (fl x)
  nearest : ∀ x g, IsFloat p g → |x - fl x| ≤ |x - g|

variable [FloorRing K]

/-- Nearest integer, ties to even. -/
def roundEven (q : K) : ℤ :=
  if q - ⌊q⌋ < 1 / 2 then ⌊q⌋ else if 1 / 2 < q - ⌊q⌋ then ⌊q⌋ + 1 else if Even ⌊q⌋ then ⌊q⌋ else ⌊q⌋ + 1

/-- Round to nearest, ties to even: the rounding of IEEE 754 arithmetic (for `p = 53`, binary64), without exponent
limits. -/
def roundFloat (p : ℕ) (x : K) : K :=
  if x = 0 then 0 else roundEven (x / 2 ^ (Int.log 2 |x| + 1 - p)) * 2 ^ (Int.log 2 |x| + 1 - p)

end YRoots
