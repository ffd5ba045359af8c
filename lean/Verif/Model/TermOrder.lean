import Mathlib.Algebra.BigOperators.Group.List.Basic

/-!
# Monomial orders (`utils.py`)

A `Term` is its tuple of exponents, here a list of natural numbers.
-/

namespace YRoots.Legacy

/-- The loop `for i,j in zip(a, b)` of `Term.__lt__`, `utils.py` lines 94-99 and 106-111. -/
def lexScan : List ℕ → List ℕ → Bool
  | i :: a, j :: b => if i < j then true else if i > j then false else lexScan a b
  | _, _ => false

/-- The loop `for i,j in zip(reversed(a), reversed(b))`, `utils.py` lines 87-92 (arguments already reversed). -/
def revScan : List ℕ → List ℕ → Bool
  | i :: a, j :: b => if i < j then false else if i > j then true else revScan a b
  | _, _ => false

/-- The argument `order` of `Term.__lt__`. -/
inductive TermOrder
  | grevlex
  | lexographic
  | grlex

/-- `Term.__lt__`, `utils.py` lines 77-111. -/
def termLt : TermOrder → List ℕ → List ℕ → Bool
  | .grevlex, a, b => if a.sum < b.sum then true else if a.sum > b.sum then false else revScan a.reverse b.reverse
  | .lexographic, a, b => lexScan a b
  | .grlex, a, b => if a.sum < b.sum then true else if a.sum > b.sum then false else lexScan a b

/-- `Term.__eq__`, lines 115-116. -/
def termEq (a b : List ℕ) : Bool := a = b

/-- `Term.__gt__`, lines 118-119. -/
def termGt (a b : List ℕ) : Bool := !(termLt .grevlex a b || termEq a b)

/-- `Term.__ge__`, lines 121-122. -/
def termGe (a b : List ℕ) : Bool := termGt a b || termEq a b

/-- `Term.__le__`, lines 124-125. -/
def termLe (a b : List ℕ) : Bool := termLt .grevlex a b || termEq a b

end YRoots.Legacy
