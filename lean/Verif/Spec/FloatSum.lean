import Verif.Model.FloatBounding

/-!
# Specification: sums with rounding

`np.sum` adds the numbers in an order of its own; every addition is rounded.
-/

namespace YRoots

variable {K : Type*}

/-- A way to add up numbers in pairs. -/
inductive SumTree (K : Type*) where
  | leaf : K → SumTree K
  | node : SumTree K → SumTree K → SumTree K

namespace SumTree

/-- The numbers added. -/
def leaves : SumTree K → List K
  | leaf x => [x]
  | node a b => a.leaves ++ b.leaves

/-- The result when every addition is rounded. -/
def val [Add K] (fl : K → K) : SumTree K → K
  | leaf x => x
  | node a b => fl (a.val fl + b.val fl)

end SumTree

/-- `sum` adds the numbers of a list in some order. -/
structure FloatArith.Sums [AddZeroClass K] (ar : FloatArith K) : Prop where
  nil : ar.sum [] = 0
  tree : ∀ l, l ≠ [] → ∃ t : SumTree K, t.leaves.Perm l ∧ t.val ar.fl = ar.sum l

end YRoots
