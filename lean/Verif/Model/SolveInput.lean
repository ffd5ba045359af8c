import Mathlib.Order.Defs.LinearOrder
import Mathlib.Data.List.Basic

/-!
# Input conversions of `solve`

`/repo/yroots/Combined_Solver.py` lines 87-106.  Arrays are one-dimensional.
-/

namespace YRoots

/-- The argument `funcs`: a list or object array, whose entries are callable or not (`none`), or any other object (a tuple
of functions is such an object and is not callable). -/
inductive FuncsArg (F : Type*) where
  | many (l : List (Option F))
  | one (f : Option F)

/-- The arguments `a` and `b`. -/
inductive BoundArg (K : Type*) where
  | scalar (x : K)
  | list (l : List K)
  | array (l : List K)
  | tuple (l : List K)

/-- What lines 87-106 raise: the three `ValueError`s of the function, and the `ValueError` of `np.full` for a tuple that cannot
be broadcast. -/
inductive InputError where
  | notCallable (i : ℕ)
  | broadcast
  | lengths
  | order
  deriving DecidableEq

variable {F K : Type*}

/-- Lines 88-89. -/
def FuncsArg.toList : FuncsArg F → List (Option F)
  | .many l => l
  | .one f => [f]

/-- The loop of lines 90-92; `i` is the running index. -/
def checkCallable : ℕ → List (Option F) → Except InputError (List F)
  | _, [] => .ok []
  | i, none :: _ => .error (.notCallable i)
  | i, some f :: l =>
    match checkCallable (i + 1) l with
    | .error e => .error e
    | .ok r => .ok (f :: r)

/-- Lines 94-101: `np.array(a)` for a list, `np.full(dim, a)` for anything but an array. -/
def BoundArg.toArray (dim : ℕ) : BoundArg K → Except InputError (List K)
  | .list l => .ok l
  | .array l => .ok l
  | .scalar x => .ok (List.replicate dim x)
  | .tuple [x] => .ok (List.replicate dim x)
  | .tuple l => if l.length = dim then .ok l else .error .broadcast

/-- Lines 87-105: functions, lower and upper bounds. -/
def solveInput [LinearOrder K] (funcs : FuncsArg F) (a b : BoundArg K) :
    Except InputError (List F × List K × List K) :=
  match checkCallable 0 funcs.toList with
  | .error e => .error e
  | .ok fs =>
    match a.toArray fs.length with
    | .error e => .error e
    | .ok a' =>
      match b.toArray fs.length with
      | .error e => .error e
      | .ok b' =>
        if a'.length ≠ b'.length then .error .lengths
        else if (a'.zip b').any fun p => p.2 < p.1 then .error .order
        else .ok (fs, a', b')

end YRoots
