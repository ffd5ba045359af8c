import Mathlib.Order.Defs.LinearOrder
import Mathlib.Data.Int.Cast.Basic
import Mathlib.Data.List.Basic

/-!
# The class `Tolerances` (`utils.py`)

Names are lists of characters, `__dict__` is a list of pairs in the order of insertion.  Attributes with leading and trailing double
underscores are left out.
-/

namespace YRoots.Legacy

/-- A Python number: an `int` (or `bool`) or a `float`. -/
inductive Scalar (K : Type*)
  | int (z : ℤ)
  | flt (x : K)

/-- The value of a number. -/
def Scalar.val {K : Type*} [IntCast K] : Scalar K → K
  | .int z => z
  | .flt x => x

/-- The value of an attribute: a number or an iterable of numbers. -/
inductive Attr (K : Type*)
  | num (x : Scalar K)
  | list (l : List (Scalar K))

/-- A keyword argument: a number, a list, or an object without `len` such as `None`. -/
inductive TolVal (K : Type*)
  | num (x : Scalar K)
  | list (l : List (Scalar K))
  | other

/-- The exceptions. -/
inductive TolExc
  | valueError
  | typeError
  | indexError
  | attributeError
  deriving DecidableEq

/-- `__dict__` of an object. -/
abbrev PyDict (K : Type*) := List (List Char × Attr K)

variable {K : Type*}

/-- `__setattr__`: replaces the value of an existing key in place, otherwise appends. -/
def setAttr (d : PyDict K) (a : List Char) (v : Attr K) : PyDict K :=
  match d with
  | [] => [(a, v)]
  | p :: d => if p.1 = a then (a, v) :: d else p :: setAttr d a v

/-- `self.a`, looked up in `__dict__`. -/
def getAttr (d : PyDict K) (a : List Char) : Option (Attr K) :=
  match d with
  | [] => none
  | p :: d => if p.1 = a then some p.2 else getAttr d a

/-- The loop which finds the number of tolerances, `utils.py` lines 1408-1412. -/
def numTolsOf : List (List Char × TolVal K) → ℤ → Except TolExc ℤ
  | [], n => .ok n
  | (_, .num _) :: kw, n => numTolsOf kw n
  | (_, .list l) :: kw, _ => numTolsOf kw l.length
  | (_, .other) :: _, _ => .error .typeError

/-- The loop which stores the lists, `utils.py` lines 1414-1423 (an `other` was rejected before). -/
def storeTols (numTols : ℤ) : List (List Char × TolVal K) → PyDict K → Except TolExc (PyDict K)
  | [], d => .ok d
  | (a, .num x) :: kw, d => storeTols numTols kw (setAttr d (a ++ ['s']) (.list (List.replicate numTols.toNat x)))
  | (a, .list l) :: kw, d =>
    if (l.length : ℤ) ≠ numTols then .error .valueError else storeTols numTols kw (setAttr d (a ++ ['s']) (.list l))
  | (_, .other) :: _, _ => .error .typeError

/-- `Tolerances.__init__`, `utils.py` lines 1407-1426. -/
def tolInit (kw : List (List Char × TolVal K)) : Except TolExc (PyDict K) :=
  match numTolsOf kw 1 with
  | .error e => .error e
  | .ok numTols =>
    match storeTols numTols kw [] with
    | .error e => .error e
    | .ok d => .ok (setAttr (setAttr d "currTol".toList (.num (.int (-1)))) "numTols".toList (.num (.int numTols)))

/-- The pairs of `__dict__` with an iterable value, `utils.py` lines 1430-1432 and 1449-1452. -/
def iterAttrs (d : PyDict K) : List (List Char × List (Scalar K)) :=
  d.filterMap fun p => match p.2 with
    | .list l => some (p.1, l)
    | .num _ => none

/-- `Tolerances.getTolDict`, `utils.py` lines 1428-1433; calling it fails if an attribute of the same name was set. -/
def getTolDict (d : PyDict K) : Except TolExc (List (List Char × List (Scalar K))) :=
  match getAttr d "getTolDict".toList with
  | some _ => .error .typeError
  | none => .ok (iterAttrs d)

/-- `l[i]` for a list. -/
def pyGet (l : List (Scalar K)) : Scalar K → Except TolExc (Scalar K)
  | .flt _ => .error .typeError
  | .int i =>
    if 0 ≤ i then (match l[i.toNat]? with | some x => .ok x | none => .error .indexError)
    else if -(l.length : ℤ) ≤ i then (match l[(i + l.length).toNat]? with | some x => .ok x | none => .error .indexError)
    else .error .indexError

/-- `self.currTol += 1`, `utils.py` line 1443. -/
def incr [AddGroupWithOne K] : Scalar K → Scalar K
  | .int z => .int (z + 1)
  | .flt x => .flt (x + 1)

/-- The values to store, `utils.py` lines 1447-1455. -/
def nextVals (cur : Scalar K) : List (List Char × List (Scalar K)) → Except TolExc (List (List Char × Scalar K))
  | [] => .ok []
  | (a, l) :: rest =>
    match pyGet l cur with
    | .error e => .error e
    | .ok x =>
      match nextVals cur rest with
      | .error e => .error e
      | .ok r => .ok ((a.dropLast, x) :: r)

/-- `Tolerances.nextTols`, `utils.py` lines 1435-1459; calling it fails if an attribute of the same name was set. -/
def nextTols [AddGroupWithOne K] [LinearOrder K] (d : PyDict K) : Except TolExc (PyDict K × Bool) :=
  match getAttr d "nextTols".toList with
  | some _ => .error .typeError
  | none =>
    match getAttr d "currTol".toList, getAttr d "numTols".toList with
    | some (.num c), some (.num n) =>
      let c := incr c
      let d := setAttr d "currTol".toList (.num c)
      if n.val ≤ c.val then .ok (d, false)
      else
        match nextVals c (iterAttrs d) with
        | .error e => .error e
        | .ok r => .ok (r.foldl (fun d p => setAttr d p.1 (.num p.2)) d, true)
    | some _, some _ => .error .typeError
    | _, _ => .error .attributeError

/-- `k` calls of `nextTols`, with the result of the last. -/
def nextTolsIter [AddGroupWithOne K] [LinearOrder K] (d : PyDict K) : ℕ → Except TolExc (PyDict K × Option Bool)
  | 0 => .ok (d, none)
  | k + 1 =>
    match nextTolsIter d k with
    | .error e => .error e
    | .ok (d, _) =>
      match nextTols d with
      | .error e => .error e
      | .ok (d, b) => .ok (d, some b)

end YRoots.Legacy
