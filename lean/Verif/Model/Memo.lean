import Mathlib.Data.List.Basic

/-!
# Memoisation (`utils.py`)

A memoised function is a function together with a cache, a Python dictionary; the model of the dictionary is an association
list.  The Python functions memoised in the package are pure; values are handed out by reference, so a caller that modified a
returned list would modify the cache (no caller does: `initial_mons += ...` extends its own list, `np.array(...)` copies).
-/

namespace YRoots.Legacy

variable {α κ β : Type*} [DecidableEq κ]

/-- The lookup `cache[key]`. -/
def cacheGet (key : κ) : List (κ × β) → Option β
  | [] => none
  | p :: rest => if p.1 = key then some p.2 else cacheGet key rest

/-- One call of the decorated function: `memoize` (`utils.py` lines 24-33, with `key` the identity), `Memoize` (lines
11-22, likewise), `memoize_permutaions` (lines 1019-1032, `key` = `args[:3]`).  Returns the value, the cache and whether the
function was evaluated. -/
def memoCall (f : α → β) (key : α → κ) (cache : List (κ × β)) (a : α) : β × List (κ × β) × Bool :=
  match cacheGet (key a) cache with
  | some v => (v, cache, false)
  | none => (f a, (key a, f a) :: cache, true)

/-- A sequence of calls, starting with a given cache: the values and the arguments for which the function was evaluated. -/
def memoRun (f : α → β) (key : α → κ) : List (κ × β) → List α → List β × List α
  | _, [] => ([], [])
  | cache, a :: rest =>
    let r := memoCall f key cache a
    let s := memoRun f key r.2.1 rest
    (r.1 :: s.1, if r.2.2 then a :: s.2 else s.2)

end YRoots.Legacy
