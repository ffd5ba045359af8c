import Mathlib.Data.List.Basic

/-!
# CPython's `set` of small nonnegative integers

The order in which `for thisDim in dimSet` (`/repo/yroots/ChebyshevSubdivisionSolver.py` line 1112, `dimSet` built in line
1076) enumerates the dimensions is decided by the interpreter.  Model of `set_add_entry`, `set_table_resize`,
`set_insert_clean` and iteration in CPython's `Objects/setobject.c` (3.7 to 3.12), for keys whose hash is the key itself
(`int`, `numpy.int64`, nonnegative).  Nothing is ever removed from the set, so that there are no dummy entries and `fill = used`.
Simplification: the search for a free slot carries fuel.
-/

namespace YRoots

namespace PySet

/-- The hash table; its length is `mask + 1`. -/
abbrev Table := List (Option ℕ)

/-- The inner loop over `LINEAR_PROBES` entries: the first slot among `i, …, i + probes` that is unused or holds the key. -/
def probeRun (t : Table) (x : ℕ) : ℕ → ℕ → Option ℕ
  | 0, i => if t[i]? = some none ∨ t[i]? = some (some x) then some i else none
  | p + 1, i => if t[i]? = some none ∨ t[i]? = some (some x) then some i else probeRun t x p (i + 1)

/-- The outer loop with `perturb`; `LINEAR_PROBES = 9`, `PERTURB_SHIFT = 5`. -/
def probe (t : Table) (x : ℕ) : ℕ → ℕ → ℕ → Option ℕ
  | 0, _, _ => none
  | fuel + 1, i, perturb =>
    match probeRun t x (if i + 9 ≤ t.length - 1 then 9 else 0) i with
    | some j => some j
    | none => probe t x fuel ((i * 5 + 1 + perturb / 32) % t.length) (perturb / 32)

/-- Enter a key, without resizing. -/
def enter (t : Table) (x : ℕ) : Table :=
  match probe t x (2 * t.length + 64) (x % t.length) x with
  | some j => t.set j (some x)
  | none => t

/-- Number of used slots. -/
def used (t : Table) : ℕ := (t.filterMap id).length

/-- `newsize = 8; while newsize <= minused: newsize <<= 1`. -/
def newSize (minused : ℕ) : ℕ → ℕ → ℕ
  | 0, s => s
  | fuel + 1, s => if s ≤ minused then newSize minused fuel (2 * s) else s

/-- `set_table_resize`: enter all keys, in the order of the slots, into an empty table. -/
def resize (t : Table) (minused : ℕ) : Table :=
  (t.filterMap id).foldl enter (List.replicate (newSize minused (minused + 1) 8) none)

/-- `set_add_entry`. -/
def add (t : Table) (x : ℕ) : Table :=
  let t' := enter t x
  if used t' = used t then t'
  else if used t' * 5 < (t'.length - 1) * 3 then t'
  else resize t' (if used t' > 50000 then used t' * 2 else used t' * 4)

/-- `set(l)`: the keys are added one after the other to a table of eight slots. -/
def ofList (l : List ℕ) : Table := l.foldl add (List.replicate 8 none)

/-- Iteration over the set: slot after slot. -/
def iter (t : Table) : List ℕ := t.filterMap id

end PySet

end YRoots
