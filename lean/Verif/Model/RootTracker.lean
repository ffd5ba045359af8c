import Mathlib.Data.Fintype.Basic
import Mathlib.Data.List.Dedup
import Mathlib.Order.Defs.LinearOrder

/-!
# Book-keeping of roots (`RootTracker.py`)

Points are functions `Fin n → K`.  The arrays `roots`, `potential_roots` are lists of points; the branches on the type of
`a` (lines 129-141, 160-173) only choose between `vstack` and `hstack`.
-/

namespace YRoots.Legacy

variable {n : ℕ} {K : Type*} [LinearOrder K]

/-- `rootInBox(root, a, b)`, `RootTracker.py` lines 3-19. -/
def rootInBox (root a b : Fin n → K) : Bool :=
  decide (∀ i, a i < root i) && decide (∀ i, root i < b i)

/-- An entry of `possible_duplicates`: the zero, the box and the method. -/
structure Dup (n : ℕ) (K : Type*) where
  zero : Fin n → K
  a : Fin n → K
  b : Fin n → K
  method : String

/-- The attributes of `RootTracker`, lines 53-61 (`conds` and `grads` are never used). -/
structure Tracker (n : ℕ) (K : Type*) where
  roots : List (Fin n → K) := []
  possibleDuplicates : List (Dup n K) := []
  potentialRoots : List (Fin n → K) := []
  intervals : List ((Fin n → K) × (Fin n → K)) := []
  methods : List String := []

namespace Tracker

/-- `add_root(zero, a, b, method)`, lines 115-143. -/
def addRoot (s : Tracker n K) (zero a b : Fin n → K) (method : String) : Tracker n K :=
  { s with roots := s.roots ++ [zero], intervals := s.intervals ++ [(a, b)], methods := s.methods ++ [method] }

/-- The body of the first loop of `add_roots`, lines 77-87. -/
def addOne (a b : Fin n → K) (method : String) (s : Tracker n K) (zero : Fin n → K) : Tracker n K :=
  if rootInBox zero a b then s.addRoot zero a b method
  else if s.intervals.any fun I => rootInBox zero I.1 I.2 then s
  else { s with possibleDuplicates := s.possibleDuplicates ++ [⟨zero, a, b, method⟩] }

/-- `add_roots(zeros, a, b, method)`, lines 63-95. -/
def addRoots (s : Tracker n K) (zeros : List (Fin n → K)) (a b : Fin n → K) (method : String) : Tracker n K :=
  let s := zeros.foldl (addOne a b method) s
  { s with possibleDuplicates := s.possibleDuplicates.filter fun d => !rootInBox d.zero a b }

/-- `add_potential_roots(potentials, a, b, method)`, lines 145-175, for one point in dimension `n ≥ 2` (the only use,
`subdivision.py` line 709): `vstack` adds one row, but `len(potentials)` is `n`. -/
def addPotential (s : Tracker n K) (p a b : Fin n → K) (method : String) : Tracker n K :=
  { s with
    potentialRoots := s.potentialRoots ++ [p]
    intervals := s.intervals ++ List.replicate n (a, b)
    methods := s.methods ++ List.replicate n method }

/-- `keep_possible_duplicates()`, lines 193-199. -/
def keepDuplicates (s : Tracker n K) : Tracker n K :=
  { s.possibleDuplicates.foldl (fun s d => s.addRoot d.zero d.a d.b d.method) s with possibleDuplicates := [] }

/-- `get_polish_intervals()`, lines 177-191: the distinct intervals (`np.unique`, up to order) and the new state. -/
def getPolish (s : Tracker n K) : List ((Fin n → K) × (Fin n → K)) × Tracker n K :=
  (s.intervals.dedup, { s with intervals := [], roots := [], methods := [] })

end Tracker

/-- A call of a method of the tracker. -/
inductive TOp (n : ℕ) (K : Type*)
  | add (zeros : List (Fin n → K)) (a b : Fin n → K) (method : String)
  | potential (p a b : Fin n → K) (method : String)
  | keep
  | polish

/-- The state after one call. -/
def Tracker.step (s : Tracker n K) : TOp n K → Tracker n K
  | .add zs a b m => s.addRoots zs a b m
  | .potential p a b m => s.addPotential p a b m
  | .keep => s.keepDuplicates
  | .polish => s.getPolish.2

/-- The state after a sequence of calls. -/
def Tracker.run (s : Tracker n K) (ops : List (TOp n K)) : Tracker n K := ops.foldl Tracker.step s

end YRoots.Legacy
