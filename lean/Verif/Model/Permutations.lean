import Verif.Model.MonCombos
import Verif.Model.TriangularSolve

/-!
# Multiplication of rows of the Macaulay matrix by index arrays (`utils.py`)

A dictionary is a list of pairs, the newest first.  The functions `arrays` and `slice_top` are memoised; the values they return
are not changed afterwards (`+` makes new lists).
-/

namespace YRoots.Legacy

/-- The case `deg > 1` and the case `deg == 1` of `arrays`, `utils.py` lines 931-936; `prev` is `arrays(·, dim - 1, mon)`.  For
`deg = 0` (not called) the recursion of the code does not end. -/
def arraysLow (prev : ℕ → List Bool) (dim mon : ℕ) : ℕ → List Bool
  | 0 => []
  | 1 => (List.replicate dim false).set (dim - mon - 1) true
  | d + 2 => arraysLow prev dim mon (d + 1) ++ prev (d + 2)

/-- `arrays(deg, dim, mon)`, `utils.py` lines 908-936 (`1 ≤ deg`, `mon < dim`). -/
def arrays (mon : ℕ) : (dim : ℕ) → (deg : ℕ) → List Bool
  | 0 => fun _ => []
  | dim + 1 => fun deg =>
    if dim = mon then
      let total := numMons deg (dim + 1)
      let tail := numMons deg dim
      List.replicate (total - tail) true ++ List.replicate tail false
    else arraysLow (arrays mon dim) (dim + 1) mon deg

/-- The first loop of `permutation_array`, `utils.py` lines 963-965. -/
def permBitsLast (dim mon : ℕ) : ℕ → List Bool
  | 0 => [false]
  | d + 1 => arrays mon dim (d + 1) ++ permBitsLast dim mon d

/-- The second loop of `permutation_array`, `utils.py` lines 967-973: `first` and `array` after `range(2, deg + 1)`. -/
def permBitsOther (dim mon : ℕ) : ℕ → List Bool × List Bool
  | 0 => let first := (List.replicate dim false).set (dim - mon - 1) true
    (first, first ++ [false])
  | 1 => let first := (List.replicate dim false).set (dim - mon - 1) true
    (first, first ++ [false])
  | d + 2 =>
    let r := permBitsOther dim mon (d + 1)
    let first := r.1 ++ arrays mon (dim - 1) (d + 2)
    (first, first ++ r.2)

/-- `np.where(array)[0]`. -/
def whereTrue (l : List Bool) : List ℕ := (List.range l.length).filter fun k => l.getD k false

/-- `permutation_array(deg, dim, mon)`, `utils.py` lines 942-974. -/
def permutationArray (deg dim mon : ℕ) : List ℕ :=
  let array := if mon = dim - 1 then permBitsLast dim mon deg else (permBitsOther dim mon deg).2
  inverseP (whereTrue (array.map (! ·)) ++ whereTrue array)

/-- Fancy indexing `r[P]` of an array with an array of indices. -/
def gather {K : Type*} [Zero K] (r : List K) (P : List ℕ) : List K := P.map fun k => r.getD k 0

/-- The exponents of the variable `i`, `utils.py` lines 1001-1003, 291-299 and 1234-1236 with exponent `c`. -/
def varMon (dim i c : ℕ) : List ℕ := (List.replicate dim 0).set i c

/-- `np.subtract(mon, var)` for the variable `i`; `none` if an entry becomes negative (then it is not a key of the dictionary). -/
def subVar (mon : List ℕ) (i : ℕ) : Option (List ℕ) :=
  if 1 ≤ mon.getD i 0 then some (mon.set i (mon.getD i 0 - 1)) else none

/-- The body of the loop over `mons` of `all_permutations`, `utils.py` lines 1010-1014. -/
def permStep (dim : ℕ) (perms : List (List ℕ × List ℕ)) (mon : List ℕ) : List (List ℕ × List ℕ) :=
  match (List.range dim).findSome? fun i =>
      (subVar mon i).bind fun diff => (perms.lookup diff).bind fun pd =>
        (perms.lookup (varMon dim i 1)).map fun pv => gather pv pd with
  | some P => (mon, P) :: perms
  | none => perms

/-- The table at the start of `all_permutations`, `utils.py` lines 997-1004. -/
def permInit (dim matrixDegree : ℕ) : List (List ℕ × List ℕ) :=
  (List.range dim).foldl (fun perms i => (varMon dim i 1, permutationArray matrixDegree dim (dim - 1 - i)) :: perms)
    [(List.replicate dim 0, List.range (((List.range (matrixDegree + 1)).map fun d => numMons d dim).sum))]

/-- `all_permutations(deg, dim, matrixDegree)`, `utils.py` lines 976-1015, with the default arguments. -/
def allPermutations (deg dim matrixDegree : ℕ) : List (List ℕ × List ℕ) :=
  (List.range' 2 (deg - 1)).foldl (fun perms d =>
      (monCombosHighest (dim - 1) (List.replicate dim 0) d 0).1.foldl (permStep dim) perms)
    (permInit dim matrixDegree)

/-- `mons_ordered(dim, deg)`, `utils.py` lines 1036-1041. -/
def monsOrdered (dim deg : ℕ) : List (List ℕ) :=
  (List.range (deg + 1)).flatMap fun i => (monCombosHighest (dim - 1) (List.replicate dim 0) i 0).1

/-- `mon_dict`, `utils.py` lines 1169-1171: the position of a monomial in a row. -/
def monDict (dim deg : ℕ) : List (List ℕ × ℕ) := (monsOrdered dim deg).reverse.zipIdx.reverse

/-- `tuple(np.abs(np.subtract(monomial, mult_mon)))`. -/
def absSub (m c : List ℕ) : List ℕ := List.zipWith (fun a b => (a - b) + (b - a)) m c

/-- The loop of `cheb_perturbation2` and `cheb_perturbation3`, `utils.py` lines 1064-1074 and 1097-1106; `needed` is the list
`mons_needed`. -/
def chebPerturbation (needed : List (List ℕ)) (multMon : List ℕ) (dict : List (List ℕ × ℕ)) : List ℕ :=
  needed.foldl (fun perturb monomial =>
    match dict.lookup monomial, dict.lookup (absSub monomial multMon) with
    | some idx, some idx2 => perturb.set idx2 idx
    | _, _ => perturb) (List.replicate dict.length 0)

/-- `cheb_perturbation3(mult_mon, mons, mon_dict, var)`, `utils.py` lines 1043-1077. -/
def chebPerturbation3 (multMon : List ℕ) (mons : List (List ℕ)) (dict : List (List ℕ × ℕ)) (var : ℕ) : List ℕ :=
  chebPerturbation (mons.filter fun m => m.getD var 0 < multMon.getD var 0) multMon dict

/-- `cheb_perturbation2(mult_mon, mons, mon_dict, var)`, `utils.py` lines 1079-1117. -/
def chebPerturbation2 (multMon : List ℕ) (mons : List (List ℕ)) (dict : List (List ℕ × ℕ)) (var : ℕ) : List ℕ :=
  chebPerturbation (mons.filter fun m => multMon.getD var 0 ≤ m.getD var 0) multMon dict

/-- The first loop of `all_permutations_cheb`, `utils.py` lines 1172-1184, for the variable `i`. -/
def chebFirst (dim matrixDegree i : ℕ) : List ℕ × List ℕ × List ℕ :=
  let mons := monsOrdered dim matrixDegree
  let top := numMons matrixDegree dim + numMons (matrixDegree - 1) dim
  let P := permutationArray matrixDegree dim (dim - 1 - i)
  let A := (List.range mons.length).filter fun k => (mons.getD k []).getD i 0 = 1
  let P2 := A.foldl (fun Q a => Q.set (P.length - 1 - a) (P.getD (P.length - 1 - a) 0)) (List.replicate P.length 0)
  (P, List.replicate top 0 ++ (inverseP P).drop top, P2)

/-- The body of the last loop of `all_permutations_cheb`, `utils.py` lines 1191-1210, for the variable `i` and `calc` (here `target`) with the
exponent `c`. -/
def chebStep (dim matrixDegree i : ℕ) (perms : List (List ℕ × List ℕ × List ℕ × List ℕ)) (c : ℕ) :
    List (List ℕ × List ℕ × List ℕ × List ℕ) :=
  let target := varMon dim i c
  let mons2 := monsOrdered dim (matrixDegree - 1)
  let dict := monDict dim matrixDegree
  match perms.lookup (varMon dim i (c - 1)), perms.lookup (varMon dim i 1) with
  | some pd, some pv => (target, gather pv.1 pd.1, chebPerturbation2 target mons2 dict i, chebPerturbation3 target mons2 dict i) :: perms
  | _, _ => perms

/-- `all_permutations_cheb(deg, dim, matrixDegree)`, `utils.py` lines 1148-1213, with `mons_1D`, lines 1215-1238
(`1 ≤ matrixDegree`).  The argument `current_degree` is not used. -/
def allPermutationsCheb (deg dim matrixDegree : ℕ) : List (List ℕ × List ℕ × List ℕ × List ℕ) :=
  let first := (List.range dim).foldl (fun perms i => (varMon dim i 1, chebFirst dim matrixDegree i) :: perms) []
  (List.range dim).foldl (fun perms i => (List.range' 2 (deg - 1)).foldl (chebStep dim matrixDegree i) perms) first

end YRoots.Legacy
