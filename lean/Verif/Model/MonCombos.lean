import Mathlib.Data.Nat.Choose.Basic
import Mathlib.Data.List.Basic

/-!
# Enumeration of monomials (`subdivision.py`, `utils.py`)

The functions work recursively on a list `mon` that the callee may overwrite.  The model threads the list: every function
returns the answers and the contents of `mon` afterwards.  `d` is `len(mon) - cur_dim - 1`, the number of positions after
the current one.
-/

namespace YRoots.Legacy

/-- `mon_combos_limited(mon, remaining_degrees, shape, cur_dim)`, `subdivision.py` lines 931-971. -/
def monCombosLimited (shape : List ℕ) : (d : ℕ) → (mon : List ℕ) → (rem cur : ℕ) → List (List ℕ) × List ℕ
  | 0, mon, rem, cur =>
    if rem < shape.getD cur 0 then ([mon.set cur rem], mon.set cur rem) else ([], mon)
  | d + 1, mon, rem, cur =>
    if rem = 0 then ([mon], mon)
    else
      (((List.range (min (shape.getD cur 0) (rem + 1))).foldl (fun (st : List (List ℕ) × List ℕ) i =>
        let r := monCombosLimited shape d (st.2.set cur i) (rem - i) (cur + 1)
        (st.1 ++ r.1, r.2)) ([], mon)).1, mon)

/-- `mon_combos_limited_wrap(deg, dim, shape)`, `subdivision.py` lines 911-929 (`dim ≥ 1`; for the memoisation
see `Memo`). -/
def monCombosLimitedWrap (deg dim : ℕ) (shape : List ℕ) : List (List ℕ) :=
  (monCombosLimited shape (dim - 1) (List.replicate dim 0) deg 0).1

/-- `mon_combosHighest(mon, numLeft, spot)`, `utils.py` lines 748-781. -/
def monCombosHighest : (d : ℕ) → (mon : List ℕ) → (left spot : ℕ) → List (List ℕ) × List ℕ
  | 0, mon, left, spot => ([mon.set spot left], mon.set spot left)
  | d + 1, mon, left, spot =>
    if left = 0 then ([mon], mon)
    else
      (((List.range (left + 1)).foldl (fun (st : List (List ℕ) × List ℕ) i =>
        let r := monCombosHighest d (st.2.set spot i) (left - i) (spot + 1)
        (st.1 ++ r.1, r.2)) ([], mon)).1, mon)

/-- `mon_combos(mon, numLeft, spot)`, `utils.py` lines 783-815. -/
def monCombos : (d : ℕ) → (mon : List ℕ) → (left spot : ℕ) → List (List ℕ) × List ℕ
  | 0, mon, left, spot =>
    ((List.range (left + 1)).map fun i => mon.set spot i, mon.set spot left)
  | d + 1, mon, left, spot =>
    if left = 0 then ([mon], mon)
    else
      (((List.range (left + 1)).foldl (fun (st : List (List ℕ) × List ℕ) i =>
        let r := monCombos d (st.2.set spot i) (left - i) (spot + 1)
        (st.1 ++ r.1, r.2)) ([], mon)).1, mon)

/-- `num_mons_full(deg, dim)`, `utils.py` lines 817-831. -/
def numMonsFull (deg dim : ℕ) : ℕ := (deg + dim).choose dim

/-- `num_mons(deg, dim)`, `utils.py` lines 833-847 (`deg + dim ≥ 1`). -/
def numMons (deg dim : ℕ) : ℕ := (deg + dim - 1).choose deg

end YRoots.Legacy
