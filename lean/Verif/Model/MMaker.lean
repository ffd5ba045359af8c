import Verif.Model.Approx
import Mathlib.Analysis.SpecialFunctions.Complex.Circle

/-!
# The approximator of the earlier solver (`M_maker.py`)

Over the reals, in exact arithmetic.  Dictionaries are lists of pairs in the order of insertion, keyed by the degrees (the key
`deg/2` of line 275 is a tuple of floats; it is equal to a tuple of integers exactly if all degrees are even).  Arrays of
function values are tensors.
-/

namespace YRoots.Legacy

variable {n : ℕ}

/-- `d[key]` for a dictionary, `none` if the key is missing. -/
def dictGet {κ β : Type*} [DecidableEq κ] (d : List (κ × β)) (k : κ) : Option β := (d.find? fun e => e.1 = k).map Prod.snd

/-- `d[key] = value`: a new key is put last. -/
def dictSet {κ β : Type*} [DecidableEq κ] (d : List (κ × β)) (k : κ) (v : β) : List (κ × β) :=
  if d.any fun e => e.1 = k then d.map fun e => if e.1 = k then (k, v) else e else d ++ [(k, v)]

/-- The function to approximate, with the attributes `a`, `b`; `hasGrid` is `hasattr(f, "evaluate_grid")`. -/
structure MakerFn (n : ℕ) where
  f : (Fin n → ℝ) → ℝ
  a : Fin n → ℝ
  b : Fin n → ℝ
  hasGrid : Bool

/-- `memo_dict` and `fft_dict`. -/
structure MakerState (n : ℕ) where
  memo : List ((Fin n → ℕ) × Tensor n ℝ)
  fft : List ((Fin n → ℕ) × (Tensor n ℝ × ℝ))

/-- Errors: `np.column_stack` on arrays of different lengths (line 287), and, in the model, no fuel. -/
inductive MakerError
  | columnStack
  | fuel
  deriving DecidableEq

/-- Lines 298-306 and 325 (285-295 with `evaluate_grid`): the values of `f` on the whole grid. -/
noncomputable def gridValues (F : MakerFn n) (degs : Fin n → ℕ) : Tensor n ℝ :=
  ⟨fun i => degs i + 1, fun j => F.f (gridPt degs F.a F.b j)⟩

/-- Lines 313-323: the values at indices that are all even are taken from the block of half the degrees. -/
noncomputable def halfValues (F : MakerFn n) (degs : Fin n → ℕ) (half : Tensor n ℝ) : Tensor n ℝ :=
  ⟨fun i => degs i + 1, fun j => if ∀ i, 2 ∣ j i then half.coef fun i => j i / 2 else F.f (gridPt degs F.a F.b j)⟩

/-- `chebyshev_block_copy` with `block_copy_slicers`, lines 351-418: `np.empty` (here zeros), then one assignment per element of
`product([False, True], repeat=dim)`. -/
def blockCopy (degs : Fin n → ℕ) (v : (Fin n → ℕ) → ℝ) : (Fin n → ℕ) → ℝ :=
  (boolProduct n).foldl (fun arr block => fun j =>
    if ∀ i, if block i then degs i + 1 ≤ j i ∧ j i < 2 * degs i else j i < degs i + 1 then
      v fun i => if block i then degs i - 1 - (j i - (degs i + 1)) else j i
    else arr j) fun _ => 0

/-- External: `scipy.fftpack.fftn(x)`; axis `i` has `N i` entries. -/
noncomputable def fftn (N : Fin n → ℕ) (x : (Fin n → ℕ) → ℝ) (k : Fin n → ℕ) : ℂ :=
  ∑ j ∈ Fintype.piFinset fun i => Finset.range (N i),
    (x j : ℂ) * ∏ i, Complex.exp (-2 * Real.pi * Complex.I * (j i * k i / N i))

/-- Lines 332-343: the coefficients and the norm. -/
noncomputable def fftCoeffs (degs : Fin n → ℕ) (block : Tensor n ℝ) : Tensor n ℝ × ℝ :=
  let values := blockCopy degs block.coef
  let infNorm := (Fintype.piFinset fun i => Finset.range (2 * degs i)).toList.foldl (fun m j => max m |values j|) 0
  let coeffs := fun k => (fftn (fun i => 2 * degs i) (fun j => values j / ∏ i, (degs i : ℝ)) k).re
  (⟨fun i => degs i + 1, halveEdges degs coeffs⟩, infNorm)

/-- The values block, lines 283-330. -/
noncomputable def valuesBlock (F : MakerFn n) (degs : Fin n → ℕ) (st : MakerState n) : Except MakerError (Tensor n ℝ) :=
  if F.hasGrid then
    if ∀ i j, degs i = degs j then .ok (gridValues F degs) else .error .columnStack
  else
    match dictGet st.memo degs with
    | some block => .ok block
    | none =>
      match (if ∀ i, 2 ∣ degs i then dictGet st.memo fun i => degs i / 2 else none) with
      | some half => .ok (halfValues F degs half)
      | none => .ok (gridValues F degs)

/-- `interval_approximate_nd(f, a, b, degs)`, lines 247-349. -/
noncomputable def makerApprox (F : MakerFn n) (degs : Fin n → ℕ) (st : MakerState n) :
    Except MakerError ((Tensor n ℝ × ℝ) × MakerState n) :=
  match dictGet st.fft degs with
  | some r => .ok (r, st)
  | none =>
    match valuesBlock F degs st with
    | .error e => .error e
    | .ok block =>
      let r := fftCoeffs degs block
      .ok (r, ⟨dictSet st.memo degs block, dictSet st.fft degs r⟩)

/-- `get_err(M, M2)`, lines 122-143. -/
noncomputable def getErr (M M2 : Tensor n ℝ) : ℝ :=
  ∑ k ∈ M2.idx, |if ∀ i, k i < M.shape i then M2.coef k - M.coef k else M2.coef k|

/-- `np.product(M.shape)`. -/
def entries (M : Tensor n ℝ) : ℕ := ∏ i, M.shape i

/-- The bound of lines 168-171 and 225-228 for the difference of two approximations. -/
noncomputable def floatTol (relTol infNorm : ℝ) (M M2 : Tensor n ℝ) : ℝ :=
  max relTol (10 * ((entries M2 : ℝ) - entries M) * macheps * infNorm)

/-- The attributes `M`, `inf_norm`, `M2`, `err`. -/
structure Current (n : ℕ) where
  M : Tensor n ℝ
  infNorm : ℝ
  M2 : Tensor n ℝ
  err : ℝ

/-- Lines 193-195 and 235-237. -/
noncomputable def makerCurrent (F : MakerFn n) (degs : Fin n → ℕ) (st : MakerState n) :
    Except MakerError (Current n × MakerState n) :=
  match makerApprox F degs st with
  | .error e => .error e
  | .ok ((M, norm), st) =>
    match makerApprox F (fun i => 2 * degs i) st with
    | .error e => .error e
    | .ok ((M2, _), st) => .ok (⟨M, norm, M2, getErr M M2⟩, st)

/-- The loop over the dimensions, lines 214-229. -/
noncomputable def dimsToExpand (F : MakerFn n) (relTol : ℝ) (maxDeg : ℕ) (degs : Fin n → ℕ) (cur : Current n) :
    List (Fin n) → MakerState n → Except MakerError (List (Fin n) × MakerState n)
  | [], st => .ok ([], st)
  | i :: l, st =>
    if degs i ≥ maxDeg then dimsToExpand F relTol maxDeg degs cur l st
    else
      match makerApprox F (fun j => if i ≠ j then degs j * 2 else degs j) st with
      | .error e => .error e
      | .ok ((testM, _), st) =>
        match dimsToExpand F relTol maxDeg degs cur l st with
        | .error e => .error e
        | .ok (r, st) =>
          if test (getErr testM cur.M2 > floatTol relTol cur.infNorm testM cur.M2) then .ok (i :: r, st) else .ok (r, st)

/-- The loop of lines 206-239. -/
noncomputable def makerLoop (F : MakerFn n) (relTol : ℝ) (maxDeg : ℕ) :
    ℕ → (Fin n → ℕ) → Current n → MakerState n → Except MakerError ((Fin n → ℕ) × Current n × MakerState n)
  | 0, _, _, _ => .error .fuel
  | fuel + 1, degs, cur, st =>
    if ∃ i, degs i < maxDeg then
      if test (cur.err < floatTol relTol cur.infNorm cur.M cur.M2) then .ok (degs, cur, st)
      else
        match dimsToExpand F relTol maxDeg degs cur (List.finRange n) st with
        | .error e => .error e
        | .ok (dims, st) =>
          if dims ≠ [] then
            let degs := fun i => if i ∈ dims then (if 2 * degs i < maxDeg then 2 * degs i else maxDeg) else degs i
            match makerCurrent F degs st with
            | .error e => .error e
            | .ok (cur, st) => makerLoop F relTol maxDeg fuel degs cur st
          else .ok (degs, cur, st)
    else .ok (degs, cur, st)

/-- `find_good_approx`, lines 173-245, from empty dictionaries. -/
noncomputable def findGoodApprox (F : MakerFn n) (relTol : ℝ) (maxDeg fuel : ℕ) (degs : Fin n → ℕ) :
    Except MakerError ((Fin n → ℕ) × Current n × MakerState n) :=
  match makerCurrent F degs ⟨[], []⟩ with
  | .error e => .error e
  | .ok (cur, st) => makerLoop F relTol maxDeg fuel (fun i => if degs i > maxDeg then maxDeg else degs i) cur st

/-- The attributes of a finished `M_maker` object. -/
structure Maker (n : ℕ) where
  degs : Fin n → ℕ
  cur : Current n
  valuesBlock : Option (Tensor n ℝ)

/-- The constructor `M_maker(f, a, b, guess_deg, max_deg_edit)`, lines 8-120, with `max_deg[dim]` given.
`list(self.memo_dict.values())[-2]` is `none` if there is just one entry (`IndexError`). -/
noncomputable def mMaker (F : MakerFn n) (relTol : ℝ) (maxDeg fuel guess : ℕ) : Except MakerError (Maker n) :=
  match findGoodApprox F relTol maxDeg fuel fun _ => guess with
  | .error e => .error e
  | .ok (degs, cur, st) => .ok ⟨degs, cur, ((st.memo.map Prod.snd).reverse)[1]?⟩

end YRoots.Legacy
