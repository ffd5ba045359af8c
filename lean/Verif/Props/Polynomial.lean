import Verif.Proofs.PolyClean
import Verif.Proofs.PolyEval
import Verif.Proofs.PolyGrad
import Verif.Proofs.EvalC
import Mathlib.Algebra.Order.Ring.Rat
import Mathlib.Data.Rat.Cast.Order

/-!
# Properties C30-C35, C42: the polynomial classes

Specification: `Tensor.eval` (Chebyshev series) and `Tensor.evalPow` (power basis), the defining sums, and `HasDerivAt`.
-/

set_option linter.unusedSectionVars false
set_option linter.unusedVariables false

open Finset

namespace YRoots

variable {n : ℕ} {K : Type*}

/-- Specification: the value of an array in a basis. -/
noncomputable def evalIn [CommRing K] : Basis → Tensor n K → (Fin n → K) → K
  | .power, M, x => M.evalPow x
  | .cheb, M, x => M.eval x

theorem evalIn_eq_evalG [CommRing K] (B : Basis) (M : Tensor n K) (x : Fin n → K) :
    evalIn B M x = M.evalG fun i j => B.fn j (x i) := by
  cases B <;> rfl

/-! ### C30 -/

/-- **C30**: `to_cheb` returns an array of the same shape whose Chebyshev series is the power-basis polynomial. -/
theorem C30_to_cheb [Field K] [CharZero K] (M : Tensor n K) :
    (toCheb M).shape = M.shape ∧ ∀ x, (toCheb M).eval x = M.evalPow x :=
  ⟨toCheb_shape M, toCheb_eval M⟩

/-- `x^3 y = (3 T_1 + T_3)(x) T_1(y) / 4`. -/
example : let M : Tensor 2 ℚ := ⟨![4, 2], fun k => if k = ![3, 1] then 1 else 0⟩
    (toCheb M).coef ![1, 1] = 3 / 4 ∧ (toCheb M).coef ![3, 1] = 1 / 4 ∧ (toCheb M).coef ![2, 1] = 0 := by
  decide +kernel

section Ordered

variable [Field K] [LinearOrder K] [IsStrictOrderedRing K]

/-! ### C31 -/

/-- **C31** for `MultiCheb`. -/
theorem C31_cheb_arith (A B : Tensor n K) (x : Fin n → K) :
    (chebAdd A B).eval x = A.eval x + B.eval x ∧ (chebSub A B).eval x = A.eval x - B.eval x := by
  obtain ⟨hs, h1, h2⟩ := sameSize_ok A B
  simp only [eval_eq_evalG, chebAdd, chebSub, mkPoly_evalG]
  rw [addA_evalG _ _ hs, subA_evalG _ _ hs, h1, h2]
  exact ⟨rfl, rfl⟩

/-- **C31** for `MultiPower`. -/
theorem C31_pow_arith (A B : Tensor n K) (x : Fin n → K) :
    (powAdd A B).evalPow x = A.evalPow x + B.evalPow x ∧ (powSub A B).evalPow x = A.evalPow x - B.evalPow x ∧
    (powMul A B).evalPow x = A.evalPow x * B.evalPow x := by
  obtain ⟨hs, h1, h2⟩ := sameSize_ok A B
  refine ⟨?_, ?_, ?_⟩
  · simp only [evalPow_eq_evalG, powAdd, mkPoly_evalG]; rw [addA_evalG _ _ hs, h1, h2]
  · simp only [evalPow_eq_evalG, powSub, mkPoly_evalG]; rw [subA_evalG _ _ hs, h1, h2]
  · rw [evalPow_eq_evalG, powMul, mkPoly_evalG, ← evalPow_eq_evalG, convolve_evalPow]
    simp only [evalPow_eq_evalG, h1, h2]

/-- Arrays of different shapes, with a cancelling leading row. -/
example : let A : Tensor 2 ℚ := ⟨![2, 3], fun k => k 0 + k 1⟩
    let B : Tensor 2 ℚ := ⟨![3, 1], fun k => -(k 0 : ℚ)⟩
    (chebAdd A B).evalC ![1 / 2, 3] = A.evalC ![1 / 2, 3] + B.evalC ![1 / 2, 3] ∧ A.shape ≠ B.shape := by
  intro A B
  refine ⟨?_, by decide⟩
  simp only [← Tensor.eval_eq_evalC]
  exact (C31_cheb_arith A B _).1

/-! ### C32 -/

/-- **C32**: cleaning changes no value, leaves no all-zero top slice along an axis of length > 1, and is idempotent. -/
theorem C32_clean (M : Tensor n K) (hM : M.Nonempty) :
    (∀ x, (cleanCoeff M).eval x = M.eval x) ∧ (∀ x, (cleanCoeff M).evalPow x = M.evalPow x) ∧
    (cleanCoeff M).Nonempty ∧
    (∀ d, (cleanCoeff M).shape d = 1 ∨
      ∃ k ∈ (cleanCoeff M).idx, k d = (cleanCoeff M).shape d - 1 ∧ (cleanCoeff M).coef k ≠ 0) ∧
    cleanCoeff (cleanCoeff M) = cleanCoeff M := by
  have hc := cleanCoeff_cleaned M
  have hne : (cleanCoeff M).Nonempty := fun i => hc.pos i (hM i)
  refine ⟨fun x => by rw [eval_eq_evalG, eval_eq_evalG, hc.evalG], fun x => by rw [evalPow_eq_evalG, evalPow_eq_evalG, hc.evalG], hne, fun d => ?_, cleanCoeff_of_clean (cleanCoeff_cleanAt M)⟩
  rcases cleanCoeff_cleanAt M d with h | h
  · exact .inl h
  · right
    have h1 : (cleanCoeff M).lastSum d ≠ 0 := fun h' => h ⟨h', hne d⟩
    unfold Tensor.lastSum at h1
    obtain ⟨k, hk, hk0⟩ := Finset.exists_ne_zero_of_sum_ne_zero h1
    rw [mem_filter] at hk
    exact ⟨k, hk.1, hk.2, fun h0 => hk0 (by rw [h0, abs_zero])⟩

example : Tensor.Nonempty (K := ℚ) ⟨![3, 3], fun k => if k 0 = 0 then 1 else 0⟩ ∧
    (cleanCoeff (K := ℚ) ⟨![3, 3], fun k => if k 0 = 0 then 1 else 0⟩).shape = ![1, 3] := by
  constructor
  · intro i; fin_cases i <;> norm_num
  · set M : Tensor 2 ℚ := ⟨![3, 3], fun k => if k 0 = 0 then 1 else 0⟩ with hM
    have h : cleanCoeff M = cleanAxis 1 (cleanAxis 0 M) := rfl
    have l1 : M.lastSum 0 = 0 := by decide +kernel
    have l2 : (M.dropLast 0).lastSum 0 = 0 := by decide +kernel
    have l3 : ((M.dropLast 0).dropLast 0).lastSum 1 ≠ 0 := by decide +kernel
    have h0 : cleanAxis 0 M = (M.dropLast 0).dropLast 0 := by
      rw [cleanAxis, dif_neg (by decide), dif_pos ⟨l1, by decide⟩, cleanAxis,
        dif_neg (by decide), dif_pos ⟨l2, by decide⟩, cleanAxis, dif_pos (by decide)]
    rw [h, h0, cleanAxis, dif_neg (by decide), dif_neg (fun h => l3 h.1)]
    decide

/-! ### C42 -/

/-- **C42** is false: `==` (numpy's `allclose`, relative to the right operand) is not symmetric. -/
theorem C42_eq_symm_false : ∃ A B : Tensor 1 ℚ, polyEq A B = true ∧ polyEq B A = false :=
  ⟨⟨fun _ => 1, fun _ => 1⟩, ⟨fun _ => 1, fun _ => 1 + 1 / 10 ^ 5 + 1 / 10 ^ 8 + 1 / 10 ^ 11⟩, by decide +kernel⟩

/-- **C42**, what is true: `==` is symmetric up to a tolerance that depends on neither order — polynomials at mutual
distance at most `1e-8` in every coefficient are equal in both orders, and equality in one order gives equality in the other
with tolerances enlarged by the factor `1 + 2e-5`. -/
theorem C42_eq_symm_partial (A B : Tensor n K) :
    ((A.shape = B.shape ∧ ∀ k ∈ A.idx, |A.coef k - B.coef k| ≤ 1 / 10 ^ 8) → polyEq A B = true ∧ polyEq B A = true) ∧
    (polyEq A B = true → A.shape = B.shape ∧ ∀ k ∈ B.idx,
      |B.coef k - A.coef k| ≤ (1 + 2 / 10 ^ 5) * (1 / 10 ^ 8 + 1 / 10 ^ 5 * |A.coef k|)) := by
  constructor
  · rintro ⟨hs, h⟩
    have hi : B.idx = A.idx := by unfold Tensor.idx; rw [hs]
    unfold polyEq
    rw [if_neg (not_not.2 hs), if_neg (not_not.2 hs.symm), hi]
    rw [decide_eq_true_eq, decide_eq_true_eq]
    unfold closeTo
    refine ⟨fun k hk => (h k hk).trans ?_, fun k hk => ?_⟩
    · have := abs_nonneg (B.coef k); linarith [mul_nonneg (show (0 : K) ≤ 1 / 10 ^ 5 by positivity) this]
    · rw [abs_sub_comm]; refine (h k hk).trans ?_
      have := abs_nonneg (A.coef k); linarith [mul_nonneg (show (0 : K) ≤ 1 / 10 ^ 5 by positivity) this]
  · intro h
    unfold polyEq at h
    split_ifs at h with hs
    rw [not_not] at hs
    refine ⟨hs, fun k hk => ?_⟩
    have hi : B.idx = A.idx := by unfold Tensor.idx; rw [hs]
    have h1 := (of_decide_eq_true h) k (hi ▸ hk)
    unfold closeTo at h1
    have h2 : |B.coef k| ≤ |A.coef k| + |A.coef k - B.coef k| := by
      have := abs_sub_abs_le_abs_sub (B.coef k) (A.coef k)
      rw [abs_sub_comm] at this; linarith
    rw [abs_sub_comm]
    have h3 := abs_nonneg (A.coef k)
    have h4 : |A.coef k - B.coef k| * (1 - 1 / 10 ^ 5) ≤ 1 / 10 ^ 8 + 1 / 10 ^ 5 * |A.coef k| := by nlinarith
    nlinarith

example : polyEq (K := ℚ) ⟨![1, 2], fun k => k 1⟩ ⟨![1, 2], fun k => k 1 + 1 / 10 ^ 9⟩ = true := by decide +kernel

end Ordered

/-! ### C33, C34: evaluation at points and on grids -/

section Eval

variable [Field K]

/-- The point in row `p` of the points array. -/
def rowPoint (points : ℕ → ℕ → K) (p : ℕ) : Fin n → K := fun i => points p i

theorem polyCall_spec (B : Basis) (M : Tensor n K) (hM : M.Nonempty) (hn : 0 < n) (a : PointsArg K) (N : ℕ) (points : ℕ → ℕ → K)
    (hN : 0 < N) (ha : callPoints n a = .ok (N, points)) :
    ∃ l, polyCall B M a = .ok l ∧ l.length = (if B = .power ∧ ∀ i, M.shape i = 1 then 1 else N) ∧
      ∀ p < N, l[if l.length = 1 then 0 else p]? = some (evalIn B M (rowPoint points p)) := by
  obtain ⟨h1, -, h3⟩ := callLoop_ok B N points n 0 (reshape2 M) hM (.inl rfl)
  set c := callLoop B N points n 0 (reshape2 M) with hc
  have hlen : c.len = if B = .power ∧ ∀ i, M.shape i = 1 then 1 else N := by
    rw [h1]; simp only [show ¬ n = 0 by omega, or_false]; rfl
  refine ⟨(List.range c.len).map fun p => c.val Fin.elim0 (fun _ => 0) p, ?_, ?_, ?_⟩
  · unfold polyCall; rw [ha]
  · rw [List.length_map, List.length_range, hlen]
  · intro p hp
    rw [List.length_map, List.length_range, List.getElem?_map]
    have hidx : (if c.len = 1 then 0 else p) < c.len := by
      split_ifs with h
      · omega
      · rw [hlen] at h ⊢; split_ifs at h ⊢ <;> omega
    rw [List.getElem?_range hidx, Option.map_some]
    have h4 := h3 (fun _ => 0) p
    have h5 : c.val Fin.elim0 (fun _ => 0) (if c.len = 1 then 0 else p) = c.get Fin.elim0 (fun _ => 0) p := rfl
    rw [h5, h4, evalIn_eq_evalG, Tensor.evalG]
    congr 1
    have hp' : (if N = 1 then 0 else p) = p := by split_ifs <;> omega
    simp only [hp', Nat.zero_add]
    rfl

/-- **C33** (points): evaluation at `N ≥ 1` points given as rows succeeds, and the entry for each point (after numpy's
broadcasting, see C34) is the value of the defining sum. -/
theorem C33_call (B : Basis) (M : Tensor n K) (hM : M.Nonempty) (hn : 0 < n) (N : ℕ) (hN : 0 < N) (points : ℕ → ℕ → K) :
    ∃ l, polyCall B M (.mat N n points) = .ok l ∧
      ∀ p < N, l[if l.length = 1 then 0 else p]? = some (evalIn B M (rowPoint points p)) := by
  obtain ⟨l, h1, -, h3⟩ := polyCall_spec B M hM hn (.mat N n points) N points hN (by simp [callPoints])
  exact ⟨l, h1, h3⟩

/-- Instance: three points for a polynomial in the power basis. -/
example : ∃ l, polyCall .power (⟨![3, 2], fun k => (k 0 + 2 * k 1 : ℚ)⟩ : Tensor 2 ℚ) (.mat 3 2 fun i j => i + 2 * j) = .ok l ∧
    ∀ p < 3, l[if l.length = 1 then 0 else p]? = some (evalIn .power ⟨![3, 2], fun k => (k 0 + 2 * k 1 : ℚ)⟩ (rowPoint (fun i j => i + 2 * j) p)) :=
  C33_call .power _ (fun i => by fin_cases i <;> simp) (by norm_num) 3 (by norm_num) _

/-- **C33** (one point, given as a vector of `n ≥ 2` coordinates): one value, that of the defining sum. -/
theorem C33_call_vec (B : Basis) (M : Tensor n K) (hM : M.Nonempty) (hn : 1 < n) (x : ℕ → K) :
    polyCall B M (.vec n x) = .ok [evalIn B M (fun i => x i)] := by
  obtain ⟨l, h1, h2, h3⟩ := polyCall_spec B M hM (by omega) (.vec n x) 1 (fun _ j => x j) (by omega)
    (by simp [callPoints, hn])
  rw [h1]
  have hl : l.length = 1 := by rw [h2]; split_ifs <;> rfl
  obtain ⟨v, rfl⟩ := List.length_eq_one_iff.1 hl
  have := h3 0 (by omega)
  simp only [List.length_singleton, if_true, List.getElem?_cons_zero, Option.some.injEq] at this
  rw [this]; rfl

/-- Instance: one point in the plane. -/
example : polyCall .cheb (⟨![3, 2], fun k => (k 0 + 2 * k 1 : ℚ)⟩ : Tensor 2 ℚ) (.vec 2 fun i => i + 1) =
    .ok [evalIn .cheb ⟨![3, 2], fun k => (k 0 + 2 * k 1 : ℚ)⟩ fun i => (i : ℕ) + 1] :=
  C33_call_vec .cheb _ (fun i => by fin_cases i <;> simp) (by norm_num) _

/-- **C33** (one variable, points given as a 1-d array of length `N`). -/
theorem C33_call_1d (B : Basis) (M : Tensor 1 K) (hM : M.Nonempty) (N : ℕ) (hN : 0 < N) (x : ℕ → K) :
    ∃ l, polyCall B M (.vec N x) = .ok l ∧
      ∀ p < N, l[if l.length = 1 then 0 else p]? = some (evalIn B M (fun _ => x p)) := by
  obtain ⟨l, h1, -, h3⟩ := polyCall_spec B M hM (by omega) (.vec N x) N (fun i _ => x i) hN (by simp [callPoints])
  exact ⟨l, h1, h3⟩

/-- Instance: four points on the line. -/
example : ∃ l, polyCall .cheb (⟨![3], fun k => (k 0 : ℚ)⟩ : Tensor 1 ℚ) (.vec 4 fun i => i) = .ok l ∧
    ∀ p : ℕ, p < 4 → l[if l.length = 1 then 0 else p]? = some (evalIn .cheb ⟨![3], fun k => (k 0 : ℚ)⟩ fun _ => p) :=
  C33_call_1d .cheb _ (fun i => by fin_cases i; simp) 4 (by norm_num) _

/-- Points of the wrong dimension are rejected. -/
theorem C33_wrong_dim (B : Basis) (M : Tensor n K) (rows cols : ℕ) (x : ℕ → ℕ → K) (h : cols ≠ n) :
    polyCall B M (.mat rows cols x) = .error .valueError := by
  simp [polyCall, callPoints, h]

/-- Instance: points in space for a polynomial in two variables. -/
example : polyCall .cheb (⟨![3, 2], fun k => (k 0 : ℚ)⟩ : Tensor 2 ℚ) (.mat 4 3 fun i j => i + j) = .error .valueError :=
  C33_wrong_dim .cheb _ 4 3 _ (by norm_num)

/-- **C33** (grids): `evaluate_grid` returns an array with `n` axes of length `N` (or 1, broadcast) whose entries are the
values of the defining sum on the tensor grid. -/
theorem C33_grid (B : Basis) (M : Tensor n K) (hM : M.Nonempty) (N : ℕ) (xyz : ℕ → ℕ → K) :
    ∃ sh f, gridCall B M (.mat N n xyz) = .ok (sh, f) ∧ sh.length = n ∧
      (∀ (i : ℕ) (hi : i < sh.length), sh[i] = N ∨ sh[i] = 1) ∧
      ∀ X : Fin n → ℕ, (∀ i, X i < N) →
        f (fun i => if h : i < n then (if sh[i]? = some 1 then 0 else X ⟨i, h⟩) else 0) =
          evalIn B M (fun i => xyz (X i) i) := by
  obtain ⟨h1, h2⟩ := gridLoop_ok B N xyz n 0 ⟨M.shape, [], 1, fun k _ _ => M.coef k⟩ hM
  set c := gridLoop B N xyz n 0 ⟨M.shape, [], 1, fun k _ _ => M.coef k⟩ with hc
  simp only [List.nil_append, List.singleton_append] at h1
  have hpl : c.pre.length = n := by
    have := congrArg List.length h1
    simp at this; exact this
  have htl : (c.pre ++ [c.len]).tail = List.ofFn fun i : Fin n => gridLen B N (M.shape i) := by rw [h1]; rfl
  refine ⟨(c.pre ++ [c.len]).tail,
    fun g => c.val Fin.elim0 (fun j => if j = 0 then 0 else g (j - 1)) (g (c.pre.length - 1)), ?_, ?_, ?_, ?_⟩
  · unfold gridCall
    simp only [callPoints, ne_eq, not_true_eq_false, if_false]
    rfl
  · change (c.pre ++ [c.len]).tail.length = n
    rw [htl, List.length_ofFn]
  · intro i hi
    change (c.pre ++ [c.len]).tail[i] = N ∨ (c.pre ++ [c.len]).tail[i] = 1
    simp only [htl, List.getElem_ofFn, gridLen]
    split_ifs
    · exact .inr rfl
    · exact .inl rfl
  · intro X hX
    change c.val Fin.elim0 (fun j => if j = 0 then 0 else
      (fun i => if h : i < n then (if (c.pre ++ [c.len]).tail[i]? = some 1 then 0 else X ⟨i, h⟩) else 0) (j - 1))
      ((fun i => if h : i < n then (if (c.pre ++ [c.len]).tail[i]? = some 1 then 0 else X ⟨i, h⟩) else 0) (c.pre.length - 1)) = _
    set g : ℕ → ℕ := fun i => if h : i < n then (if (c.pre ++ [c.len]).tail[i]? = some 1 then 0 else X ⟨i, h⟩) else 0 with hg
    set G : ℕ → ℕ := fun j => if j = 0 then 0 else g (j - 1) with hGdef
    have hGe : ∀ i : Fin n, G (0 + 1 + i) = if gridLen B N (M.shape i) = 1 then 0 else X i := by
      intro i
      simp only [hGdef, hg, htl]
      rw [if_neg (by omega), show 0 + 1 + (i : ℕ) - 1 = i by omega, dif_pos i.2, List.getElem?_ofFn, dif_pos i.2]
      simp
    have h3 := h2 G X hX hGe
    by_cases hn0 : n = 0
    · subst hn0
      rw [hpl] at h3
      have hg0 : g (c.pre.length - 1) = G 0 := by simp [hGdef, hg]
      rw [hg0, h3, evalIn_eq_evalG, Tensor.evalG]
      congr 1
    · have hlast : g (c.pre.length - 1) = G c.pre.length := by
        simp only [hGdef]; rw [if_neg (by omega)]
      rw [hlast, h3, evalIn_eq_evalG, Tensor.evalG]
      simp only [Nat.zero_add]
      rfl

/-- The values at the two rows of a points array. -/
example : polyCall (K := ℚ) .cheb ⟨![3, 2], fun k => k 0 + 2 * k 1⟩ (.mat 2 2 fun i j => i + 2 * j)
    = .ok [-6, 30] := by decide +kernel

/-- **C34** for Chebyshev objects: `N` points, `N` values. -/
theorem C34_count_cheb (M : Tensor n K) (hM : M.Nonempty) (hn : 0 < n) (N : ℕ) (hN : 0 < N) (points : ℕ → ℕ → K) :
    ∃ l, polyCall .cheb M (.mat N n points) = .ok l ∧ l.length = N := by
  obtain ⟨l, h1, h2, -⟩ := polyCall_spec .cheb M hM hn (.mat N n points) N points hN (by simp [callPoints])
  exact ⟨l, h1, by rw [h2, if_neg (by simp)]⟩

/-- Instance: a constant, at three points. -/
example : ∃ l, polyCall .cheb (⟨![1, 1], fun _ => (7 : ℚ)⟩ : Tensor 2 ℚ) (.mat 3 2 fun i j => i + j) = .ok l ∧ l.length = 3 :=
  C34_count_cheb _ (fun i => by fin_cases i <;> simp) (by norm_num) 3 (by norm_num) _

/-- **C34** for power-basis objects with some axis of length > 1.  `_partial`: the remaining case is
`C34_count_false`. -/
theorem C34_count_pow_partial (M : Tensor n K) (hM : M.Nonempty) (h1 : ∃ i, M.shape i ≠ 1) (N : ℕ) (hN : 0 < N)
    (points : ℕ → ℕ → K) : ∃ l, polyCall .power M (.mat N n points) = .ok l ∧ l.length = N := by
  obtain ⟨i, hi⟩ := h1
  obtain ⟨l, h1, h2, -⟩ := polyCall_spec .power M hM (Nat.lt_of_le_of_lt (Nat.zero_le _) i.2) (.mat N n points) N points hN
    (by simp [callPoints])
  exact ⟨l, h1, by rw [h2, if_neg (fun h => hi (h.2 i))]⟩

/-- Instance: a polynomial in `y` alone, at three points. -/
example : ∃ l, polyCall .power (⟨![1, 2], fun _ => (7 : ℚ)⟩ : Tensor 2 ℚ) (.mat 3 2 fun i j => i + j) = .ok l ∧ l.length = 3 :=
  C34_count_pow_partial _ (fun i => by fin_cases i <;> simp) ⟨1, by simp⟩ 3 (by norm_num) _

/-- **C34** is false: every constant `MultiPower` in `n ≥ 1` variables evaluated at any number of points returns a single
value. -/
theorem C34_count_false (M : Tensor n K) (hn : 0 < n) (h1 : ∀ i, M.shape i = 1) (N : ℕ) (hN : 0 < N) (points : ℕ → ℕ → K) :
    polyCall .power M (.mat N n points) = .ok [M.coef fun _ => 0] := by
  obtain ⟨l, h2, h3, h4⟩ := polyCall_spec .power M (fun i => by rw [h1]; omega) hn (.mat N n points) N points hN
    (by simp [callPoints])
  rw [h2]
  rw [if_pos ⟨rfl, h1⟩] at h3
  obtain ⟨v, rfl⟩ := List.length_eq_one_iff.1 h3
  have := h4 0 hN
  simp only [List.length_singleton, if_true, List.getElem?_cons_zero, Option.some.injEq] at this
  rw [this]
  simp only [evalIn, Tensor.evalPow]
  have hi : M.idx = {fun _ => 0} := by
    ext k
    simp only [Tensor.idx, Fintype.mem_piFinset, h1, Finset.range_one, Finset.mem_singleton, funext_iff]
  rw [hi]; simp

example : polyCall (K := ℚ) .power ⟨![1, 1], fun _ => 7⟩ (.mat 3 2 fun _ _ => 5) = .ok [7] ∧
    polyCall (K := ℚ) .cheb ⟨![1, 1], fun _ => 7⟩ (.mat 3 2 fun _ _ => 5) = .ok [7, 7, 7] := by decide +kernel

end Eval

/-! ### C35 -/

section Grad

theorem valnd_eq [Field K] (B : Basis) (x : Fin n → K) (M : Tensor n K) (hM : M.Nonempty) : valnd B x M = evalIn B M x := by
  obtain ⟨-, -, h3⟩ := callLoop_ok B 1 (fun _ j => if h : j < n then x ⟨j, h⟩ else 0) n 0 (reshape2 M) hM (.inl rfl)
  unfold valnd
  rw [h3, evalIn_eq_evalG, Tensor.evalG]
  simp only [Nat.zero_add, Fin.is_lt, dif_pos, Fin.eta]
  rfl

theorem npDer_nonempty [Field K] (B : Basis) (M : Tensor n K) (hM : M.Nonempty) (i : Fin n) : (npDer B M i).Nonempty := by
  intro j
  unfold npDer Tensor.ofRows
  dsimp only
  by_cases hj : j = i
  · subst hj
    rw [Function.update_self]
    cases B
    · simp only [polyder1D]; split_ifs <;> simp <;> omega
    · simp only [chebder1D]; split_ifs <;> simp <;> omega
  · rw [Function.update_of_ne hj]; exact hM j

/-- The derivative of the defining sum in one variable. -/
theorem hasDerivAt_evalIn (B : Basis) (M : Tensor n ℝ) (x : Fin n → ℝ) (i : Fin n) :
    HasDerivAt (fun t => evalIn B M (Function.update x i t))
      (M.evalG (Function.update (fun l j => B.fn j (x l)) i fun j => B.dfn j (x i))) (x i) := by
  have h1 : (fun t => evalIn B M (Function.update x i t)) = fun t => ∑ j ∈ range (M.shape i), B.fn j t *
      ∑ k ∈ restIdx M.shape i, M.rows i j k * ∏ l ∈ univ.erase i, B.fn (k l) (x l) := by
    funext t
    rw [evalIn_eq_evalG, evalG_axis _ i]
    apply Finset.sum_congr rfl
    intro j _
    rw [Function.update_self]
    congr 1
    apply Finset.sum_congr rfl
    intro k _
    congr 1
    exact Finset.prod_congr rfl fun l hl => by rw [Function.update_of_ne (Finset.ne_of_mem_erase hl)]
  rw [h1, evalG_axis _ i]
  refine HasDerivAt.fun_sum fun j _ => ?_
  rw [Function.update_self]
  have h2 : ∑ k ∈ restIdx M.shape i, M.rows i j k * ∏ l ∈ univ.erase i,
      Function.update (fun l j => B.fn j (x l)) i (fun j => B.dfn j (x i)) l (k l) =
      ∑ k ∈ restIdx M.shape i, M.rows i j k * ∏ l ∈ univ.erase i, B.fn (k l) (x l) := by
    apply Finset.sum_congr rfl
    intro k _
    congr 1
    exact Finset.prod_congr rfl fun l hl => by rw [Function.update_of_ne (Finset.ne_of_mem_erase hl)]
  rw [h2]
  have h3 : HasDerivAt (fun t => B.fn j t) (B.dfn j (x i)) (x i) := by
    have := (B.poly ℝ j).hasDerivAt (x i)
    simp only [Basis.poly_eval] at this
    exact this
  exact h3.mul_const _

/-- A polynomial object reachable by any sequence of `grad` calls. -/
inductive GradReach [Field K] (B : Basis) (M : Tensor n K) : PolyObj n K → Prop
  | new : GradReach B M ⟨M, none⟩
  | call {p : PolyObj n K} (x : Fin n → K) : GradReach B M p → GradReach B M (gradCall B (npDer B) p x).2

/-- **C35**: after any sequence of earlier `grad` calls, `grad(x)` is the vector of partial derivatives at `x` of the
polynomial the object was created with. -/
theorem C35_grad (B : Basis) (M : Tensor n ℝ) (hM : M.Nonempty) (p : PolyObj n ℝ) (hp : GradReach B M p) (x : Fin n → ℝ)
    (i : Fin n) :
    HasDerivAt (fun t => evalIn B M (Function.update x i t)) ((gradCall B (npDer B) p x).1 i) (x i) := by
  have hinv : p.coeff = M ∧ (p.jac = none ∨ p.jac = some (npDer B M)) := by
    induction hp with
    | new => exact ⟨rfl, .inl rfl⟩
    | call y _ ih =>
      refine ⟨ih.1, .inr ?_⟩
      rcases ih.2 with h | h <;> simp [gradCall, h, ih.1]
  have h1 : (gradCall B (npDer B) p x).1 i = valnd B x (npDer B M i) := by
    rcases hinv.2 with h | h <;> simp [gradCall, h, hinv.1]
  rw [h1, valnd_eq B x _ (npDer_nonempty B M hM i), evalIn_eq_evalG]
  have h2 := npDer_rows B M i (hM i) (fun l j => B.fn j (x l)) (x i)
  have h3 : (Function.update (fun l j => B.fn j (x l)) i fun j => B.fn j (x i)) = fun l j => B.fn j (x l) := by
    funext l
    by_cases hl : l = i
    · subst hl; simp
    · simp [hl]
  rw [h3] at h2
  rw [h2]
  exact hasDerivAt_evalIn B M x i

/-- `d/dx (T_3(x) T_1(y)) = 12x² y − 3y` at `(1/2, 2)`: `0`; `d/dy = T_3(1/2) = -1`. -/
example : (gradCall (K := ℚ) .cheb (npDer .cheb) ⟨⟨![4, 2], fun k => if k = ![3, 1] then 1 else 0⟩, none⟩ ![1 / 2, 2]).1 = ![0, -1] := by
  decide +kernel

end Grad

end YRoots
