import Mathlib.Data.Real.Basic
import Mathlib.Tactic.IntervalCases
import Verif.Proofs.TransformExtra

/-!
# Properties C08, C09, C10: re-expansion of Chebyshev coefficients

Specification used here: `chebSeries N c x = ∑_{i<N} T_i(x) • c i` for one-dimensional arrays (with
entries in a module, so that the slices of n-D arrays are covered) and `Tensor.eval` for n-D arrays.
-/

namespace YRoots

open Finset

/-- Specification: the Chebyshev series with coefficients `c 0, ..., c (N-1)` at `x`. -/
noncomputable def chebSeries {K V : Type*} [Field K] [AddCommGroup V] [Module K V] (N : ℕ)
    (c : ℕ → V) (x : K) : V := ∑ i ∈ range N, chebT i x • c i

section C08

variable {K : Type*} [Field K] [LinearOrder K] [IsStrictOrderedRing K]
variable {V : Type*} [AddCommGroup V] [Module K V]

/-- **C08** (both settings of `exact`; `α = 1/2, |β| = 1/2` selects the `Split` variant).
If no power `α^k`, `2 ≤ k < N` falls below the drop threshold, the result has the length of the input
and its series at `x` is the series of the input at `αx+β`. -/
theorem C08_reexpansion_exact (exact : Bool) (c : ℕ → V) (N : ℕ) (hN : 2 ≤ N) (α β : K)
    (h : ∀ k, 2 ≤ k → k < N → (if exact then 1 / 10 ^ 32 else 1 / 10 ^ 16) < |α ^ k|) (x : K) :
    (transformFunc exact c N α β).2 = N ∧
      chebSeries (transformFunc exact c N α β).2 (transformFunc exact c N α β).1 x
        = chebSeries N c (α * x + β) := by
  have h1 := transformFunc_nodrop exact c N hN α β h
  exact ⟨h1, by rw [h1]; exact transformFunc_exact exact c N hN α β h1 x⟩

/-- **C08**, stated by the observable effect: whenever the returned array is as long as the input
(nothing was dropped), the re-expansion is exact. -/
theorem C08_reexpansion_exact_of_length (exact : Bool) (c : ℕ → V) (N : ℕ) (hN : 2 ≤ N) (α β : K)
    (h : (transformFunc exact c N α β).2 = N) (x : K) :
    chebSeries N (transformFunc exact c N α β).1 x = chebSeries N c (α * x + β) :=
  transformFunc_exact exact c N hN α β h x

/-- The hypotheses of C08 are met by re-expanding a cubic on `[0,1]` (Split variant) ... -/
example (c : ℕ → ℚ) (x : ℚ) :
    chebSeries 4 (transformFunc (K := ℚ) true c 4 (1 / 2) (1 / 2)).1 x = chebSeries 4 c (1 / 2 * x + 1 / 2) := by
  have h := C08_reexpansion_exact (K := ℚ) true c 4 (by norm_num) (1 / 2) (1 / 2) (by
    intro k h1 h2
    have : k = 2 ∨ k = 3 := by omega
    rcases this with rfl | rfl <;> norm_num [abs_of_pos]) x
  rw [h.1] at h; exact h.2

/-- ... and the code's first row for `T_2` on `[0,1]` is really computed: `T_2((x+1)/2)` has constant
coefficient `-1/4`. -/
example : (transformFunc (K := ℚ) true (fun j => if j = 2 then (1 : ℚ) else 0) 3 (1 / 2) (1 / 2)).1 0 = -1 / 4 := by
  norm_num [transformFunc, transform1DErrorFree, transform1DErrorFreeSplit, List.range', eStepSplit, eInit,
    npSign, twoSum, putRowE, Function.update, abs_of_pos]

end C08

section C10

variable {n : ℕ} {K : Type*} [Field K] [LinearOrder K] [IsStrictOrderedRing K]

/-- **C10** (array level). Unless the call is the identity, entry `k` of the result of
`TransformChebInPlaceND(coeffs, dim, ...)` is entry `k dim` of the one-dimensional transform of the
fibre of `coeffs` through `k` along axis `dim`; no other axis changes its length. -/
theorem C10_transformND_fibrewise (exact : Bool) (M : Tensor n K) (d : Fin n) (α β : K)
    (hab : ¬ (α = 1 ∧ β = 0)) (hd : M.shape d ≠ 1) (k : Fin n → ℕ) :
    (transformND M d α β exact).coef k
        = (transformFunc exact (fun j => M.coef (Function.update k d j)) (M.shape d) α β).1 (k d) ∧
      (transformND M d α β exact).shape d
        = (transformFunc exact (fun j => M.coef (Function.update k d j)) (M.shape d) α β).2 ∧
      ∀ i, i ≠ d → (transformND M d α β exact).shape i = M.shape i :=
  ⟨(transformND_coef exact M d α β hab hd k).1, (transformND_coef exact M d α β hab hd k).2,
    fun i hi => transformND_shape_other exact M d α β i hi⟩

/-- **C10** (function level, one axis): if the axis keeps its length the result represents
`p(x_1, ..., α x_d + β, ..., x_n)`. -/
theorem C10_transformND_eval (exact : Bool) (M : Tensor n K) (d : Fin n) (α β : K) (hN : 0 < M.shape d)
    (hsh : (transformND M d α β exact).shape d = M.shape d) (x : Fin n → K) :
    (transformND M d α β exact).eval x = M.eval (Function.update x d (α * x d + β)) :=
  transformND_exact exact M d α β hN hsh x

theorem transformCheb_eq_fold (M : Tensor n K) (α β : Fin n → K) (error : K) (exact : Bool) :
    transformCheb M α β error exact = chebFold exact α β (List.finRange n) (M, error) := rfl

theorem substOn_finRange (α β x : Fin n → K) :
    substOn (List.finRange n) α β x = fun i => α i * x i + β i := by
  funext i; simp [substOn]

/-- **C10** (function level, `transformCheb` = `transformChebToInterval`): if no axis lost a row, the
result represents `p(α_1 x_1 + β_1, ..., α_n x_n + β_n)`. -/
theorem C10_transformCheb_eval (M : Tensor n K) (hM : M.Nonempty) (α β : Fin n → K) (error : K)
    (exact : Bool) (hsh : (transformCheb M α β error exact).1.shape = M.shape) (x : Fin n → K) :
    (transformCheb M α β error exact).1.eval x = M.eval fun i => α i * x i + β i := by
  rw [transformCheb_eq_fold] at hsh ⊢
  rw [chebFold_exact exact α β _ (List.nodup_finRange n) (M, error) hM (fun i => congrFun hsh i),
    substOn_finRange]

/-- Non-trivial instance of the hypotheses: a 2×3 array, second axis halved. -/
example (x : Fin 2 → ℚ) :
    (transformND (⟨![2, 3], fun k => (k 0 : ℚ) + 3 * k 1 + 1⟩ : Tensor 2 ℚ) 1 (1 / 2) (-1 / 2) true).eval x
      = (⟨![2, 3], fun k => (k 0 : ℚ) + 3 * k 1 + 1⟩ : Tensor 2 ℚ).eval
          (Function.update x 1 (1 / 2 * x 1 + -1 / 2)) := by
  apply C10_transformND_eval
  · simp
  · rw [(C10_transformND_fibrewise true _ 1 (1 / 2) (-1 / 2) (by norm_num) (by simp) (fun _ => 0)).2.1]
    refine (C08_reexpansion_exact (K := ℚ) true _ _ (by simp) _ _ ?_ 0).1
    intro k h1 h2
    simp at h2
    have : k = 2 := by omega
    subst this; norm_num [abs_of_pos]

end C10

section C09

variable {n : ℕ}
variable {K : Type*} [Field K] [LinearOrder K] [IsStrictOrderedRing K]

/-- The claim of C09 for one call of `TransformChebInPlaceND`, in the setting `exact`, for tensor `M`
and axis `d`: whatever sub-interval `[β-|α|, β+|α|] ⊆ [-1,1]` is the target, the value of
`getTransformationError` bounds the deviation everywhere on the cube. -/
def TransformErrorClaim (exact : Bool) (M : Tensor n K) (d : Fin n) : Prop :=
  ∀ α β : K, (∀ t : K, |t| ≤ 1 → |α * t + β| ≤ 1) → ∀ x : Fin n → K, InCube x →
    |M.eval (Function.update x d (α * x d + β)) - (transformND M d α β exact).eval x|
      ≤ getTransformationError M d

theorem shapeOK_default {N : ℕ} (h0 : 0 < N) (h7 : N ≤ 7) : ShapeOK K false N := by
  rcases Nat.lt_or_ge N 2 with h | h
  · left; omega
  · right
    unfold relErr macheps
    interval_cases N <;> norm_num

theorem shapeOK_exact {N : ℕ} (h0 : 0 < N) (hN : N ≤ 10 ^ 16) : ShapeOK K true N := by
  rcases Nat.lt_or_ge N 2 with h | h
  · left; omega
  · right
    unfold relErr macheps
    have h1 : (N : K) ≤ 10 ^ 16 := by exact_mod_cast hN
    have h2 : (2 : K) ≤ N := by exact_mod_cast h
    simp only [if_true]
    rw [div_le_iff₀ (by positivity)]
    norm_num
    nlinarith

/-- Full bound with the true constants: for every tensor, axis, target interval and point. -/
theorem transformND_le_of_shapeOK (exact : Bool) (M : Tensor n K) (d : Fin n) (hN : 0 < M.shape d)
    (hok : ShapeOK K exact (M.shape d)) : TransformErrorClaim exact M d := by
  intro α β hαβ x hx
  refine (transformND_bound exact M d hN α β hx (hαβ _ (hx d))).trans ?_
  unfold getTransformationError
  apply mul_le_mul_of_nonneg_right _ (Finset.sum_nonneg fun _ _ => abs_nonneg _)
  rcases hok with h | h
  · rw [if_pos h]; unfold macheps; positivity
  · split
    · unfold macheps; positivity
    · exact h

/-- **C09** for `exact=True`: the bound holds for every tensor whose axis has at most `10^16`
entries.  `_partial`: longer axes (beyond any memory) are not covered; floating-point rounding, which the
bound is also meant to cover, is not modelled. -/
theorem C09_transformError_exact_partial (M : Tensor n K) (d : Fin n) (h0 : 0 < M.shape d)
    (hN : M.shape d ≤ 10 ^ 16) : TransformErrorClaim true M d :=
  transformND_le_of_shapeOK true M d h0 (shapeOK_exact h0 hN)

/-- Instance: an axis of a thousand entries. -/
example : TransformErrorClaim true (⟨![1000, 4], fun k => (k 0 : ℚ) - k 1⟩ : Tensor 2 ℚ) 0 :=
  C09_transformError_exact_partial _ _ (by norm_num) (by norm_num)

/-- **C09** for the default setting, axes with at most 7 entries (degree 6).
`_partial`: the claim is false for longer axes in general, see `C09_transformError_default_false`. -/
theorem C09_transformError_default_partial (M : Tensor n K) (d : Fin n) (h0 : 0 < M.shape d)
    (hN : M.shape d ≤ 7) : TransformErrorClaim false M d :=
  transformND_le_of_shapeOK false M d h0 (shapeOK_default h0 hN)

/-- Instance: a 7×1000 array, along the short axis. -/
example : TransformErrorClaim false (⟨![7, 1000], fun k => (k 0 : ℚ) - k 1⟩ : Tensor 2 ℚ) 0 :=
  C09_transformError_default_partial _ _ (by norm_num) (by norm_num)

/-- **C09** accumulated over all axes, as `transformCheb` adds the errors up. -/
theorem C09_transformCheb_partial (exact : Bool) (M : Tensor n K) (hM : M.Nonempty)
    (hN : ∀ i, M.shape i ≤ if exact then 10 ^ 16 else 7) (α β : Fin n → K)
    (hαβ : ∀ i (t : K), |t| ≤ 1 → |α i * t + β i| ≤ 1) (error : K) (x : Fin n → K) (hx : InCube x) :
    |M.eval (fun i => α i * x i + β i) - (transformCheb M α β error exact).1.eval x|
      ≤ (transformCheb M α β error exact).2 - error := by
  have := chebFold_bound exact α β hαβ _ (List.nodup_finRange n) (M, error) hM (by
    intro i _
    cases exact
    · exact shapeOK_default (hM i) (by simpa using hN i)
    · exact shapeOK_exact (hM i) (by simpa using hN i)) hx
  rwa [substOn_finRange] at this

/-- Instance of the hypotheses: a 3×4 array re-expanded on `[0,1] × [-1,-1/2]`. -/
example (x : Fin 2 → ℝ) (hx : InCube x) :
    |(⟨![3, 4], fun k => (k 0 : ℝ) - k 1⟩ : Tensor 2 ℝ).eval
        (fun i => ![1 / 2, 1 / 4] i * x i + ![1 / 2, -3 / 4] i)
      - (transformCheb ⟨![3, 4], fun k => (k 0 : ℝ) - k 1⟩ ![1 / 2, 1 / 4] ![1 / 2, -3 / 4] 0 false).1.eval x|
    ≤ (transformCheb ⟨![3, 4], fun k => (k 0 : ℝ) - k 1⟩ ![1 / 2, 1 / 4] ![1 / 2, -3 / 4] 0 false).2 - 0 := by
  apply C09_transformCheb_partial
  · intro i; fin_cases i <;> simp
  · intro i; fin_cases i <;> simp
  · intro i t ht
    rw [abs_le] at ht ⊢
    fin_cases i <;> simp <;> constructor <;> linarith [ht.1, ht.2]
  · exact hx

/-- The one-dimensional tensor with the single coefficient `1` of `T_40`. -/
noncomputable def cexM : Tensor 1 ℝ := ⟨fun _ => 41, fun k => if k 0 = 40 then 1 else 0⟩

theorem cex_run {V : Type*} [AddCommGroup V] [Module ℝ V] (c : ℕ → V) :
    ∃ P Q : ℤ, 41 * 4000000000 ^ 40 < 2 ^ 52 * (4000000000 ^ 40 - (P + Q)) ∧
      (tRun (K := ℝ) (1 / 10 ^ 16) c (1 / 4000000000) (1 - 1 / 4000000000) 39).maxRow = 2 ∧
      (tRun (K := ℝ) (1 / 10 ^ 16) c (1 / 4000000000) (1 - 1 / 4000000000) 39).arr2 0
        = (P : ℝ) / 4000000000 ^ 40 ∧
      (tRun (K := ℝ) (1 / 10 ^ 16) c (1 / 4000000000) (1 - 1 / 4000000000) 39).arr2 1
        = (Q : ℝ) / 4000000000 ^ 40 := by
  have hD0 : ((4000000000 : ℤ) : ℝ) = 4000000000 := by norm_num
  have hpq : ∀ k < 39, |(cexPQ 4000000000 k).2.2| * 10 ^ 16 ≤ 4000000000 ^ (k + 2) := by decide +kernel
  have hfin : 41 * 4000000000 ^ 40
      < 2 ^ 52 * (4000000000 ^ 40 - ((cexPQ 4000000000 39).2.1 + (cexPQ 4000000000 39).2.2)) := by
    decide +kernel
  have hthr : ∀ k < 39, |((cexPQ 4000000000 k).2.2 : ℝ) / ((4000000000 : ℤ) : ℝ) ^ (k + 2)|
      ≤ 1 / 10 ^ 16 := by
    intro k hk
    have := hpq k hk
    rw [abs_div, abs_of_pos (a := (((4000000000 : ℤ) : ℝ) ^ (k + 2))) (by positivity),
      div_le_div_iff₀ (by positivity) (by positivity), one_mul]
    exact_mod_cast this
  have hrun := tRun_two_rows 4000000000 (by norm_num) (1 / 10 ^ 16) c 39 hthr
  rw [hD0] at hrun
  exact ⟨_, _, hfin, hrun.1, hrun.2.2.2.1, hrun.2.2.2.2⟩

/-- **C09 is false of the code** in the default setting: for the single basis polynomial `T_40`, re-expanded
on the interval `[1 - 2/D, 1]` with `D = 4·10^9`, the row dropping alone (in exact arithmetic)
produces at `x = 1` an error above `getTransformationError`. -/
theorem C09_transformError_default_false : ¬ TransformErrorClaim false cexM 0 := by
  intro h
  have h1 := h (1 / 4000000000) (1 - 1 / 4000000000) (by
    intro t ht
    rw [abs_le] at ht ⊢
    constructor <;> linarith [ht.1, ht.2]) (fun _ => 1) (fun _ => by simp)
  -- the run
  obtain ⟨P, Q, hfin, hm, hA, hB⟩ := cex_run (cexM.rows 0)
  have hout : ∀ i, (tRun ((1 : ℝ) / 10 ^ 16) (cexM.rows 0) (1 / 4000000000) (1 - 1 / 4000000000) 39).out i
      = (tRun ((1 : ℝ) / 10 ^ 16) (cexM.rows 0) (1 / 4000000000) (1 - 1 / 4000000000) 39).arr2 i
        • cexM.rows 0 40 := by
    intro i
    rw [tRun_succ]
    obtain ⟨δ, -, -, ho⟩ := tStep_spec ((1 : ℝ) / 10 ^ 16) (cexM.rows 0) (1 / 4000000000)
      (1 - 1 / 4000000000) (tRun ((1 : ℝ) / 10 ^ 16) (cexM.rows 0) (1 / 4000000000) (1 - 1 / 4000000000) 38)
      (38 + 2) (tRun_supp _ _ _ _ _)
    rw [ho, tRun_out_eq_zero, zero_add]
    intro k hk
    funext j
    have : k ≠ 40 := by omega
    simp [cexM, Tensor.rows, this]
  have hrow : ∀ x : Fin 1 → ℝ, rowL cexM.shape 0 x (cexM.rows 0 40) = 1 := by
    intro x
    rw [rowL_apply]
    have : restIdx cexM.shape 0 = {fun _ => 0} := by
      ext k
      simp [restIdx, Fintype.mem_piFinset, Fin.forall_fin_one]
      constructor
      · intro h; funext i; rw [Subsingleton.elim i 0, h]
      · intro h; rw [h]
    rw [this]
    simp [cexM, Tensor.rows]
  have hev : (transformND cexM 0 (1 / 4000000000) (1 - 1 / 4000000000) false).eval (fun _ => 1)
      = (P + Q) / 4000000000 ^ 40 := by
    unfold transformND
    rw [if_neg (by norm_num [cexM]), if_pos (by rfl)]
    rw [transformAxis, ofRows_eval]
    simp only [transformFunc, Bool.false_eq_true, if_false, transform1D_eq]
    have : cexM.shape 0 - 2 = 39 := by simp [cexM]
    rw [this, hm, outEval, Finset.sum_range_succ, Finset.sum_range_succ, Finset.sum_range_zero]
    rw [hout, hout, map_add, map_add, map_smul, map_smul, map_smul, map_smul, hrow, hA, hB]
    simp
    ring
  have hex : cexM.eval (Function.update (fun _ => 1) 0
      (1 / 4000000000 * (fun _ : Fin 1 => (1 : ℝ)) 0 + (1 - 1 / 4000000000))) = 1 := by
    rw [eval_axis cexM 0, Finset.sum_eq_single 40]
    · rw [hrow]
      simp [chebT, Polynomial.Chebyshev.T_eval_one]
    · intro j _ hj
      have : cexM.rows 0 j = 0 := by funext k; simp [cexM, Tensor.rows, hj]
      rw [this]; simp
    · intro h; simp [cexM] at h
  have hgte : getTransformationError cexM 0 = 41 / 2 ^ 52 := by
    have : cexM.absSum = 1 := by
      unfold Tensor.absSum
      rw [Finset.sum_eq_single (fun _ => 40)]
      · simp [cexM]
      · intro k _ hk
        have : k 0 ≠ 40 := by
          intro h; apply hk; funext i; rw [Subsingleton.elim i 0, h]
        simp [cexM, this]
      · intro h; simp [cexM, Tensor.idx] at h
    unfold getTransformationError macheps
    rw [this]
    simp [cexM]
    norm_num
  rw [hev, hex, hgte] at h1
  have h2 := (le_abs_self _).trans h1
  have hfin' : (41 * 4000000000 ^ 40 : ℝ) < 2 ^ 52 * (4000000000 ^ 40 - (P + Q)) := by
    exact_mod_cast hfin
  have hpos : (0 : ℝ) < 4000000000 ^ 40 := by positivity
  generalize (4000000000 : ℝ) ^ 40 = E at hpos hfin' h2
  rw [sub_le_iff_le_add, ← sub_le_iff_le_add', le_div_iff₀ (by positivity)] at h2
  have h4 : E - (P + Q) = (1 - (P + Q) / E) * E := by
    rw [sub_mul, div_mul_cancel₀ _ hpos.ne', one_mul]
  rw [h4] at hfin'
  nlinarith

end C09

end YRoots
