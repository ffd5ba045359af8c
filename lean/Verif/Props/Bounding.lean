import Verif.Proofs.Bounding
import Verif.Proofs.SVDExists
import Mathlib.Tactic.NormNum
import Mathlib.Tactic.FinCases

/-!
# Properties C11, C12, C13: the linear bounding step

Specification side: `Tensor.eval` (defining sum of the Chebyshev series), functions `F i` that are within
`errors i` of the series on the cube, and a common zero `x` of the `F i`.
-/

set_option linter.unusedVariables false

namespace YRoots

open Finset

variable {n : ℕ} {K : Type*} [Field K] [LinearOrder K] [IsStrictOrderedRing K]

/-! ### C13 -/

/-- C13.  `getLinearTerms(M)` has one entry per axis, and entry `i` is the coefficient of `T_1(x_i)`, or `0`
when the array has a single entry along axis `i`. -/
theorem C13_getLinearTerms {K : Type*} [Zero K] (M : Tensor n K) (hM : M.Nonempty) :
    (getLinearTerms M).length = n ∧
    ∀ i : Fin n, (getLinearTerms M)[i.1]? =
      some (if M.shape i = 1 then 0 else M.coef (Pi.single i 1)) := by
  have hl : (getLinearTerms M).length = n := by rw [getLinearTerms_eq]; simp
  refine ⟨hl, fun i => ?_⟩
  have h := getLinearTerms_getD M hM i
  have hi : i.1 < (getLinearTerms M).length := by rw [hl]; exact i.2
  rw [List.getD_eq_getElem?_getD, List.getElem?_eq_getElem hi] at h
  rw [List.getElem?_eq_getElem hi]
  exact congrArg some h

example : getLinearTerms (⟨![2, 1, 3], fun k => 100 * (k 0 : ℤ) + 10 * k 1 + k 2⟩ : Tensor 3 ℤ)
    = [100, 0, 1] := by decide +kernel

/-! ### C11 -/

/-- C11, for arbitrary functions: `f i` differs at `x` from its linear part by at most the remaining mass. -/
theorem C11_linearCheck1_sound {K : Type*} [Field K] [LinearOrder K] [IsStrictOrderedRing K]
    (totalErrs : Fin n → K) (A : Matrix (Fin n) (Fin n) K) (consts : Fin n → K)
    (f : Fin n → (Fin n → K) → K) (x : Fin n → K) (hx : InCube x)
    (hf : ∀ i, |f i x - (consts i + ∑ j, A i j * x j)| ≤ totalErrs i - |consts i| - ∑ j, |A i j|)
    (hroot : ∀ i, f i x = 0) (j : Fin n) :
    (linearCheck1 totalErrs A consts).1 j ≤ (x j : WithBot K) ∧
      (x j : WithTop K) ≤ (linearCheck1 totalErrs A consts).2 j := by
  apply linearCheck1_sound _ _ _ x hx
  intro i
  have := hf i
  rwa [hroot i, zero_sub, abs_neg] at this

/-- Instance: `f(x) = x - 1/5`, which differs from `-1/4 + x` by `1/20`, at its zero. -/
example : (linearCheck1 (n := 1) (fun _ => (27 / 20 : ℚ)) (Matrix.of fun _ _ => 1) (fun _ => -1 / 4)).1 0 ≤ ((1 / 5 : ℚ) : WithBot ℚ) ∧
    ((1 / 5 : ℚ) : WithTop ℚ) ≤ (linearCheck1 (n := 1) (fun _ => (27 / 20 : ℚ)) (Matrix.of fun _ _ => 1) (fun _ => -1 / 4)).2 0 :=
  C11_linearCheck1_sound _ _ _ (fun _ x => x 0 - 1 / 5) (fun _ => 1 / 5) (fun _ => by norm_num)
    (fun _ => by norm_num [abs_of_pos]) (fun _ => by norm_num) 0

theorem foldl_max_le_iff {α : Type*} (l : List α) (p : α → Prop) [DecidablePred p] (f : α → K) (y a : WithBot K) :
    l.foldl (fun (a : WithBot K) r => if p r then max a ((f r : K) : WithBot K) else a) a ≤ y ↔
      a ≤ y ∧ ∀ r ∈ l, p r → ((f r : K) : WithBot K) ≤ y := by
  induction l generalizing a with
  | nil => simp
  | cons r l ih =>
    rw [List.foldl_cons, ih]
    by_cases h : p r <;> simp [h, and_assoc]

theorem le_foldl_min_iff {α : Type*} (l : List α) (p : α → Prop) [DecidablePred p] (f : α → K) (y a : WithTop K) :
    y ≤ l.foldl (fun (a : WithTop K) r => if p r then min a ((f r : K) : WithTop K) else a) a ↔
      y ≤ a ∧ ∀ r ∈ l, p r → y ≤ ((f r : K) : WithTop K) := by
  induction l generalizing a with
  | nil => simp
  | cons r l ih =>
    rw [List.foldl_cons, ih]
    by_cases h : p r <;> simp [h, and_assoc]

theorem linBounds_iff (A c T t : K) (hA : A ≠ 0) :
    ((linBounds T A c).1 ≤ t ∧ t ≤ (linBounds T A c).2) ↔ |c + A * t| ≤ T - |c| - |A| := by
  have hpos : 0 < |A| := abs_pos.2 hA
  have h2 : |c + A * t| ≤ T - |c| - |A| ↔ |c / A + t| ≤ T / |A| - |c / A| - 1 := by
    have e : c / A + t = (c + A * t) / A := by field_simp
    have e2 : T / |A| - |c| / |A| - 1 = (T - |c| - |A|) / |A| := by field_simp
    rw [e, abs_div, abs_div, e2, div_le_div_iff_of_pos_right hpos]
  rw [h2, abs_le]
  unfold linBounds
  have e2 : 2 * c / A = 2 * (c / A) := by ring
  simp only [e2]
  generalize c / A = u
  generalize T / |A| = v
  split
  · rename_i ht
    have : 0 ≤ u := by linarith
    rw [abs_of_nonneg this]
    constructor <;> rintro ⟨h1, h2⟩ <;> constructor <;> linarith
  · rename_i ht
    have : u < 0 := by by_contra hc; push Not at hc; exact ht (by linarith)
    rw [abs_of_neg this]
    constructor <;> rintro ⟨h1, h2⟩ <;> constructor <;> linarith

/-- C11, sharpness: the returned interval for coordinate `j` consists of exactly those values `t` that no row excludes
(row `i` excludes `t` if the value `consts i + A i j * t` is beyond the mass of the other terms). -/
theorem C11_linearCheck1_iff (totalErrs : Fin n → K) (A : Matrix (Fin n) (Fin n) K) (consts : Fin n → K) (j : Fin n)
    (t : K) :
    ((linearCheck1 totalErrs A consts).1 j ≤ (t : WithBot K) ∧ (t : WithTop K) ≤ (linearCheck1 totalErrs A consts).2 j) ↔
      ∀ i, A i j ≠ 0 → |consts i + A i j * t| ≤ totalErrs i - |consts i| - |A i j| := by
  unfold linearCheck1
  rw [foldl_max_le_iff, le_foldl_min_iff]
  simp only [bot_le, le_top, true_and, List.mem_finRange, forall_const, WithBot.coe_le_coe, WithTop.coe_le_coe]
  constructor
  · rintro ⟨h1, h2⟩ i hi
    exact (linBounds_iff _ _ _ _ hi).1 ⟨h1 i hi, h2 i hi⟩
  · intro h
    exact ⟨fun i hi => ((linBounds_iff _ _ _ _ hi).2 (h i hi)).1, fun i hi => ((linBounds_iff _ _ _ _ hi).2 (h i hi)).2⟩

/-- Instance: `x - 1/4` with error `1/10`; only `[3/20, 7/20]` is left, so `2/5` is excluded. -/
example : ¬ ((linearCheck1 (n := 1) (fun _ => (27 / 20 : ℚ)) (Matrix.of fun _ _ => 1) (fun _ => -1 / 4)).1 0 ≤ ((2 / 5 : ℚ) : WithBot ℚ) ∧
    ((2 / 5 : ℚ) : WithTop ℚ) ≤ (linearCheck1 (n := 1) (fun _ => (27 / 20 : ℚ)) (Matrix.of fun _ _ => 1) (fun _ => -1 / 4)).2 0) := by
  rw [C11_linearCheck1_iff]
  intro h
  have := h 0 (by simp)
  norm_num [abs_of_nonneg, abs_of_neg] at this

/-- C11, for functions within `errors` of Chebyshev tensors. -/
theorem C11_linearCheck1_sound_cheb (Ms : Fin n → Tensor n K) (hM : ∀ i, (Ms i).Nonempty)
    (errors : Fin n → K) (F : Fin n → (Fin n → K) → K)
    (hF : ∀ i x, InCube x → |F i x - (Ms i).eval x| ≤ errors i)
    (x : Fin n → K) (hx : InCube x) (hroot : ∀ i, F i x = 0) (j : Fin n) :
    let A : Matrix (Fin n) (Fin n) K := Matrix.of fun i j => (getLinearTerms (Ms i)).getD j 0
    let r := linearCheck1 (fun i => (Ms i).absSum + errors i) A (fun i => (Ms i).ravel 0)
    r.1 j ≤ (x j : WithBot K) ∧ (x j : WithTop K) ≤ r.2 j := by
  intro A r
  apply C11_linearCheck1_sound _ A _ F x hx _ hroot
  intro i
  have h1 := eval_linear_bound (Ms i) (hM i) hx
  have h2 := hF i x hx
  have hA : ∀ j, A i j = linCoef (Ms i) j := fun j => getLinearTerms_getD (Ms i) (hM i) j
  simp only [hA, ravel_zero]
  have h3 := abs_add_le (F i x - (Ms i).eval x)
    ((Ms i).eval x - ((Ms i).const + ∑ j, linCoef (Ms i) j * x j))
  rw [sub_add_sub_cancel] at h3
  linarith

/-- `x - 1/4` as a one-dimensional Chebyshev tensor. -/
noncomputable def exLin : Tensor 1 ℝ := ⟨fun _ => 2, fun k => if k 0 = 0 then -1 / 4 else 1⟩

theorem exLin_eval (x : Fin 1 → ℝ) : exLin.eval x = x 0 - 1 / 4 := by
  have : exLin.idx = {fun _ => 0, fun _ => 1} := by
    ext k
    simp only [Tensor.idx, exLin, Fintype.mem_piFinset, mem_range, mem_insert, mem_singleton,
      Fin.forall_fin_one, funext_iff]
    omega
  unfold Tensor.eval
  rw [this, sum_pair (by intro h; simpa using congrFun h 0)]
  simp [exLin]
  ring

theorem exLin_nonempty : exLin.Nonempty := fun _ => by simp [exLin]

/-- Instance: `F(x) = x - 1/5` is within `1/10` of `x - 1/4` and vanishes at `1/5`. -/
example : let A : Matrix (Fin 1) (Fin 1) ℝ := Matrix.of fun _ j => (getLinearTerms exLin).getD j 0
    let r := linearCheck1 (fun _ => exLin.absSum + 1 / 10) A (fun _ => exLin.ravel 0)
    r.1 0 ≤ ((1 / 5 : ℝ) : WithBot ℝ) ∧ ((1 / 5 : ℝ) : WithTop ℝ) ≤ r.2 0 :=
  C11_linearCheck1_sound_cheb (fun _ => exLin) (fun _ => exLin_nonempty) (fun _ => 1 / 10)
    (fun _ x => x 0 - 1 / 5)
    (fun _ x _ => by
      rw [exLin_eval, show x 0 - 1 / 5 - (x 0 - 1 / 4) = (1 / 20 : ℝ) by ring]
      norm_num)
    (fun _ => 1 / 5) (fun _ => by norm_num) (fun _ => by norm_num) 0

/-! ### C12 -/

section General

variable {K : Type*} [Field K] [LinearOrder K] [IsStrictOrderedRing K] [FloorSemiring K]

/-- First pass without change: the box is almost the whole cube. -/
theorem bounds_of_unchanged (svd : SVD n K) (L : LinSys n K) (err : Fin n → K)
    (a0 : Fin n → WithBot K) (b0 : Fin n → WithTop K)
    (ht : (boundPass svd L err a0 b0).throwOut = false)
    (hr : ¬ (boundPass svd L err a0 b0).newRatio < 99 / 100) (i : Fin n) :
    (boundPass svd L err a0 b0).a i ≤ -98 / 100 ∧ 98 / 100 ≤ (boundPass svd L err a0 b0).b i := by
  have hw := boundPass_within svd L err a0 b0
  have ho := boundPass_ordered svd L err a0 b0 ht
  push Not at hr
  have h := side_ge_of_ratio
    (fun i => (boundPass svd L err a0 b0).b i - (boundPass svd L err a0 b0).a i)
    (fun i => by have := ho i; linarith)
    (fun i => by have := hw i; linarith [this.1.1, this.2.2]) hr i
  have := hw i
  constructor <;> linarith [this.1.1, this.2.2]

/-- A second pass that starts from the result of an unchanged first pass and does not use the inverse keeps every
point of the first box. -/
theorem secondPass_sound (svd : SVD n K) (L : LinSys n K) (hwc : ¬ svd.wellConditioned L.A = true)
    (hc : ∀ j, 1 ≤ L.colScaler j) (err : Fin n → K) (a b : Fin n → K)
    (ha : ∀ i, a i ≤ -98 / 100) (hb : ∀ i, 98 / 100 ≤ b i) (x : Fin n → K) (hx : InCube x)
    (h : ∀ i, a i ≤ x i ∧ x i ≤ b i) :
    (boundPass svd L err (fun i => (a i : WithBot K)) (fun i => (b i : WithTop K))).throwOut = false ∧
      ∀ i, (boundPass svd L err (fun i => (a i : WithBot K)) (fun i => (b i : WithTop K))).a i ≤ x i ∧
        x i ≤ (boundPass svd L err (fun i => (a i : WithBot K)) (fun i => (b i : WithTop K))).b i := by
  apply boundPass_sound L (fun h => absurd h hwc) err _ _ x hx hc _ _ (fun h => absurd h hwc)
  · intro j
    apply WithBot.coe_le_coe.2
    have := hc j; have := ha j; have := (h j).1
    nlinarith
  · intro j
    apply WithTop.coe_le_coe.2
    have := hc j; have := hb j; have := (h j).2
    nlinarith

/-- C12, shape of the result: the returned box lies in `[-1,1]^n`, and it is a genuine box unless the
whole box is thrown out.  No assumption on the inputs. -/
theorem C12_bounding_within (svd : SVD n K) (Ms : Fin n → Tensor n K) (errors : Fin n → K)
    (finalStep : Bool) :
    (boundingIntervalLinearSystem svd Ms errors finalStep).interval.Within (Box.unit n K) ∧
    ((boundingIntervalLinearSystem svd Ms errors finalStep).throwOut = false →
      (boundingIntervalLinearSystem svd Ms errors finalStep).interval.Ordered) := by
  have hw : ∀ err a0 b0, (⟨(boundPass svd (linSys Ms errors finalStep) err a0 b0).a,
      (boundPass svd (linSys Ms errors finalStep) err a0 b0).b⟩ : Box n K).Within (Box.unit n K) :=
    fun err a0 b0 i => ⟨(boundPass_within svd (linSys Ms errors finalStep) err a0 b0 i).1.1,
      (boundPass_within svd (linSys Ms errors finalStep) err a0 b0 i).2.2⟩
  have ho := fun err a0 b0 => boundPass_ordered svd (linSys Ms errors finalStep) err a0 b0
  have hu := fun err a0 b0 => bounds_of_unchanged svd (linSys Ms errors finalStep) err a0 b0
  have hs := fun hwc err a b ha hb => secondPass_sound svd (linSys Ms errors finalStep) hwc
    (linSys_colScaler_ge Ms errors finalStep) err a b ha hb (fun _ => 0) (fun _ => by simp)
    (fun i => ⟨by linarith [ha i], by linarith [hb i]⟩)
  unfold boundingIntervalLinearSystem
  simp only
  split_ifs with h1 h2 h3 h3
  · exact ⟨hw _ _ _, fun h => ho _ _ _ h⟩
  all_goals
    simp only [Bool.or_eq_true, decide_eq_true_eq, not_or, Bool.not_eq_true] at h1
  · exact ⟨hw _ _ _, fun _ => ho _ _ _ h1.1⟩
  · exact ⟨hw _ _ _, fun _ => ho _ _ _ h1.1⟩
  · refine ⟨hw _ _ _, fun _ => ho _ _ _ ?_⟩
    exact (hs h2 _ _ _ (fun i => (hu _ _ _ h1.1 h1.2 i).1) (fun i => (hu _ _ _ h1.1 h1.2 i).2)).1
  · refine ⟨hw _ _ _, fun _ => ho _ _ _ ?_⟩
    exact (hs h2 _ _ _ (fun i => (hu _ _ _ h1.1 h1.2 i).1) (fun i => (hu _ _ _ h1.1 h1.2 i).2)).1

/-- Instance: `3 + T_1`, which has no zero in the cube. -/
example (svd : SVD 1 ℚ) : (boundingIntervalLinearSystem svd (fun _ => (⟨fun _ => 2, fun k => if k 0 = 0 then 3 else 1⟩ : Tensor 1 ℚ))
    (fun _ => 1 / 10) false).interval.Within (Box.unit 1 ℚ) :=
  (C12_bounding_within svd _ _ false).1

end General

variable [FloorSemiring K]

/-- C12.  Functions within `errors` of the tensors vanish at a point `x` of the cube: then the box is not
thrown out and `x` lies in the returned box.  (The non-strict hypothesis makes this stronger than the
property as listed.) -/
theorem C12_bounding_sound (svd : SVD n K) (hv : svd.Valid) (Ms : Fin n → Tensor n K)
    (hM : ∀ i, (Ms i).Nonempty) (errors : Fin n → K) (F : Fin n → (Fin n → K) → K)
    (hF : ∀ i x, InCube x → |F i x - (Ms i).eval x| ≤ errors i)
    (x : Fin n → K) (hx : InCube x) (hroot : ∀ i, F i x = 0) :
    (boundingIntervalLinearSystem svd Ms errors false).throwOut = false ∧
      (boundingIntervalLinearSystem svd Ms errors false).interval.Mem x := by
  have hres : ∀ i, |(Ms i).const + ∑ j, linCoef (Ms i) j * x j|
      ≤ (Ms i).absSum + errors i - |(Ms i).const| - ∑ j, |linCoef (Ms i) j| := by
    intro i
    have h1 := eval_linear_bound (Ms i) (hM i) hx
    have h2 := hF i x hx
    rw [hroot i] at h2
    have h3 := abs_add_le (0 - (Ms i).eval x)
      ((Ms i).eval x - ((Ms i).const + ∑ j, linCoef (Ms i) j * x j))
    rw [sub_add_sub_cancel, zero_sub, abs_neg] at h3
    linarith
  obtain ⟨hy, hrow, hmass⟩ := linSys_holds Ms errors hM x hx hres
  have hc := linSys_colScaler_ge Ms errors false
  set L := linSys Ms errors false with hL
  have hc0 : ∀ j, 0 < L.colScaler j := fun j => lt_of_lt_of_le one_pos (hc j)
  have hlin := fun j => linearCheck1_sound L.totalErrs L.A L.consts _ hy
    (fun i => by rw [← hmass i]; exact hrow i) j
  have ha : ∀ j, ((linearCheck1 L.totalErrs L.A L.consts).1 j).map (fun v => v * L.colScaler j)
      ≤ (x j : WithBot K) := by
    intro j
    have h := (hlin j).1
    generalize (linearCheck1 L.totalErrs L.A L.consts).1 j = z at h
    induction z using WithBot.recBotCoe with
    | bot => exact bot_le
    | coe v => exact WithBot.coe_le_coe.2 ((le_div_iff₀ (hc0 j)).1 (WithBot.coe_le_coe.1 h))
  have hb : ∀ j, (x j : WithTop K)
      ≤ ((linearCheck1 L.totalErrs L.A L.consts).2 j).map (fun v => v * L.colScaler j) := by
    intro j
    have h := (hlin j).2
    generalize (linearCheck1 L.totalErrs L.A L.consts).2 j = z at h
    induction z using WithTop.recTopCoe with
    | top => exact le_top
    | coe v => exact WithTop.coe_le_coe.2 ((div_le_iff₀ (hc0 j)).1 (WithTop.coe_le_coe.1 h))
  have h0 := boundPass_sound L (SVD.ainv_mul hv L.A) L.err _ _ x hx hc ha hb (fun _ => hrow)
  unfold boundingIntervalLinearSystem
  simp only [← hL]
  split_ifs with h1 h2 h3 h3
  · exact h0
  all_goals
    simp only [Bool.or_eq_true, decide_eq_true_eq, not_or, Bool.not_eq_true] at h1
  · exact ⟨rfl, h0.2⟩
  · exact ⟨rfl, h0.2⟩
  · have hu := bounds_of_unchanged svd L L.err _ _ h1.1 h1.2
    exact ⟨rfl, (secondPass_sound svd L h2 hc L.errors _ _ (fun i => (hu i).1) (fun i => (hu i).2)
      x hx h0.2).2⟩
  · have hu := bounds_of_unchanged svd L L.err _ _ h1.1 h1.2
    exact ⟨rfl, (secondPass_sound svd L h2 hc L.errors _ _ (fun i => (hu i).1) (fun i => (hu i).2)
      x hx h0.2).2⟩

/-- C12, in the final step: the errors are ignored, so exact common zeros of the polynomials are kept. -/
theorem C12_bounding_sound_final (svd : SVD n K) (hv : svd.Valid) (Ms : Fin n → Tensor n K)
    (hM : ∀ i, (Ms i).Nonempty) (errors : Fin n → K)
    (x : Fin n → K) (hx : InCube x) (hroot : ∀ i, (Ms i).eval x = 0) :
    (boundingIntervalLinearSystem svd Ms errors true).throwOut = false ∧
      (boundingIntervalLinearSystem svd Ms errors true).interval.Mem x := by
  have h := C12_bounding_sound svd hv Ms hM (fun _ => 0) (fun i => (Ms i).eval)
    (fun i x _ => by simp) x hx hroot
  have hL : linSys Ms errors true = linSys Ms (fun _ => 0) false := rfl
  unfold boundingIntervalLinearSystem at h ⊢
  simp only [hL] at h ⊢
  split_ifs at h ⊢ <;> exact h

/-- The contract on the external singular value decomposition can be met, for every size. -/
example : ∃ svd : SVD n ℝ, svd.Valid := SVD.exists_valid n

/-- Instance of C12: `F(x) = x - 1/5`, within `1/10` of `x - 1/4`. -/
example (svd : SVD 1 ℝ) (hv : svd.Valid) :
    (boundingIntervalLinearSystem svd (fun _ => exLin) (fun _ => 1 / 10) false).throwOut = false ∧
    (boundingIntervalLinearSystem svd (fun _ => exLin) (fun _ => 1 / 10) false).interval.Mem
      (fun _ => 1 / 5) :=
  C12_bounding_sound svd hv _ (fun _ => exLin_nonempty) _ (fun _ x => x 0 - 1 / 5)
    (fun _ x _ => by
      rw [exLin_eval, show x 0 - 1 / 5 - (x 0 - 1 / 4) = (1 / 20 : ℝ) by ring]
      norm_num)
    _ (fun _ => by norm_num) (fun _ => by norm_num)

example (svd : SVD 1 ℝ) (hv : svd.Valid) :
    (boundingIntervalLinearSystem svd (fun _ => exLin) (fun _ => 1 / 10) true).interval.Mem
      (fun _ => 1 / 4) :=
  (C12_bounding_sound_final svd hv _ (fun _ => exLin_nonempty) _ _
    (fun _ => by norm_num) (fun _ => by rw [exLin_eval]; norm_num)).2

end YRoots
