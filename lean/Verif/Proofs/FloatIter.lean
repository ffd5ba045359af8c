import Verif.Model.FloatIter
import Verif.Props.FloatZoom
import Verif.Props.FloatStart

/-!
# Helper lemmas: one zoom in floating-point arithmetic
-/

set_option linter.unusedSectionVars false

namespace YRoots

open Finset

/-! ### The numbers computed are representable -/

section Float

variable {K : Type*} [Field K] [LinearOrder K] [IsStrictOrderedRing K] {ι : Type*} {fl : K → K} (hfl : RoundsToNearest 53 fl)

include hfl

theorem putRowF_float (c : ι → K) (i : ℕ) (v : K) (p : (ℕ → K) × (ℕ → ι → K)) (hp : ∀ j k, IsFloat 53 (p.2 j k)) :
    ∀ j k, IsFloat 53 ((putRowF fl c i v p).2 j k) := by
  intro j k
  unfold putRowF
  simp only
  by_cases h : j = i
  · subst h
    rw [Function.update_self]
    exact hfl.isFloat _
  · rw [Function.update_of_ne h]
    exact hp j k

theorem tRowsF_float (c : ι → K) (α β : K) (s : TState K (ι → K)) (h : ∀ j k, IsFloat 53 (s.out j k)) :
    ∀ j k, IsFloat 53 ((tRowsF fl c α β s).2 j k) := by
  have key : ∀ (g : ℕ → K) (l : List ℕ) (p : (ℕ → K) × (ℕ → ι → K)), (∀ j k, IsFloat 53 (p.2 j k)) →
      ∀ j k, IsFloat 53 ((l.foldl (fun p i => putRowF fl c i (g i) p) p).2 j k) := by
    intro g l
    induction l with
    | nil => exact fun p hp => hp
    | cons i l ih => exact fun p hp => ih _ (putRowF_float hfl c i (g i) p hp)
  unfold tRowsF
  simp only
  apply putRowF_float hfl
  apply key
  split
  · exact putRowF_float hfl c _ _ _ (putRowF_float hfl c _ _ _ h)
  · exact putRowF_float hfl c _ _ _ h

theorem transform1DF_float (coeffs : ℕ → ι → K) (N : ℕ) (α β : K) : ∀ j k, IsFloat 53 ((transform1DF fl coeffs N α β).1 j k) := by
  have key : ∀ (l : List ℕ) (s : TState K (ι → K)), (∀ j k, IsFloat 53 (s.out j k)) →
      ∀ j k, IsFloat 53 ((l.foldl (tStepF fl (fl (1 / 10 ^ 16)) coeffs α β) s).out j k) := by
    intro l
    induction l with
    | nil => exact fun s hs => hs
    | cons i l ih =>
      refine fun s hs => ih _ ?_
      unfold tStepF
      simp only
      split
      · exact putRowF_float hfl _ _ _ _ (tRowsF_float hfl _ _ _ _ hs)
      · exact tRowsF_float hfl _ _ _ _ hs
  refine key _ _ fun j k => ?_
  unfold tInitF
  simp only
  by_cases h1 : j = 1
  · subst h1
    rw [Function.update_self]
    exact hfl.isFloat _
  · rw [Function.update_of_ne h1]
    by_cases h0 : j = 0
    · subst h0
      rw [Function.update_self]
      exact hfl.isFloat _
    · rw [Function.update_of_ne h0]
      exact isFloat_zero

variable {n : ℕ}

theorem transformNDF_float (M : Tensor n K) (d : Fin n) (α β : K) (h : ∀ k ∈ M.idx, IsFloat 53 (M.coef k)) :
    ∀ k ∈ (transformNDF fl M d α β).idx, IsFloat 53 ((transformNDF fl M d α β).coef k) := by
  unfold transformNDF
  split
  · exact h
  · split
    · exact fun k _ => transform1DF_float hfl _ _ _ _ _ _
    · exact fun k _ => transform1DF_float hfl _ _ _ _ _ _

omit hfl in
theorem transformChebF_float {ar : FloatArith K} (hfl : RoundsToNearest 53 ar.fl) (M : Tensor n K) (α β : Fin n → K) (e : K)
    (h : ∀ k ∈ M.idx, IsFloat 53 (M.coef k)) : ∀ k ∈ (transformChebF ar M α β e).1.idx, IsFloat 53 ((transformChebF ar M α β e).1.coef k) := by
  unfold transformChebF
  generalize List.finRange n = l
  induction l generalizing M e with
  | nil => exact h
  | cons d l ih => exact ih _ _ (transformNDF_float hfl M d _ _ h)

end Float

/-! ### The subinterval -/

section Clamp

variable {K : Type*} [Field K] [LinearOrder K] [IsStrictOrderedRing K] [FloorRing K]

theorem clampLo_spec {a : WithBot K} {x : K} (h : a ≤ (x : WithBot K)) (hx : |x| ≤ 1) (hf : ∀ v : K, a = (v : WithBot K) → IsFloat 53 v) :
    |clampLo a| ≤ 1 ∧ clampLo a ≤ x ∧ IsFloat 53 (clampLo a) := by
  have h1 := abs_le.1 hx
  have f1 : IsFloat 53 (1 : K) := ⟨1, 0, by norm_num, by norm_num⟩
  cases a with
  | bot => exact ⟨by simp [clampLo], h1.1, f1.neg⟩
  | coe v =>
    have hv : v ≤ x := WithBot.coe_le_coe.1 h
    unfold clampLo
    simp only
    split
    · exact ⟨by simp, h1.1, f1.neg⟩
    · split
      · linarith
      · exact ⟨abs_le.2 ⟨by linarith, by linarith⟩, hv, hf v rfl⟩

theorem clampHi_spec {b : WithTop K} {x : K} (h : (x : WithTop K) ≤ b) (hx : |x| ≤ 1) (hf : ∀ v : K, b = (v : WithTop K) → IsFloat 53 v) :
    |clampHi b| ≤ 1 ∧ x ≤ clampHi b ∧ IsFloat 53 (clampHi b) := by
  have h1 := abs_le.1 hx
  have f1 : IsFloat 53 (1 : K) := ⟨1, 0, by norm_num, by norm_num⟩
  cases b with
  | top => exact ⟨by simp [clampHi], h1.2, f1⟩
  | coe v =>
    have hv : x ≤ v := WithTop.coe_le_coe.1 h
    unfold clampHi
    simp only
    split
    · linarith
    · split
      · exact ⟨by simp, h1.2, f1⟩
      · exact ⟨abs_le.2 ⟨by linarith, by linarith⟩, hv, hf v rfl⟩

variable {n : ℕ} {ar : FloatArith K} (hfl : RoundsToNearest 53 ar.fl)

include hfl

theorem rawBoundsF_float (svd : SvdF n K) (L : LinSys n K) (err : Fin n → K) (a0 : Fin n → WithBot K) (b0 : Fin n → WithTop K) (j : Fin n) :
    (∀ v : K, (rawBoundsF ar svd L err a0 b0).1 j = (v : WithBot K) → IsFloat 53 v) ∧
      ∀ v : K, (rawBoundsF ar svd L err a0 b0).2 j = (v : WithTop K) → IsFloat 53 v := by
  unfold rawBoundsF
  simp only
  constructor
  · intro v hv
    obtain ⟨w, -, rfl⟩ := WithBot.map_eq_some_iff.1 hv
    exact hfl.isFloat _
  · intro v hv
    obtain ⟨w, -, rfl⟩ := WithTop.map_eq_some_iff.1 hv
    exact hfl.isFloat _

end Clamp

/-! ### One zoom -/

theorem pow_one_add_le {x : ℝ} (hx : 0 ≤ x) (m : ℕ) (h : m * x ≤ 1 / 2) : (1 + x) ^ m ≤ 1 + 2 * (m * x) := by
  have h0 : 0 ≤ (m : ℝ) * x := by positivity
  have h1 : (1 + x) ^ m ≤ Real.exp (m * x) := by
    have := Real.add_one_le_exp x
    calc (1 + x) ^ m ≤ Real.exp x ^ m := pow_le_pow_left₀ (by linarith) (by linarith) m
      _ = _ := by rw [← Real.exp_nat_mul]
  have h2 := Real.exp_bound_div_one_sub_of_interval h0 (by linarith : (m : ℝ) * x < 1)
  refine (h1.trans h2).trans ?_
  rw [div_le_iff₀ (by linarith)]
  nlinarith

/-- What is left of the slack after `k` zooms. -/
theorem slack_left {k K m : ℕ} (hk : k ≤ K) (hK : K ≤ 2 ^ 20) {S E0 q κ C τ θ g E A : ℝ} (hS : 0 ≤ S) (hE0 : 0 ≤ E0) (hq : 0 ≤ q) (hκ : 0 ≤ κ)
    (hC : 1 ≤ C) (hθ : θ = m * K * q) (hθ2 : θ ≤ 1 / 2) (hτ : 4 * κ * C + 2 * θ + K / 2 ^ 29 ≤ τ) (hg : 0 ≤ g)
    (hgq : g ≤ ((1 + q) ^ (m * k) - 1) * S) (hElo : (1 - 1 / 2 ^ 29) ^ k * E0 ≤ E) (hEhi : E ≤ (1 + 1 / 2 ^ 29) ^ k * (E0 + g)) (hA : A ≤ C * (S + g)) :
    E0 - τ * (S + E0) + g ≤ E - κ * (A + E) := by
  have hkK : (k : ℝ) ≤ K := by exact_mod_cast hk
  have hKr : (K : ℝ) ≤ 2 ^ 20 := by exact_mod_cast hK
  have hk0 : (0 : ℝ) ≤ k := Nat.cast_nonneg k
  have h1 : ((m * k : ℕ) : ℝ) * q ≤ θ := by
    rw [hθ]
    push_cast
    exact mul_le_mul_of_nonneg_right (mul_le_mul_of_nonneg_left hkK (Nat.cast_nonneg m)) hq
  have h2 := pow_one_add_le hq (m * k) (h1.trans hθ2)
  have h3 : g ≤ 2 * θ * S := hgq.trans (mul_le_mul_of_nonneg_right (by linarith) hS)
  have h4 : g ≤ S := h3.trans (by nlinarith)
  have h5 : 1 - K / 2 ^ 29 ≤ (1 - 1 / 2 ^ 29 : ℝ) ^ k := by
    have hb := one_add_mul_le_pow (a := -(1 / 2 ^ 29 : ℝ)) (by norm_num) k
    rw [← sub_eq_add_neg] at hb
    linarith
  have h6 : (1 + 1 / 2 ^ 29 : ℝ) ^ k ≤ 2 := by
    have := pow_one_add_le (x := 1 / 2 ^ 29) (by norm_num) k (by linarith)
    linarith
  have h7 : E0 - K / 2 ^ 29 * E0 ≤ E := by
    have := (mul_le_mul_of_nonneg_right h5 hE0).trans hElo
    linarith
  have h8 : E ≤ 2 * (E0 + g) := hEhi.trans (mul_le_mul_of_nonneg_right h6 (by linarith))
  have h9 : A + E ≤ 4 * C * (S + E0) := by nlinarith
  have h10 := mul_le_mul_of_nonneg_left h9 hκ
  have h11 := mul_le_mul_of_nonneg_right hτ (add_nonneg hS hE0)
  have h12 : 0 ≤ (K : ℝ) / 2 ^ 29 * S := by positivity
  have hθ0 : 0 ≤ θ := by rw [hθ]; positivity
  have h13 : 0 ≤ θ * E0 := mul_nonneg hθ0 hE0
  linarith

/-- A point of the subinterval in the coordinates of the subinterval. -/
theorem sub_coord {a b x : ℝ} (h1 : a ≤ x) (h2 : x ≤ b) : ∃ y : ℝ, |y| ≤ 1 ∧ (b - a) / 2 * y + (b + a) / 2 = x := by
  rcases eq_or_lt_of_le (h1.trans h2) with h | h
  · exact ⟨0, by simp, by linarith⟩
  · refine ⟨(2 * x - (b + a)) / (b - a), ?_, ?_⟩
    · rw [abs_le, le_div_iff₀ (by linarith), div_le_iff₀ (by linarith)]
      constructor <;> linarith
    · have : b - a ≠ 0 := by linarith
      field_simp
      ring

section Step

variable {n : ℕ} {ar : FloatArith ℝ} (hfl : RoundsToNearest 53 ar.fl) (hs : ar.Sums)

include hfl hs

/-- If there is a zero and the slack is large enough, one zoom either changes nothing or adds a subinterval that contains the zero. -/
theorem zoomIterF_cases (Ms : Fin n → Tensor n ℝ) (hM : ∀ i, (Ms i).Nonempty) (hFl : ∀ i, ∀ k ∈ (Ms i).idx, IsFloat 53 ((Ms i).coef k))
    (hN : ∀ i, ∏ j, (Ms i).shape j ≤ 2 ^ 20) (hn : ∀ i, (∏ j, (Ms i).shape j + n + 10) * (2 * n + 1) ≤ 2 ^ 23)
    (errors : Fin n → ℝ) (he : ∀ i, 0 ≤ errors i) (svd : SvdF n ℝ) {ρ γ κ : ℝ} (hsvd : svd.Accurate ρ γ) (hρ0 : 0 ≤ ρ) (hρ : ρ ≤ 1 / 2) (hγ0 : 0 ≤ γ)
    (hγ : γ ≤ 1) (hκ : 1 / 2 ^ 28 + 4 * ρ + 3 * γ ≤ κ) (F : Fin n → (Fin n → ℝ) → ℝ)
    (hF : ∀ i x, InCube x → |F i x - (Ms i).eval x| ≤ errors i - κ * ((Ms i).absSum + errors i))
    (x : Fin n → ℝ) (hx : InCube x) (hroot : ∀ i, F i x = 0) (ti : TrackedInterval n ℝ) (hfin : ti.finalStep = false) :
    (∃ st, zoomInOnIntervalIterF ar svd Ms errors ti = .ok ⟨Ms, errors, ti, false, st⟩) ∨
      ∃ (a b : Fin n → ℝ) (st : Bool), (∀ j, |a j| ≤ 1 ∧ |b j| ≤ 1 ∧ a j ≤ x j ∧ x j ≤ b j ∧ IsFloat 53 (a j) ∧ IsFloat 53 (b j)) ∧
        zoomInOnIntervalIterF ar svd Ms errors ti = .ok ⟨(zoomToF ar Ms errors a b).1, (zoomToF ar Ms errors a b).2,
          ti.addTransformF ar.fl ⟨a, b⟩, true, st⟩ ∧ ti.addTransformF ar.fl ⟨a, b⟩ = ti.applySubF ar.fl ⟨a, b⟩ := by
  obtain ⟨L, hL⟩ : ∃ L, L = linSysF ar Ms errors false := ⟨_, rfl⟩
  obtain ⟨r, hr⟩ : ∃ r, r = rawBoundsF ar svd L L.err (linearCheck1F ar.fl L.totalErrs L.A L.consts).1
    (linearCheck1F ar.fl L.totalErrs L.A L.consts).2 := ⟨_, rfl⟩
  have hk : ∀ j, r.1 j ≤ (x j : WithBot ℝ) ∧ (x j : WithTop ℝ) ≤ r.2 j := by
    rw [hr, hL]
    exact bounding_kept hfl hs Ms hM hFl hN hn errors he svd hsvd hρ0 hρ hγ0 hγ hκ F hF x hx hroot
  have ht : throwOutOf r = false := throwOutOf_eq_false hx (fun j => (hk j).1) fun j => (hk j).2
  have hfl1 := rawBoundsF_float hfl svd L L.err (linearCheck1F ar.fl L.totalErrs L.A L.consts).1 (linearCheck1F ar.fl L.totalErrs L.A L.consts).2
  rw [← hr] at hfl1
  have hlo := fun j => clampLo_spec (hk j).1 (hx j) (hfl1 j).1
  have hhi := fun j => clampHi_spec (hk j).2 (hx j) (hfl1 j).2
  have hR : ((boundingIntervalLinearSystemF ar svd Ms errors false).changed = false ∧ (boundingIntervalLinearSystemF ar svd Ms errors false).throwOut = false) ∨
      ((boundingIntervalLinearSystemF ar svd Ms errors false).changed = true ∧ (boundingIntervalLinearSystemF ar svd Ms errors false).throwOut = false ∧
        (boundingIntervalLinearSystemF ar svd Ms errors false).interval = ⟨fun j => clampLo (r.1 j), fun j => clampHi (r.2 j)⟩) := by
    unfold boundingIntervalLinearSystemF
    simp only [← hL]
    generalize hp : boundPassF ar svd L L.err (linearCheck1F ar.fl L.totalErrs L.A L.consts).1 (linearCheck1F ar.fl L.totalErrs L.A L.consts).2 = p
    have p1 : p.throwOut = false := by rw [← hp, boundPassF, ← hr]; exact ht
    have p2 : p.a = fun j => clampLo (r.1 j) := by rw [← hp, boundPassF, ← hr]
    have p3 : p.b = fun j => clampHi (r.2 j) := by rw [← hp, boundPassF, ← hr]
    split
    · right
      exact ⟨rfl, p1, by rw [p2, p3]⟩
    · left
      split <;> split <;> exact ⟨rfl, rfl⟩
  unfold zoomInOnIntervalIterF
  rw [hfin]
  generalize boundingIntervalLinearSystemF ar svd Ms errors false = R at hR
  rcases hR with ⟨h1, h2⟩ | ⟨h1, h2, h3⟩
  · left
    exact ⟨R.shouldStop, by simp [h1, h2]⟩
  · right
    obtain ⟨a, ha⟩ : ∃ a, a = (skipPointDims ti.interval R.interval).lo := ⟨_, rfl⟩
    obtain ⟨b, hb⟩ : ∃ b, b = (skipPointDims ti.interval R.interval).hi := ⟨_, rfl⟩
    have f1 : IsFloat 53 (1 : ℝ) := ⟨1, 0, by norm_num, by norm_num⟩
    have hab : ∀ j, |a j| ≤ 1 ∧ |b j| ≤ 1 ∧ a j ≤ x j ∧ x j ≤ b j ∧ IsFloat 53 (a j) ∧ IsFloat 53 (b j) := by
      intro j
      rw [ha, hb, h3]
      unfold skipPointDims
      simp only
      split
      · exact ⟨by simp, by simp, (abs_le.1 (hx j)).1, (abs_le.1 (hx j)).2, f1.neg, f1⟩
      · exact ⟨(hlo j).1, (hhi j).1, (hlo j).2.1, (hhi j).2.1, (hlo j).2.2, (hhi j).2.2⟩
    have hi : skipPointDims ti.interval R.interval = ⟨a, b⟩ := by rw [ha, hb]
    have hle : ¬ ∃ i, a i > b i := fun ⟨i, h⟩ => absurd ((hab i).2.2.1.trans (hab i).2.2.2.1) (not_le.2 h)
    have hadd : ti.addTransformF ar.fl ⟨a, b⟩ = ti.applySubF ar.fl ⟨a, b⟩ := by
      unfold TrackedInterval.addTransformF
      rw [if_neg (fun h => hle h.1), if_neg hle]
    refine ⟨a, b, R.shouldStop, hab, ?_, hadd⟩
    have hlast : (ti.applySubF ar.fl ⟨a, b⟩).getLastTransform =
        some (fun d => (getTransformPointsF ar.fl (a d) (b d)).1, fun d => (getTransformPointsF ar.fl (a d) (b d)).2) := by
      simp [TrackedInterval.getLastTransform, TrackedInterval.applySubF, getTransformPointsF]
    have hfs : (ti.applySubF ar.fl ⟨a, b⟩).finalStep = false := hfin
    simp only [hi, hadd, h1, h2, hlast, hfs, Bool.false_and, Bool.true_or, Bool.or_false, Bool.not_true, Bool.false_eq_true, if_false]
    rfl

end Step

theorem zoomLoopF_thrown {n : ℕ} {K : Type*} [Field K] [LinearOrder K] [FloorSemiring K] (ar : FloatArith K) (svd : SvdF n K)
    (Ms : Fin n → Tensor n K) (errors : Fin n → K) (ti : TrackedInterval n K) (hfin : ti.finalStep = false)
    (h : throwOutF ar svd (linSysF ar Ms errors false) = true) (maxZoomCount fuel : ℕ) (lastSizes : Fin n → K) (zoomCount : ℕ) :
    zoomLoopF ar svd maxZoomCount (fuel + 1) Ms errors ti lastSizes zoomCount = .ok ⟨Ms, errors, { ti with empty := true }, true, true⟩ := by
  have h1 : (boundingIntervalLinearSystemF ar svd Ms errors false).throwOut = true := by
    unfold boundingIntervalLinearSystemF
    unfold throwOutF at h
    simp only [boundPassF, h, Bool.true_or, if_true]
  have h2 : ti.canThrowOut = true := by simp [TrackedInterval.canThrowOut, hfin]
  have h3 : zoomInOnIntervalIterF ar svd Ms errors ti = .ok ⟨Ms, errors, { ti with empty := true }, true, true⟩ := by
    unfold zoomInOnIntervalIterF
    simp only [hfin, h1, h2, Bool.not_true, Bool.and_false, Bool.not_false, Bool.and_true, if_true]
  unfold zoomLoopF
  rw [h3]
  simp only [if_true]

end YRoots
