import Verif.Model.Quadratic
import Verif.Proofs.Quad2D3D
import Mathlib.Tactic.LinearCombination
import Mathlib.Tactic.FieldSimp

/-!
# Sliding to the boundary of the cube
-/

namespace YRoots

open Finset

variable {K : Type*} [Field K] [LinearOrder K] [IsStrictOrderedRing K] {n : ℕ}

/-- A segment that leaves the cube crosses its boundary. -/
theorem exit_cube (p d : Fin n → K) (hp : InCube p) (hd : ¬ InCube (fun i => p i + d i)) :
    ∃ τ, 0 ≤ τ ∧ τ ≤ 1 ∧ InCube (fun i => p i + τ * d i) ∧ ∃ i, p i + τ * d i = -1 ∨ p i + τ * d i = 1 := by
  classical
  obtain ⟨T, hT⟩ : ∃ T : Fin n → K, T = fun i => if 1 < p i + d i then (1 - p i) / d i else (-1 - p i) / d i := ⟨_, rfl⟩
  obtain ⟨B, hB⟩ : ∃ B : Finset (Fin n), B = univ.filter fun i => ¬ |p i + d i| ≤ 1 := ⟨_, rfl⟩
  have mB : ∀ i, i ∈ B ↔ ¬ |p i + d i| ≤ 1 := by intro i; rw [hB]; simp
  have hne : B.Nonempty := by
    unfold InCube at hd
    push Not at hd
    obtain ⟨i, hi⟩ := hd
    exact ⟨i, (mB i).2 (not_le.2 hi)⟩
  have hp' : ∀ i, -1 ≤ p i ∧ p i ≤ 1 := fun i => abs_le.1 (hp i)
  have key : ∀ i ∈ B, 0 ≤ T i ∧ T i ≤ 1 ∧ (p i + T i * d i = -1 ∨ p i + T i * d i = 1) ∧ ∀ τ, 0 ≤ τ → τ ≤ T i → |p i + τ * d i| ≤ 1 := by
    intro i hi
    obtain ⟨l, r⟩ := hp' i
    by_cases h : 1 < p i + d i
    · have e : T i = (1 - p i) / d i := by rw [hT]; exact if_pos h
      have hd0 : 0 < d i := by linarith
      have e2 : T i * d i = 1 - p i := by rw [e]; field_simp
      refine ⟨by rw [e]; exact div_nonneg (by linarith) hd0.le, by rw [e, div_le_one hd0]; linarith, Or.inr (by rw [e2]; ring), ?_⟩
      intro τ t0 t1
      have := mul_le_mul_of_nonneg_right t1 hd0.le
      have := mul_nonneg t0 hd0.le
      exact abs_le.2 ⟨by linarith, by linarith⟩
    · have e : T i = (-1 - p i) / d i := by rw [hT]; exact if_neg h
      have h2 : p i + d i < -1 := by
        have := (mB i).1 hi
        rw [abs_le, not_and_or] at this
        rcases this with h' | h'
        · exact not_le.1 h'
        · exact absurd (not_le.1 h') h
      have hd0 : d i < 0 := by linarith
      have e2 : T i * d i = -1 - p i := by rw [e, div_mul_cancel₀ _ hd0.ne]
      refine ⟨by rw [e]; exact div_nonneg_of_nonpos (by linarith) hd0.le, by rw [e, div_le_one_of_neg hd0]; linarith, Or.inl (by rw [e2]; ring), ?_⟩
      intro τ t0 t1
      have := mul_le_mul_of_nonpos_right t1 hd0.le
      have := mul_nonpos_of_nonneg_of_nonpos t0 hd0.le
      exact abs_le.2 ⟨by linarith, by linarith⟩
  obtain ⟨k, hk, hmin⟩ := exists_min_image B T hne
  obtain ⟨k0, k1, k2, -⟩ := key k hk
  refine ⟨T k, k0, k1, ?_, k, k2⟩
  intro i
  by_cases hi : i ∈ B
  · exact (key i hi).2.2.2 _ k0 (hmin i hi)
  · have h1 : |p i + d i| ≤ 1 := not_not.1 ((mB i).not.1 hi)
    have e : p i + T k * d i = (1 - T k) * p i + T k * (p i + d i) := by ring
    show |p i + T k * d i| ≤ 1
    rw [e]
    refine (abs_add_le _ _).trans ?_
    rw [abs_mul, abs_mul, abs_of_nonneg k0, abs_of_nonneg (by linarith : 0 ≤ 1 - T k)]
    have := mul_le_of_le_one_right (by linarith : 0 ≤ 1 - T k) (hp i)
    have := mul_le_of_le_one_right k0 h1
    linarith

variable {R : K → Prop} (hR : ∀ v w, R v → v ≤ w → R w) {F : (Fin n → K) → K} {e : K}
  (hb : ∀ b, InCube b → (∃ i, b i = -1 ∨ b i = 1) → R (F b + e))

include hR hb

/-- From any point of the cube the boundary is reached along a direction of small curvature. -/
theorem slideOut (p d : Fin n → K) (hp : InCube p) (k : Fin n) (hk : d k = 1) (L Q : K)
    (hF : ∀ τ, F (fun i => p i + τ * d i) = F p + τ * L + τ ^ 2 * Q) {q : K} (hQ : Q ≤ q) (hq : 0 ≤ q) : R (F p + 4 * q + e) := by
  have step : ∀ s : K, s = 1 ∨ s = -1 → ∃ τ, 0 ≤ τ ∧ τ ≤ 2 ∧ InCube (fun i => p i + (s * τ) * d i) ∧
      ∃ i, p i + (s * τ) * d i = -1 ∨ p i + (s * τ) * d i = 1 := by
    intro s hs
    by_cases h : InCube (fun i => p i + (s * 2) * d i)
    · refine ⟨2, by norm_num, le_rfl, h, k, ?_⟩
      have h1 := abs_le.1 (h k)
      have h2 := abs_le.1 (hp k)
      simp only [hk, mul_one] at h1 ⊢
      rcases hs with rfl | rfl
      · right; linarith
      · left; linarith
    · obtain ⟨τ, t0, t1, h1, i, hi⟩ := exit_cube p (fun i => (s * 2) * d i) hp h
      have e : ∀ i, p i + τ * ((s * 2) * d i) = p i + (s * (2 * τ)) * d i := fun i => by ring
      refine ⟨2 * τ, by linarith, by linarith, ?_, i, ?_⟩
      · simpa only [e] using h1
      · simpa only [e] using hi
  obtain ⟨s, hs, hL⟩ : ∃ s : K, (s = 1 ∨ s = -1) ∧ s * L ≤ 0 := by
    rcases le_total L 0 with h | h
    · exact ⟨1, Or.inl rfl, by linarith⟩
    · exact ⟨-1, Or.inr rfl, by linarith⟩
  obtain ⟨τ, t0, t1, h1, h2⟩ := step s hs
  refine hR _ _ (hb _ h1 h2) ?_
  rw [hF]
  have s2 : s ^ 2 = 1 := by rcases hs with rfl | rfl <;> norm_num
  have e1 : (s * τ) ^ 2 * Q ≤ 4 * q := by
    rw [mul_pow, s2, one_mul]
    have t2 : τ ^ 2 ≤ 4 := by nlinarith
    exact (mul_le_mul_of_nonneg_left hQ (sq_nonneg _)).trans (mul_le_mul_of_nonneg_right t2 hq)
  have e2 : s * τ * L ≤ 0 := by
    have := mul_nonneg t0 (neg_nonneg.2 hL)
    linarith
  linarith

/-- If a convex function has its least value outside the cube, the boundary is reached on the way there. -/
theorem towardOut (p w : Fin n → K) (hp : InCube p) (hw : ¬ InCube w) (Q : K)
    (hF : ∀ τ, F (fun i => p i + τ * (w i - p i)) = F w + (1 - τ) ^ 2 * Q) (hQ : 0 ≤ Q) : R (F p + e) := by
  obtain ⟨τ, t0, t1, h1, h2⟩ := exit_cube p (fun i => w i - p i) hp (by simpa using hw)
  refine hR _ _ (hb _ h1 h2) ?_
  have h0 := hF 0
  simp only [zero_mul, add_zero, sub_zero, one_pow, one_mul] at h0
  have h3 : F p = F w + Q := h0
  rw [hF, h3]
  have : (1 - τ) ^ 2 ≤ 1 := by nlinarith
  have := mul_le_mul_of_nonneg_right this hQ
  linarith

/-- A point off the cube by little in one coordinate. -/
theorem clipOut (w : Fin n → K) (hw : InCube w) (z : Fin n → K) {δ : K} (hz : ∀ i, |z i - w i| ≤ δ) (k : Fin n) (hk : z k ≤ -1 ∨ 1 ≤ z k) {q : K}
    (hF : ∀ t, |t| ≤ δ → F (Function.update w k (w k + t)) ≤ F w + q) : R (F w + q + e) := by
  have hwk := abs_le.1 (hw k)
  have hzk := abs_le.1 (hz k)
  have go : ∀ s : K, s = -1 ∨ s = 1 → |s - w k| ≤ δ → R (F w + q + e) := by
    intro s hs h
    have h1 := hF (s - w k) h
    rw [add_sub_cancel] at h1
    refine hR _ _ (hb (Function.update w k s) ?_ ⟨k, by simpa using hs⟩) (by linarith)
    intro i
    by_cases hi : i = k
    · subst hi
      rw [Function.update_self]
      rcases hs with rfl | rfl <;> simp
    · rw [Function.update_of_ne hi]
      exact hw i
  rcases hk with h | h
  · exact go (-1) (Or.inl rfl) (abs_le.2 ⟨by linarith, by linarith⟩)
  · exact go 1 (Or.inr rfl) (abs_le.2 ⟨by linarith, by linarith⟩)

end YRoots
