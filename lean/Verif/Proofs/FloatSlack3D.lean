import Verif.Proofs.FloatQuadratic3D
import Verif.Proofs.QuadSlide

/-!
# The loss of the quadratic check in three variables
-/

namespace YRoots

open Finset

variable {K : Type*} [Field K] [LinearOrder K] [IsStrictOrderedRing K]

/-- `|σ|` is one. -/
theorem sign_mul_le {σ x m : K} (hσ : |σ| = 1) (h : |x| ≤ m) : σ * x ≤ m := by
  refine (le_abs_self _).trans ?_
  rwa [abs_mul, hσ, one_mul]

section R

variable [FloorRing K] {fl : K → K} (hfl : RoundsToNearest 53 fl)

include hfl

/-- A rounded quotient with a small divisor. -/
theorem quot_err {N N' D D' w g h : K} (hw : |w| ≤ 1) (hN : N = w * D) (hN' : |N' - N| ≤ g) (hD' : |D' - D| ≤ g) (hD : 0 < |D|)
    (hg : 2 * g ≤ |D|) (hh : 4 * g ≤ h * |D|) : D' ≠ 0 ∧ |fl (N' / D') - w| ≤ h * (1 + uu K) + uu K := by
  have hg0 : 0 ≤ g := (abs_nonneg _).trans hN'
  have h1 := abs_sub_abs_le_abs_sub D D'
  rw [abs_sub_comm] at h1
  have h2 : |D| / 2 ≤ |D'| := by linarith
  have hpos : 0 < |D'| := by linarith
  have h0 : D' ≠ 0 := abs_pos.1 hpos
  refine ⟨h0, ?_⟩
  have h3 : |N' / D' - w| ≤ h := by
    have e : N' / D' - w = (N' - w * D') / D' := by field_simp
    rw [e, abs_div, div_le_iff₀ hpos]
    have e2 : N' - w * D' = (N' - N) - w * (D' - D) := by rw [hN]; ring
    rw [e2]
    have g1 := abs_sub (N' - N) (w * (D' - D))
    rw [abs_mul] at g1
    have g2 : |w| * |D' - D| ≤ 1 * |D' - D| := mul_le_mul_of_nonneg_right hw (abs_nonneg _)
    have hh0 : 0 ≤ h := by
      by_contra hc
      push Not at hc
      have := mul_neg_of_neg_of_pos hc hD
      linarith
    have := mul_le_mul_of_nonneg_left h2 hh0
    linarith
  have h4 := flu hfl (N' / D')
  have h5 := abs_add_le (N' / D' - w) w
  rw [sub_add_cancel] at h5
  have h6 := abs_add_le (fl (N' / D') - N' / D') (N' / D' - w)
  rw [sub_add_sub_cancel] at h6
  have h7 : uu K * |N' / D'| ≤ uu K * (h + 1) := mul_le_mul_of_nonneg_left (by linarith) uu_nonneg
  linarith

/-- A quadratic function on an edge. -/
theorem edge_reach {R : K → Prop} (hR : ∀ v w, R v → v ≤ w → R w) {σ A B C B' S : K} (hσ : |σ| = 1) (hC : |C| ≤ S) (hB' : |B' - B| ≤ 8 * uu K * S)
    (h1 : R (σ * (A - B + 2 * C))) (h2 : R (σ * (A + B + 2 * C)))
    (h3 : C ≠ 0 → inside (fl (-B' / (4 * C))) → R (σ * (A + B * fl (-B' / (4 * C)) + 2 * C * fl (-B' / (4 * C)) ^ 2))) {t : K} (ht : |t| ≤ 1) :
    R (σ * (A + B * t + 2 * C * t ^ 2) + 1 / 2 ^ 27 * S) := by
  have hS : 0 ≤ S := (abs_nonneg _).trans hC
  have hS27 : 0 ≤ 1 / 2 ^ 27 * S := by positivity
  have hσ0 : σ ≠ 0 := by rintro rfl; simp at hσ
  have e : ∀ t, σ * A + σ * B * t + 2 * (σ * C) * t ^ 2 = σ * (A + B * t + 2 * C * t ^ 2) := fun t => by ring
  rcases quad1D (σ * A) (σ * B) (σ * C) t ht with h | h | ⟨hC0, hw, h⟩
  · exact hR _ _ h1 (by rw [e] at h; linarith)
  · exact hR _ _ h2 (by rw [e] at h; linarith)
  have hC0' : C ≠ 0 := right_ne_zero_of_mul hC0
  have ew : -(σ * B) / (4 * (σ * C)) = -B / (4 * C) := by
    rw [show -(σ * B) = σ * -B by ring, show 4 * (σ * C) = σ * (4 * C) by ring, mul_div_mul_left _ _ hσ0]
  obtain ⟨w, hwe⟩ : ∃ w, w = -B / (4 * C) := ⟨_, rfl⟩
  rw [ew, ← hwe, e, e] at h
  rw [ew, ← hwe] at hw
  have hB : B = -(4 * C * w) := by rw [hwe]; field_simp
  have val : ∀ z, A + B * z + 2 * C * z ^ 2 = A + B * w + 2 * C * w ^ 2 + 2 * C * (z - w) ^ 2 := by intro z; rw [hB]; ring
  have cost : ∀ z m, |2 * C * (z - w) ^ 2| ≤ m → σ * (A + B * z + 2 * C * z ^ 2) ≤ σ * (A + B * t + 2 * C * t ^ 2) + m := by
    intro z m hm
    rw [val z, mul_add]
    linarith [sign_mul_le hσ hm]
  have habs : ∀ z, |2 * C * (z - w) ^ 2| = 2 * |C| * (z - w) ^ 2 := by
    intro z
    rw [abs_mul, abs_mul, abs_two, abs_of_nonneg (sq_nonneg (z - w))]
  have hwb := abs_le.1 hw
  by_cases hsm : |C| ≤ 1 / 2 ^ 30 * S
  · have := cost 1 (1 / 2 ^ 27 * S) (by
      rw [habs]
      have : (1 - w) ^ 2 ≤ 4 := by nlinarith
      calc 2 * |C| * (1 - w) ^ 2 ≤ 2 * (1 / 2 ^ 30 * S) * 4 := mul_le_mul (by linarith) this (sq_nonneg _) (by positivity)
        _ = 1 / 2 ^ 27 * S := by ring)
    refine hR _ _ h2 (le_trans (le_of_eq ?_) this)
    ring
  · push Not at hsm
    have hCp : 0 < |C| := abs_pos.2 hC0'
    obtain ⟨z, hz⟩ : ∃ z, z = fl (-B' / (4 * C)) := ⟨_, rfl⟩
    have hD : |4 * C| = 4 * |C| := by rw [abs_mul, abs_of_pos (by norm_num : (0 : K) < 4)]
    have hu := uu_nonneg (K := K)
    have q := (quot_err hfl (N := -B) (N' := -B') (D := 4 * C) (D' := 4 * C) (w := w) (g := 8 * uu K * S) (h := 1 / 2 ^ 20) hw
      (by rw [hB]; ring) (by rw [show -B' - -B = -(B' - B) by ring, abs_neg]; exact hB') (by rw [sub_self, abs_zero]; positivity)
      (by rw [hD]; linarith) (by
        rw [hD]
        have : 16 * uu K * S ≤ 4 * (1 / 2 ^ 30 * S) := by
          rw [← mul_assoc]
          exact mul_le_mul_of_nonneg_right (by unfold uu; norm_num) hS
        linarith)
      (by
        rw [hD]
        have : 32 * uu K * S ≤ 4 * (1 / 2 ^ 20) * (1 / 2 ^ 30 * S) := by
          rw [← mul_assoc]
          exact mul_le_mul_of_nonneg_right (by unfold uu; norm_num) hS
        have := mul_le_mul_of_nonneg_left hsm.le (by norm_num : (0 : K) ≤ 4 * (1 / 2 ^ 20))
        linarith)).2
    rw [← hz] at q h3
    have hq : |z - w| ≤ 1 / 2 ^ 19 := q.trans (by unfold uu; norm_num)
    have small : ∀ y, |y - w| ≤ 1 / 2 ^ 19 → σ * (A + B * y + 2 * C * y ^ 2) ≤ σ * (A + B * t + 2 * C * t ^ 2) + 1 / 2 ^ 27 * S := by
      intro y hy
      refine cost y _ ?_
      rw [habs, ← sq_abs]
      calc 2 * |C| * |y - w| ^ 2 ≤ 2 * S * (1 / 2 ^ 19) ^ 2 :=
            mul_le_mul (by linarith) (pow_le_pow_left₀ (abs_nonneg _) hy 2) (by positivity) (by positivity)
        _ = 2 * (1 / 2 ^ 19) ^ 2 * S := by ring
        _ ≤ _ := mul_le_mul_of_nonneg_right (by norm_num) hS
    by_cases hin : inside z
    · exact hR _ _ (h3 hC0' hin) (small z hq)
    · have hqb := abs_le.1 hq
      rcases not_inside hin with h' | h'
      · have := small (-1) (abs_le.2 ⟨by linarith, by linarith⟩)
        refine hR _ _ h1 (le_trans (le_of_eq ?_) this)
        ring
      · have := small 1 (abs_le.2 ⟨by linarith, by linarith⟩)
        refine hR _ _ h2 (le_trans (le_of_eq ?_) this)
        ring

omit [FloorRing K] hfl in
/-- Half of the quadratic form of the second derivatives. -/
def form2 (c : Fin 6 → K) (h k : K) : K := 2 * c 3 * h ^ 2 + c 4 * h * k + 2 * c 5 * k ^ 2

omit [LinearOrder K] [IsStrictOrderedRing K] [FloorRing K] hfl in
theorem evalFunc2D_line (c : Fin 6 → K) (p d : Fin 2 → K) (τ : K) : evalFunc2D c (fun i => p i + τ * d i) =
    evalFunc2D c p + τ * ((c 1 + 4 * c 3 * p 0 + c 4 * p 1) * d 0 + (c 2 + c 4 * p 0 + 4 * c 5 * p 1) * d 1) + τ ^ 2 * form2 c (d 0) (d 1) := by
  simp only [evalFunc2D, form2]
  ring

omit [FloorRing K] hfl in
theorem form2_small {c : Fin 6 → K} {P δ h k : K} (hP : |c 3| + |c 5| ≤ P) (h4 : |c 4| ≤ 2 * P) (hh : |h| ≤ δ) (hk : |k| ≤ δ) :
    |form2 c h k| ≤ 4 * P * δ ^ 2 := by
  have hδ : 0 ≤ δ := (abs_nonneg _).trans hh
  have m1 := abs_add_le (2 * c 3 * h ^ 2 + c 4 * h * k) (2 * c 5 * k ^ 2)
  have m2 := abs_add_le (2 * c 3 * h ^ 2) (c 4 * h * k)
  have hP0 : 0 ≤ P := by linarith [abs_nonneg (c 3), abs_nonneg (c 5)]
  have r1 : |2 * c 3 * h ^ 2| ≤ 2 * |c 3| * δ ^ 2 := by
    rw [abs_mul, abs_mul, abs_two, abs_pow]
    exact mul_le_mul_of_nonneg_left (pow_le_pow_left₀ (abs_nonneg _) hh 2) (by positivity)
  have r2 : |2 * c 5 * k ^ 2| ≤ 2 * |c 5| * δ ^ 2 := by
    rw [abs_mul, abs_mul, abs_two, abs_pow]
    exact mul_le_mul_of_nonneg_left (pow_le_pow_left₀ (abs_nonneg _) hk 2) (by positivity)
  have r3 : |c 4 * h * k| ≤ 2 * P * δ ^ 2 := by
    rw [abs_mul, abs_mul, sq, ← mul_assoc]
    exact mul_le_mul (mul_le_mul h4 hh (abs_nonneg _) (by positivity)) hk (abs_nonneg _) (by positivity)
  have r4 := mul_le_mul_of_nonneg_right hP (sq_nonneg δ)
  unfold form2
  linarith

section Face

variable {R : K → Prop} (hR : ∀ v w, R v → v ≤ w → R w) {σ : K} (hσ : |σ| = 1) {c : Fin 6 → K} {e S : K}
  (hb : ∀ b, InCube b → (∃ i, b i = -1 ∨ b i = 1) → R (σ * evalFunc2D c b + e)) (hS : |c 3| + |c 5| ≤ S)

include hR hσ hb hS

omit [FloorRing K] hfl hσ hS in
/-- Sliding in the square. -/
theorem slide2 {p : Fin 2 → K} (hp : InCube p) (d : Fin 2 → K) (k : Fin 2) (hk : d k = 1) {q : K} (hQ : σ * form2 c (d 0) (d 1) ≤ q) (hq : 0 ≤ q) :
    R (σ * evalFunc2D c p + 4 * q + e) := by
  refine slideOut hR (F := fun x => σ * evalFunc2D c x) hb p d hp k hk
    (σ * ((c 1 + 4 * c 3 * p 0 + c 4 * p 1) * d 0 + (c 2 + c 4 * p 0 + 4 * c 5 * p 1) * d 1)) _ (fun τ => ?_) hQ hq
  simp only [evalFunc2D_line]
  ring

/-- The case of a definite form. -/
theorem face_definite {p : Fin 2 → K} (hp : InCube p) {N0 N1 D : K}
    (hcl : |c 4| ≤ 2 * (|c 3| + |c 5|) → |N0 - (c 2 * c 4 - 4 * c 1 * c 5)| ≤ 100 * uu K * S * (|c 3| + |c 5|) ∧
      |N1 - (c 1 * c 4 - 4 * c 2 * c 3)| ≤ 100 * uu K * S * (|c 3| + |c 5|) ∧
      |D - (16 * c 3 * c 5 - c 4 ^ 2)| ≤ 100 * uu K * S * (|c 3| + |c 5|))
    (hpt : D ≠ 0 → inside (fl (N0 / D)) → inside (fl (N1 / D)) → R (σ * evalFunc2D c ![fl (N0 / D), fl (N1 / D)]))
    (hφ : 1 / 2 ^ 22 * S < |c 3| + |c 5|) (s3 : 0 < σ * c 3) (s5 : 0 < σ * c 5)
    (hdet : 1 / 2 ^ 22 * (|c 3| + |c 5|) ^ 2 < 16 * c 3 * c 5 - c 4 ^ 2) (he : 0 ≤ e) : R (σ * evalFunc2D c p + 1 / 2 ^ 19 * S + e) := by
  obtain ⟨P, hP⟩ : ∃ P, P = |c 3| + |c 5| := ⟨_, rfl⟩
  rw [← hP] at hcl hφ hdet hS
  have n3 := abs_nonneg (c 3)
  have n5 := abs_nonneg (c 5)
  have hS0 : 0 ≤ S := by linarith
  have hP0 : 0 < P := lt_of_le_of_lt (by positivity) hφ
  have h35 : c 3 * c 5 ≤ P ^ 2 / 4 := by
    have := le_abs_self (c 3 * c 5)
    rw [abs_mul] at this
    rw [hP]
    nlinarith [sq_nonneg (|c 3| - |c 5|)]
  have h4 : |c 4| ≤ 2 * P := by
    apply abs_le_of_sq_le_sq _ (by linarith)
    have : 0 ≤ 1 / 2 ^ 22 * P ^ 2 := by positivity
    nlinarith
  obtain ⟨k0, k1, k2⟩ := hcl h4
  obtain ⟨E, hE⟩ : ∃ E, E = 16 * c 3 * c 5 - c 4 ^ 2 := ⟨_, rfl⟩
  rw [← hE] at hdet k2
  have hP2 : 0 < P ^ 2 := by positivity
  have hE0 : 0 < E := lt_trans (by positivity) hdet
  obtain ⟨w, hw⟩ : ∃ w : Fin 2 → K, w = ![(c 2 * c 4 - 4 * c 1 * c 5) / E, (c 1 * c 4 - 4 * c 2 * c 3) / E] := ⟨_, rfl⟩
  have w0 : c 2 * c 4 - 4 * c 1 * c 5 = w 0 * E := by rw [hw]; exact (div_mul_cancel₀ _ hE0.ne').symm
  have w1 : c 1 * c 4 - 4 * c 2 * c 3 = w 1 * E := by rw [hw]; exact (div_mul_cancel₀ _ hE0.ne').symm
  have g1 : c 1 + 4 * c 3 * w 0 + c 4 * w 1 = 0 := by
    have : (c 1 + 4 * c 3 * w 0 + c 4 * w 1) * E = 0 := by linear_combination -4 * c 3 * w0 - c 4 * w1 + c 1 * hE
    exact (mul_eq_zero.1 this).resolve_right hE0.ne'
  have g2 : c 2 + c 4 * w 0 + 4 * c 5 * w 1 = 0 := by
    have : (c 2 + c 4 * w 0 + 4 * c 5 * w 1) * E = 0 := by linear_combination -c 4 * w0 - 4 * c 5 * w1 + c 2 * hE
    exact (mul_eq_zero.1 this).resolve_right hE0.ne'
  have sh : ∀ h k, evalFunc2D c ![w 0 + h, w 1 + k] = evalFunc2D c w + form2 c h k := by
    intro h k
    have := evalFunc2D_shift c (w 0) (w 1) h k
    rw [g1, g2, ← vec2_eta w] at this
    rw [this]
    unfold form2
    ring
  have hpos : ∀ h k, 0 ≤ σ * form2 c h k := by
    intro h k
    have hs2 : σ * σ = 1 := by rw [← abs_mul_abs_self, hσ, one_mul]
    have e1 : 8 * (σ * c 3) * (σ * form2 c h k) = (4 * c 3 * h + c 4 * k) ^ 2 + E * k ^ 2 := by
      unfold form2
      linear_combination (8 * c 3 * (2 * c 3 * h ^ 2 + c 4 * h * k + 2 * c 5 * k ^ 2)) * hs2 - k ^ 2 * hE
    by_contra hc
    push Not at hc
    have := mul_neg_of_pos_of_neg (by linarith : 0 < 8 * (σ * c 3)) hc
    rw [e1] at this
    nlinarith [sq_nonneg (4 * c 3 * h + c 4 * k), mul_nonneg hE0.le (sq_nonneg k)]
  have hS19 : 0 ≤ 1 / 2 ^ 19 * S := by positivity
  have hpw : σ * evalFunc2D c w ≤ σ * evalFunc2D c p := by
    have := sh (p 0 - w 0) (p 1 - w 1)
    rw [add_sub_cancel, add_sub_cancel, ← vec2_eta p] at this
    rw [this]
    linarith [hpos (p 0 - w 0) (p 1 - w 1)]
  by_cases hin : InCube w
  · obtain ⟨r, hr⟩ : ∃ r, r = S / P := ⟨_, rfl⟩
    have hrP : r * P = S := by rw [hr]; field_simp
    have hr1 : 1 ≤ r := by rw [hr, le_div_iff₀ hP0]; linarith
    have hr2 : r ≤ 2 ^ 22 := by rw [hr, div_le_iff₀ hP0]; linarith
    have hu : uu K = 1 / 2 ^ 53 := rfl
    have hEa : |E| = E := abs_of_pos hE0
    have hSP : S * P = r * P ^ 2 := by rw [← hrP]; ring
    have ha : 2 * (100 * uu K * S * P) ≤ |E| := by
      rw [hEa, mul_assoc, hSP, hu]
      have : r * P ^ 2 ≤ 2 ^ 22 * P ^ 2 := mul_le_mul_of_nonneg_right hr2 hP2.le
      linarith
    have hc : 4 * (100 * uu K * S * P) ≤ 400 / 2 ^ 31 * r * |E| := by
      rw [hEa, mul_assoc (100 * uu K), hSP, hu]
      have := mul_le_mul_of_nonneg_left hdet.le (by positivity : 0 ≤ 400 / 2 ^ 31 * r)
      linarith
    have q0 := quot_err hfl (hin 0) w0 k0 k2 (by rw [hEa]; exact hE0) ha hc
    have q1 := quot_err hfl (hin 1) w1 k1 k2 (by rw [hEa]; exact hE0) ha hc
    have hD := q0.1
    obtain ⟨δ, hδ⟩ : ∃ δ, δ = 401 / 2 ^ 31 * r := ⟨_, rfl⟩
    have hδb : 400 / 2 ^ 31 * r * (1 + uu K) + uu K ≤ δ := by
      rw [hδ, hu]
      linarith
    have q0' := q0.2.trans hδb
    have q1' := q1.2.trans hδb
    have hδ0 : 0 ≤ δ := by rw [hδ]; positivity
    have cost : 4 * P * δ ^ 2 ≤ 1 / 2 ^ 19 * S := by
      have e1 : 4 * P * δ ^ 2 = 4 * (401 / 2 ^ 31) ^ 2 * (r * S) := by rw [hδ, ← hrP]; ring
      have e2 : r * S ≤ 2 ^ 22 * S := mul_le_mul_of_nonneg_right hr2 hS0
      rw [e1]
      linarith
    have near : ∀ h k, |h| ≤ δ → |k| ≤ δ → σ * evalFunc2D c ![w 0 + h, w 1 + k] ≤ σ * evalFunc2D c w + 1 / 2 ^ 19 * S := by
      intro h k hh hk
      rw [sh, mul_add]
      have := sign_mul_le hσ (form2_small hP.ge h4 hh hk)
      linarith
    have z0 : |(0 : K)| ≤ δ := by rwa [abs_zero]
    have fin0 : ∀ t, |t| ≤ δ → σ * evalFunc2D c (Function.update w 0 (w 0 + t)) ≤ σ * evalFunc2D c w + 1 / 2 ^ 19 * S := by
      intro t ht
      have : Function.update w 0 (w 0 + t) = ![w 0 + t, w 1 + 0] := by funext i; fin_cases i <;> simp
      rw [this]
      exact near t 0 ht z0
    have fin1 : ∀ t, |t| ≤ δ → σ * evalFunc2D c (Function.update w 1 (w 1 + t)) ≤ σ * evalFunc2D c w + 1 / 2 ^ 19 * S := by
      intro t ht
      have : Function.update w 1 (w 1 + t) = ![w 0 + 0, w 1 + t] := by funext i; fin_cases i <;> simp
      rw [this]
      exact near 0 t z0 ht
    have hz : ∀ i, |(![fl (N0 / D), fl (N1 / D)] : Fin 2 → K) i - w i| ≤ δ := by intro i; fin_cases i; exacts [q0', q1']
    by_cases i0 : inside (fl (N0 / D))
    · by_cases i1 : inside (fl (N1 / D))
      · refine hR _ _ (hpt hD i0 i1) ?_
        have := near _ _ q0' q1'
        rw [add_sub_cancel, add_sub_cancel] at this
        linarith
      · refine hR _ _ (clipOut hR (F := fun x => σ * evalFunc2D c x) hb w hin _ hz 1 (not_inside i1) fin1) (by linarith)
    · refine hR _ _ (clipOut hR (F := fun x => σ * evalFunc2D c x) hb w hin _ hz 0 (not_inside i0) fin0) (by linarith)
  · refine hR _ _ (towardOut hR (F := fun x => σ * evalFunc2D c x) hb p w hp hin (σ * form2 c (p 0 - w 0) (p 1 - w 1)) (fun τ => ?_) (hpos _ _))
      (by linarith)
    have e1 : (fun i => p i + τ * (w i - p i)) = ![w 0 + (1 - τ) * (p 0 - w 0), w 1 + (1 - τ) * (p 1 - w 1)] := by
      funext i
      fin_cases i
      · show p 0 + τ * (w 0 - p 0) = w 0 + (1 - τ) * (p 0 - w 0)
        ring
      · show p 1 + τ * (w 1 - p 1) = w 1 + (1 - τ) * (p 1 - w 1)
        ring
    show σ * evalFunc2D c (fun i => p i + τ * (w i - p i)) = σ * evalFunc2D c w + _
    rw [e1, sh]
    unfold form2
    ring

/-- A quadratic function on a face. -/
theorem face_reach {p : Fin 2 → K} (hp : InCube p) {N0 N1 D : K}
    (hcl : |c 4| ≤ 2 * (|c 3| + |c 5|) → |N0 - (c 2 * c 4 - 4 * c 1 * c 5)| ≤ 100 * uu K * S * (|c 3| + |c 5|) ∧
      |N1 - (c 1 * c 4 - 4 * c 2 * c 3)| ≤ 100 * uu K * S * (|c 3| + |c 5|) ∧
      |D - (16 * c 3 * c 5 - c 4 ^ 2)| ≤ 100 * uu K * S * (|c 3| + |c 5|))
    (hpt : D ≠ 0 → inside (fl (N0 / D)) → inside (fl (N1 / D)) → R (σ * evalFunc2D c ![fl (N0 / D), fl (N1 / D)]))
    (he : 0 ≤ e) : R (σ * evalFunc2D c p + 1 / 2 ^ 19 * S + e) := by
  have n3 := abs_nonneg (c 3)
  have n5 := abs_nonneg (c 5)
  have hS0 : 0 ≤ S := by linarith
  have hS19 : 0 ≤ 1 / 2 ^ 19 * S := by positivity
  have hs2 : σ * σ = 1 := by rw [← abs_mul_abs_self, hσ, one_mul]
  by_cases hφ : |c 3| + |c 5| ≤ 1 / 2 ^ 22 * S
  · refine hR _ _ (slide2 hR hb hp ![1, 0] 0 rfl (q := 2 / 2 ^ 22 * S) ?_ (by positivity)) (by linarith)
    have e1 : form2 c 1 0 = 2 * c 3 := by unfold form2; ring
    show σ * form2 c 1 0 ≤ _
    rw [e1]
    refine sign_mul_le hσ ?_
    rw [abs_mul, abs_two]
    linarith
  push Not at hφ
  by_cases s3 : σ * c 3 ≤ 0
  · refine hR _ _ (slide2 hR hb hp ![1, 0] 0 rfl (q := 0) ?_ le_rfl) (by linarith)
    have e1 : form2 c 1 0 = 2 * c 3 := by unfold form2; ring
    show σ * form2 c 1 0 ≤ _
    rw [e1]
    linarith
  by_cases s5 : σ * c 5 ≤ 0
  · refine hR _ _ (slide2 hR hb hp ![0, 1] 1 rfl (q := 0) ?_ le_rfl) (by linarith)
    have e1 : form2 c 0 1 = 2 * c 5 := by unfold form2; ring
    show σ * form2 c 0 1 ≤ _
    rw [e1]
    linarith
  push Not at s3 s5
  have a3 : |c 3| = σ * c 3 := by rw [← abs_of_pos s3, abs_mul, hσ, one_mul]
  have a5 : |c 5| = σ * c 5 := by rw [← abs_of_pos s5, abs_mul, hσ, one_mul]
  by_cases hdet : 16 * c 3 * c 5 - c 4 ^ 2 ≤ 1 / 2 ^ 22 * (|c 3| + |c 5|) ^ 2
  · have hq : 0 ≤ 1 / 2 ^ 24 * (|c 3| + |c 5|) := by positivity
    rcases le_total (|c 5|) (|c 3|) with h | h
    · refine hR _ _ (slide2 hR hb hp ![-c 4 / (4 * c 3), 1] 1 rfl (q := 1 / 2 ^ 24 * (|c 3| + |c 5|)) ?_ hq) (by linarith)
      have h0 : c 3 ≠ 0 := by intro h0; rw [h0] at s3; simp at s3
      have e1 : 8 * (σ * c 3) * (σ * form2 c (-c 4 / (4 * c 3)) 1) = 16 * c 3 * c 5 - c 4 ^ 2 := by
        have : σ * c 3 * (σ * form2 c (-c 4 / (4 * c 3)) 1) = c 3 * form2 c (-c 4 / (4 * c 3)) 1 := by linear_combination (c 3 * form2 c (-c 4 / (4 * c 3)) 1) * hs2
        rw [mul_assoc, this]
        unfold form2
        field_simp
        ring
      show σ * form2 c (-c 4 / (4 * c 3)) 1 ≤ _
      rw [← a3] at e1
      have hp3 : 0 < |c 3| := by rw [a3]; exact s3
      refine le_of_mul_le_mul_left ?_ (by linarith : 0 < 8 * |c 3|)
      rw [e1]
      refine hdet.trans ?_
      nlinarith
    · refine hR _ _ (slide2 hR hb hp ![1, -c 4 / (4 * c 5)] 0 rfl (q := 1 / 2 ^ 24 * (|c 3| + |c 5|)) ?_ hq) (by linarith)
      have h0 : c 5 ≠ 0 := by intro h0; rw [h0] at s5; simp at s5
      have e1 : 8 * (σ * c 5) * (σ * form2 c 1 (-c 4 / (4 * c 5))) = 16 * c 3 * c 5 - c 4 ^ 2 := by
        have : σ * c 5 * (σ * form2 c 1 (-c 4 / (4 * c 5))) = c 5 * form2 c 1 (-c 4 / (4 * c 5)) := by linear_combination (c 5 * form2 c 1 (-c 4 / (4 * c 5))) * hs2
        rw [mul_assoc, this]
        unfold form2
        field_simp
        ring
      show σ * form2 c 1 (-c 4 / (4 * c 5)) ≤ _
      rw [← a5] at e1
      have hp5 : 0 < |c 5| := by rw [a5]; exact s5
      refine le_of_mul_le_mul_left ?_ (by linarith : 0 < 8 * |c 5|)
      rw [e1]
      refine hdet.trans ?_
      nlinarith
  · push Not at hdet
    exact face_definite hfl hR hσ hb hS hp hcl hpt hφ s3 s5 hdet he

end Face

/-! ### The interior -/

omit [FloorRing K] hfl in
/-- Half of the quadratic form of the second derivatives. -/
def form3 (c : Fin 10 → K) (h k l : K) : K := 2 * c 7 * h ^ 2 + 2 * c 8 * k ^ 2 + 2 * c 9 * l ^ 2 + c 4 * h * k + c 5 * h * l + c 6 * k * l

omit [LinearOrder K] [IsStrictOrderedRing K] [FloorRing K] hfl in
theorem evalFunc3D_line (c : Fin 10 → K) (p d : Fin 3 → K) (τ : K) : evalFunc3D c (fun i => p i + τ * d i) =
    evalFunc3D c p + τ * ((c 1 + 4 * c 7 * p 0 + c 4 * p 1 + c 5 * p 2) * d 0 + (c 2 + c 4 * p 0 + 4 * c 8 * p 1 + c 6 * p 2) * d 1 +
      (c 3 + c 5 * p 0 + c 6 * p 1 + 4 * c 9 * p 2) * d 2) + τ ^ 2 * form3 c (d 0) (d 1) (d 2) := by
  simp only [evalFunc3D, form3]
  ring

omit [FloorRing K] hfl in
theorem form3_small {c : Fin 10 → K} {P δ h k l : K} (hP : |c 7| + |c 8| + |c 9| ≤ P) (h4 : |c 4| ≤ 2 * P) (h5 : |c 5| ≤ 2 * P) (h6 : |c 6| ≤ 2 * P)
    (hh : |h| ≤ δ) (hk : |k| ≤ δ) (hl : |l| ≤ δ) : |form3 c h k l| ≤ 8 * P * δ ^ 2 := by
  have hδ : 0 ≤ δ := (abs_nonneg _).trans hh
  have hP0 : 0 ≤ P := by linarith [abs_nonneg (c 7), abs_nonneg (c 8), abs_nonneg (c 9)]
  have sq : ∀ a x : K, |x| ≤ δ → |2 * a * x ^ 2| ≤ 2 * |a| * δ ^ 2 := by
    intro a x hx
    rw [abs_mul, abs_mul, abs_two, abs_pow]
    exact mul_le_mul_of_nonneg_left (pow_le_pow_left₀ (abs_nonneg _) hx 2) (by positivity)
  have mx : ∀ a x y : K, |a| ≤ 2 * P → |x| ≤ δ → |y| ≤ δ → |a * x * y| ≤ 2 * P * δ ^ 2 := by
    intro a x y ha hx hy
    rw [abs_mul, abs_mul, pow_two, ← mul_assoc]
    exact mul_le_mul (mul_le_mul ha hx (abs_nonneg _) (by positivity)) hy (abs_nonneg _) (by positivity)
  have m1 := abs_add_le (2 * c 7 * h ^ 2 + 2 * c 8 * k ^ 2 + 2 * c 9 * l ^ 2 + c 4 * h * k + c 5 * h * l) (c 6 * k * l)
  have m2 := abs_add_le (2 * c 7 * h ^ 2 + 2 * c 8 * k ^ 2 + 2 * c 9 * l ^ 2 + c 4 * h * k) (c 5 * h * l)
  have m3 := abs_add_le (2 * c 7 * h ^ 2 + 2 * c 8 * k ^ 2 + 2 * c 9 * l ^ 2) (c 4 * h * k)
  have m4 := abs_add_le (2 * c 7 * h ^ 2 + 2 * c 8 * k ^ 2) (2 * c 9 * l ^ 2)
  have m5 := abs_add_le (2 * c 7 * h ^ 2) (2 * c 8 * k ^ 2)
  have r7 := sq (c 7) h hh
  have r8 := sq (c 8) k hk
  have r9 := sq (c 9) l hl
  have r4 := mx (c 4) h k h4 hh hk
  have r5 := mx (c 5) h l h5 hh hl
  have r6 := mx (c 6) k l h6 hk hl
  have r := mul_le_mul_of_nonneg_right hP (sq_nonneg δ)
  unfold form3
  linarith

/-- The minors of the matrix of second derivatives. -/
def fixX (c : Fin 10 → K) : K := 16 * c 8 * c 9 - c 6 ^ 2

/-- The minors of the matrix of second derivatives. -/
def fixY (c : Fin 10 → K) : K := 16 * c 7 * c 9 - c 5 ^ 2

/-- The minors of the matrix of second derivatives. -/
def fixZ (c : Fin 10 → K) : K := 16 * c 7 * c 8 - c 4 ^ 2

/-- The minors of the matrix of second derivatives. -/
def min12 (c : Fin 10 → K) : K := 4 * c 9 * c 4 - c 5 * c 6

/-- The minors of the matrix of second derivatives. -/
def min13 (c : Fin 10 → K) : K := c 4 * c 6 - 4 * c 8 * c 5

/-- The minors of the matrix of second derivatives. -/
def min23 (c : Fin 10 → K) : K := 4 * c 7 * c 6 - c 4 * c 5

/-- The determinant of the matrix of second derivatives. -/
def detH (c : Fin 10 → K) : K := 4 * c 7 * fixX c - c 4 * min12 c + c 5 * min13 c

section Inside

variable {R : K → Prop} (hR : ∀ v w, R v → v ≤ w → R w) {σ : K} (hσ : |σ| = 1) {c : Fin 10 → K} {e S : K}
  (hb : ∀ b, InCube b → (∃ i, b i = -1 ∨ b i = 1) → R (σ * evalFunc3D c b + e)) (hS : |c 7| + |c 8| + |c 9| ≤ S)

include hR hσ hb hS

omit [FloorRing K] hfl hσ hS in
/-- Sliding in the cube. -/
theorem slide3 {p : Fin 3 → K} (hp : InCube p) (d : Fin 3 → K) (k : Fin 3) (hk : d k = 1) {q : K} (hQ : σ * form3 c (d 0) (d 1) (d 2) ≤ q) (hq : 0 ≤ q) :
    R (σ * evalFunc3D c p + 4 * q + e) := by
  refine slideOut hR (F := fun x => σ * evalFunc3D c x) hb p d hp k hk
    (σ * ((c 1 + 4 * c 7 * p 0 + c 4 * p 1 + c 5 * p 2) * d 0 + (c 2 + c 4 * p 0 + 4 * c 8 * p 1 + c 6 * p 2) * d 1 +
      (c 3 + c 5 * p 0 + c 6 * p 1 + 4 * c 9 * p 2) * d 2)) _ (fun τ => ?_) hQ hq
  simp only [evalFunc3D_line]
  ring

omit [FloorRing K] hfl hS in
theorem slideXY {p : Fin 3 → K} (hp : InCube p) (s : 0 < σ * c 7) {q : K} (hq : 0 ≤ q) (h : fixZ c ≤ 8 * |c 7| * q) :
    R (σ * evalFunc3D c p + 4 * q + e) := by
  refine slide3 hR hb hp ![-c 4 / (4 * c 7), 1, 0] 1 rfl (q := q) ?_ hq
  have hs2 : σ * σ = 1 := by rw [← abs_mul_abs_self, hσ, one_mul]
  have aa : |c 7| = σ * c 7 := by rw [← abs_of_pos s, abs_mul, hσ, one_mul]
  have h0 : c 7 ≠ 0 := by intro h0; rw [h0] at s; simp at s
  show σ * form3 c (-c 4 / (4 * c 7)) 1 0 ≤ q
  have e1 : 8 * (σ * c 7) * (σ * form3 c (-c 4 / (4 * c 7)) 1 0) = fixZ c := by
    have : σ * c 7 * (σ * form3 c (-c 4 / (4 * c 7)) 1 0) = c 7 * form3 c (-c 4 / (4 * c 7)) 1 0 := by
      linear_combination (c 7 * form3 c (-c 4 / (4 * c 7)) 1 0) * hs2
    rw [mul_assoc, this]
    unfold form3 fixZ
    field_simp
    ring
  rw [← aa] at e1
  have hp : 0 < |c 7| := by rw [aa]; exact s
  refine le_of_mul_le_mul_left ?_ (by linarith : 0 < 8 * |c 7|)
  rw [e1]
  exact h

omit [FloorRing K] hfl hS in
theorem slideYZ {p : Fin 3 → K} (hp : InCube p) (s : 0 < σ * c 8) {q : K} (hq : 0 ≤ q) (h : fixX c ≤ 8 * |c 8| * q) :
    R (σ * evalFunc3D c p + 4 * q + e) := by
  refine slide3 hR hb hp ![0, -c 6 / (4 * c 8), 1] 2 rfl (q := q) ?_ hq
  have hs2 : σ * σ = 1 := by rw [← abs_mul_abs_self, hσ, one_mul]
  have aa : |c 8| = σ * c 8 := by rw [← abs_of_pos s, abs_mul, hσ, one_mul]
  have h0 : c 8 ≠ 0 := by intro h0; rw [h0] at s; simp at s
  show σ * form3 c 0 (-c 6 / (4 * c 8)) 1 ≤ q
  have e1 : 8 * (σ * c 8) * (σ * form3 c 0 (-c 6 / (4 * c 8)) 1) = fixX c := by
    have : σ * c 8 * (σ * form3 c 0 (-c 6 / (4 * c 8)) 1) = c 8 * form3 c 0 (-c 6 / (4 * c 8)) 1 := by
      linear_combination (c 8 * form3 c 0 (-c 6 / (4 * c 8)) 1) * hs2
    rw [mul_assoc, this]
    unfold form3 fixX
    field_simp
    ring
  rw [← aa] at e1
  have hp : 0 < |c 8| := by rw [aa]; exact s
  refine le_of_mul_le_mul_left ?_ (by linarith : 0 < 8 * |c 8|)
  rw [e1]
  exact h

omit [FloorRing K] hfl hS in
theorem slideZX {p : Fin 3 → K} (hp : InCube p) (s : 0 < σ * c 9) {q : K} (hq : 0 ≤ q) (h : fixY c ≤ 8 * |c 9| * q) :
    R (σ * evalFunc3D c p + 4 * q + e) := by
  refine slide3 hR hb hp ![1, 0, -c 5 / (4 * c 9)] 0 rfl (q := q) ?_ hq
  have hs2 : σ * σ = 1 := by rw [← abs_mul_abs_self, hσ, one_mul]
  have aa : |c 9| = σ * c 9 := by rw [← abs_of_pos s, abs_mul, hσ, one_mul]
  have h0 : c 9 ≠ 0 := by intro h0; rw [h0] at s; simp at s
  show σ * form3 c 1 0 (-c 5 / (4 * c 9)) ≤ q
  have e1 : 8 * (σ * c 9) * (σ * form3 c 1 0 (-c 5 / (4 * c 9))) = fixY c := by
    have : σ * c 9 * (σ * form3 c 1 0 (-c 5 / (4 * c 9))) = c 9 * form3 c 1 0 (-c 5 / (4 * c 9)) := by
      linear_combination (c 9 * form3 c 1 0 (-c 5 / (4 * c 9))) * hs2
    rw [mul_assoc, this]
    unfold form3 fixY
    field_simp
    ring
  rw [← aa] at e1
  have hp : 0 < |c 9| := by rw [aa]; exact s
  refine le_of_mul_le_mul_left ?_ (by linarith : 0 < 8 * |c 9|)
  rw [e1]
  exact h

omit [FloorRing K] hfl hσ hS in
theorem slideDetX {p : Fin 3 → K} (hp : InCube p) (s : 0 < fixX c) {q : K} (hq : 0 ≤ q) (h : σ * detH c ≤ 2 * fixX c * q) :
    R (σ * evalFunc3D c p + 4 * q + e) := by
  refine slide3 hR hb hp ![1, -min12 c / fixX c, min13 c / fixX c] 0 rfl (q := q) ?_ hq
  show σ * form3 c 1 (-min12 c / fixX c) (min13 c / fixX c) ≤ q
  have e1 : 2 * fixX c * (σ * form3 c 1 (-min12 c / fixX c) (min13 c / fixX c)) = σ * detH c := by
    have e2 : 2 * fixX c * form3 c 1 (-min12 c / fixX c) (min13 c / fixX c) = detH c := by
      obtain ⟨f, hf⟩ : ∃ f, f = fixX c := ⟨_, rfl⟩
      rw [← hf] at s ⊢
      unfold form3
      field_simp
      rw [hf]
      unfold detH min12 min13 fixX
      ring
    rw [← e2]
    ring
  refine le_of_mul_le_mul_left ?_ (by linarith : 0 < 2 * fixX c)
  rw [e1]
  exact h

omit [FloorRing K] hfl hσ hS in
theorem slideDetY {p : Fin 3 → K} (hp : InCube p) (s : 0 < fixY c) {q : K} (hq : 0 ≤ q) (h : σ * detH c ≤ 2 * fixY c * q) :
    R (σ * evalFunc3D c p + 4 * q + e) := by
  refine slide3 hR hb hp ![-min12 c / fixY c, 1, -min23 c / fixY c] 1 rfl (q := q) ?_ hq
  show σ * form3 c (-min12 c / fixY c) 1 (-min23 c / fixY c) ≤ q
  have e1 : 2 * fixY c * (σ * form3 c (-min12 c / fixY c) 1 (-min23 c / fixY c)) = σ * detH c := by
    have e2 : 2 * fixY c * form3 c (-min12 c / fixY c) 1 (-min23 c / fixY c) = detH c := by
      obtain ⟨f, hf⟩ : ∃ f, f = fixY c := ⟨_, rfl⟩
      rw [← hf] at s ⊢
      unfold form3
      field_simp
      rw [hf]
      unfold detH min12 min13 min23 fixX fixY
      ring
    rw [← e2]
    ring
  refine le_of_mul_le_mul_left ?_ (by linarith : 0 < 2 * fixY c)
  rw [e1]
  exact h

omit [FloorRing K] hfl hσ hS in
theorem slideDetZ {p : Fin 3 → K} (hp : InCube p) (s : 0 < fixZ c) {q : K} (hq : 0 ≤ q) (h : σ * detH c ≤ 2 * fixZ c * q) :
    R (σ * evalFunc3D c p + 4 * q + e) := by
  refine slide3 hR hb hp ![min13 c / fixZ c, -min23 c / fixZ c, 1] 2 rfl (q := q) ?_ hq
  show σ * form3 c (min13 c / fixZ c) (-min23 c / fixZ c) 1 ≤ q
  have e1 : 2 * fixZ c * (σ * form3 c (min13 c / fixZ c) (-min23 c / fixZ c) 1) = σ * detH c := by
    have e2 : 2 * fixZ c * form3 c (min13 c / fixZ c) (-min23 c / fixZ c) 1 = detH c := by
      obtain ⟨f, hf⟩ : ∃ f, f = fixZ c := ⟨_, rfl⟩
      rw [← hf] at s ⊢
      unfold form3
      field_simp
      rw [hf]
      unfold detH min12 min13 min23 fixX fixZ
      ring
    rw [← e2]
    ring
  refine le_of_mul_le_mul_left ?_ (by linarith : 0 < 2 * fixZ c)
  rw [e1]
  exact h

omit [FloorRing K] hfl hσ hR hb hS in
/-- A form with positive leading minors is nonnegative. -/
theorem form3_nonneg (hs2 : σ * σ = 1) (s7 : 0 < σ * c 7) (fz : 0 < fixZ c) (hd : 0 ≤ σ * detH c) (h k l : K) : 0 ≤ σ * form3 c h k l := by
  have e1 : 8 * (σ * c 7) * fixZ c * (σ * form3 c h k l) =
      fixZ c * (4 * c 7 * h + c 4 * k + c 5 * l) ^ 2 + (fixZ c * k + min23 c * l) ^ 2 + 4 * ((σ * c 7) * (σ * detH c)) * l ^ 2 := by
    have a1 : 8 * (σ * c 7) * fixZ c * (σ * form3 c h k l) = 8 * c 7 * fixZ c * form3 c h k l := by
      linear_combination (8 * c 7 * fixZ c * form3 c h k l) * hs2
    have a2 : 4 * ((σ * c 7) * (σ * detH c)) * l ^ 2 = 4 * (c 7 * detH c) * l ^ 2 := by linear_combination (4 * c 7 * detH c * l ^ 2) * hs2
    rw [a1, a2]
    unfold form3 detH fixX fixZ min12 min13 min23
    ring
  by_contra hc
  push Not at hc
  have := mul_neg_of_pos_of_neg (by positivity : 0 < 8 * (σ * c 7) * fixZ c) hc
  rw [e1] at this
  have p1 := mul_nonneg fz.le (sq_nonneg (4 * c 7 * h + c 4 * k + c 5 * l))
  have p2 := sq_nonneg (fixZ c * k + min23 c * l)
  have p3 := mul_nonneg (mul_nonneg s7.le hd) (sq_nonneg l)
  linarith

/-- The case of a definite form. -/
theorem inside_definite {p : Fin 3 → K} (hp : InCube p) {N0 N1 N2 D : K}
    (hcl : ∀ P, P = |c 7| + |c 8| + |c 9| → |c 4| ≤ 2 * P → |c 5| ≤ 2 * P → |c 6| ≤ 2 * P → |c 1| ≤ 8 * P → |c 2| ≤ 8 * P → |c 3| ≤ 8 * P →
      |N0 - (c 1 * -fixX c + c 2 * min12 c + c 3 * -min13 c)| ≤ 4300 * uu K * P ^ 3 ∧
      |N1 - (c 1 * min12 c + c 2 * -fixY c + c 3 * min23 c)| ≤ 4300 * uu K * P ^ 3 ∧
      |N2 - (c 1 * -min13 c + c 2 * min23 c + c 3 * -fixZ c)| ≤ 4300 * uu K * P ^ 3 ∧ |D - detH c| ≤ 4300 * uu K * P ^ 3)
    (hpt : D ≠ 0 → inside (fl (N0 / D)) → inside (fl (N1 / D)) → inside (fl (N2 / D)) →
      R (σ * evalFunc3D c ![fl (N0 / D), fl (N1 / D), fl (N2 / D)]))
    (s7 : 0 < σ * c 7) (s8 : 0 < σ * c 8) (s9 : 0 < σ * c 9) (fx : 0 ≤ fixX c) (fy : 0 ≤ fixY c) (fz : 0 ≤ fixZ c)
    (hdet : 1 / 2 ^ 30 * (|c 7| + |c 8| + |c 9|) ^ 3 < σ * detH c) (he : 0 ≤ e) : R (σ * evalFunc3D c p + 1 / 2 ^ 14 * S + e) := by
  obtain ⟨P, hP⟩ : ∃ P, P = |c 7| + |c 8| + |c 9| := ⟨_, rfl⟩
  rw [← hP] at hdet hS
  have hs2 : σ * σ = 1 := by rw [← abs_mul_abs_self, hσ, one_mul]
  have a7 : |c 7| = σ * c 7 := by rw [← abs_of_pos s7, abs_mul, hσ, one_mul]
  have a8 : |c 8| = σ * c 8 := by rw [← abs_of_pos s8, abs_mul, hσ, one_mul]
  have a9 : |c 9| = σ * c 9 := by rw [← abs_of_pos s9, abs_mul, hσ, one_mul]
  have hP0 : 0 < P := by rw [hP, a7, a8, a9]; positivity
  have hS0 : 0 ≤ S := by linarith
  have hd0 : 0 < σ * detH c := lt_trans (by positivity) hdet
  have fz' : 0 < fixZ c := by
    have e1 : fixZ c * fixY c = min23 c ^ 2 + 4 * ((σ * c 7) * (σ * detH c)) := by
      have : (σ * c 7) * (σ * detH c) = c 7 * detH c := by linear_combination (c 7 * detH c) * hs2
      rw [this]
      unfold fixZ fixY min23 detH fixX min12 min13
      ring
    have e2 : 0 < fixZ c * fixY c := by
      rw [e1]
      have := mul_pos s7 hd0
      nlinarith [sq_nonneg (min23 c)]
    rcases fz.lt_or_eq with h | h
    · exact h
    · rw [← h, zero_mul] at e2
      exact absurd e2 (lt_irrefl _)
  have hpos := fun h k l => form3_nonneg (c := c) hs2 s7 fz' hd0.le h k l
  have two : ∀ a b d : K, 0 < σ * a → 0 < σ * b → σ * a + σ * b ≤ P → 0 ≤ 16 * a * b - d ^ 2 → |d| ≤ 2 * P := by
    intro a b d ha hb hab h
    apply abs_le_of_sq_le_sq _ (by linarith)
    have e1 : a * b = (σ * a) * (σ * b) := by linear_combination -(a * b) * hs2
    have e2 : (σ * a + σ * b) ^ 2 ≤ P ^ 2 := pow_le_pow_left₀ (by linarith) hab 2
    nlinarith [sq_nonneg (σ * a - σ * b)]
  have h4 : |c 4| ≤ 2 * P := two (c 7) (c 8) (c 4) s7 s8 (by rw [hP, a7, a8, a9]; linarith) fz
  have h5 : |c 5| ≤ 2 * P := two (c 7) (c 9) (c 5) s7 s9 (by rw [hP, a7, a8, a9]; linarith) fy
  have h6 : |c 6| ≤ 2 * P := two (c 8) (c 9) (c 6) s8 s9 (by rw [hP, a7, a8, a9]; linarith) fx
  obtain ⟨E, hE⟩ : ∃ E, E = detH c := ⟨_, rfl⟩
  have hE0 : E ≠ 0 := by rintro rfl; rw [← hE, mul_zero] at hd0; exact lt_irrefl _ hd0
  have hEa : |E| = σ * detH c := by rw [hE, ← abs_of_pos hd0, abs_mul, hσ, one_mul]
  obtain ⟨w, hw⟩ : ∃ w : Fin 3 → K, w = ![(c 1 * -fixX c + c 2 * min12 c + c 3 * -min13 c) / E, (c 1 * min12 c + c 2 * -fixY c + c 3 * min23 c) / E,
    (c 1 * -min13 c + c 2 * min23 c + c 3 * -fixZ c) / E] := ⟨_, rfl⟩
  have w0 : c 1 * -fixX c + c 2 * min12 c + c 3 * -min13 c = w 0 * E := by rw [hw]; exact (div_mul_cancel₀ _ hE0).symm
  have w1 : c 1 * min12 c + c 2 * -fixY c + c 3 * min23 c = w 1 * E := by rw [hw]; exact (div_mul_cancel₀ _ hE0).symm
  have w2 : c 1 * -min13 c + c 2 * min23 c + c 3 * -fixZ c = w 2 * E := by rw [hw]; exact (div_mul_cancel₀ _ hE0).symm
  have g1 : c 1 + 4 * c 7 * w 0 + c 4 * w 1 + c 5 * w 2 = 0 := by
    have : (c 1 + 4 * c 7 * w 0 + c 4 * w 1 + c 5 * w 2) * E = 0 := by
      have : (c 1 + 4 * c 7 * w 0 + c 4 * w 1 + c 5 * w 2) * E = c 1 * E + 4 * c 7 * (w 0 * E) + c 4 * (w 1 * E) + c 5 * (w 2 * E) := by ring
      rw [this, ← w0, ← w1, ← w2, hE]
      unfold detH fixX fixY fixZ min12 min13 min23
      ring
    exact (mul_eq_zero.1 this).resolve_right hE0
  have g2 : c 2 + c 4 * w 0 + 4 * c 8 * w 1 + c 6 * w 2 = 0 := by
    have : (c 2 + c 4 * w 0 + 4 * c 8 * w 1 + c 6 * w 2) * E = 0 := by
      have : (c 2 + c 4 * w 0 + 4 * c 8 * w 1 + c 6 * w 2) * E = c 2 * E + c 4 * (w 0 * E) + 4 * c 8 * (w 1 * E) + c 6 * (w 2 * E) := by ring
      rw [this, ← w0, ← w1, ← w2, hE]
      unfold detH fixX fixY fixZ min12 min13 min23
      ring
    exact (mul_eq_zero.1 this).resolve_right hE0
  have g3 : c 3 + c 5 * w 0 + c 6 * w 1 + 4 * c 9 * w 2 = 0 := by
    have : (c 3 + c 5 * w 0 + c 6 * w 1 + 4 * c 9 * w 2) * E = 0 := by
      have : (c 3 + c 5 * w 0 + c 6 * w 1 + 4 * c 9 * w 2) * E = c 3 * E + c 5 * (w 0 * E) + c 6 * (w 1 * E) + 4 * c 9 * (w 2 * E) := by ring
      rw [this, ← w0, ← w1, ← w2, hE]
      unfold detH fixX fixY fixZ min12 min13 min23
      ring
    exact (mul_eq_zero.1 this).resolve_right hE0
  have shv : ∀ d : Fin 3 → K, ∀ τ, evalFunc3D c (fun i => w i + τ * d i) = evalFunc3D c w + τ ^ 2 * form3 c (d 0) (d 1) (d 2) := by
    intro d τ
    rw [evalFunc3D_line, g1, g2, g3]
    ring
  have sh : ∀ h k l, evalFunc3D c ![w 0 + h, w 1 + k, w 2 + l] = evalFunc3D c w + form3 c h k l := by
    intro h k l
    have := shv ![h, k, l] 1
    rw [one_pow, one_mul] at this
    refine Eq.trans (congrArg _ ?_) this
    funext i
    fin_cases i <;> simp
  have hS14 : 0 ≤ 1 / 2 ^ 14 * S := by positivity
  have hpw : σ * evalFunc3D c w ≤ σ * evalFunc3D c p := by
    have := sh (p 0 - w 0) (p 1 - w 1) (p 2 - w 2)
    rw [add_sub_cancel, add_sub_cancel, add_sub_cancel, ← vec3_eta p] at this
    rw [this]
    linarith [hpos (p 0 - w 0) (p 1 - w 1) (p 2 - w 2)]
  by_cases hin : InCube w
  · have lin : ∀ a b d x : K, x + a * w 0 + b * w 1 + d * w 2 = 0 → |a| + |b| + |d| ≤ 8 * P → |x| ≤ 8 * P := by
      intro a b d x hx hs
      have e1 : x = -(a * w 0 + b * w 1 + d * w 2) := by linear_combination hx
      rw [e1, abs_neg]
      have t1 := abs_add_le (a * w 0 + b * w 1) (d * w 2)
      have t2 := abs_add_le (a * w 0) (b * w 1)
      simp only [abs_mul] at t1 t2
      have := mul_le_of_le_one_right (abs_nonneg a) (hin 0)
      have := mul_le_of_le_one_right (abs_nonneg b) (hin 1)
      have := mul_le_of_le_one_right (abs_nonneg d) (hin 2)
      linarith
    have four : ∀ x : K, |4 * x| = 4 * |x| := fun x => by rw [abs_mul, abs_of_pos (by norm_num : (0 : K) < 4)]
    have n7 := abs_nonneg (c 7)
    have n8 := abs_nonneg (c 8)
    have n9 := abs_nonneg (c 9)
    have l1 : |c 1| ≤ 8 * P := lin _ _ _ _ g1 (by rw [four]; linarith)
    have l2 : |c 2| ≤ 8 * P := lin _ _ _ _ g2 (by rw [four]; linarith)
    have l3 : |c 3| ≤ 8 * P := lin _ _ _ _ g3 (by rw [four]; linarith)
    obtain ⟨k0, k1, k2, k3⟩ := hcl P hP h4 h5 h6 l1 l2 l3
    rw [← hE] at k3
    have hu : uu K = 1 / 2 ^ 53 := rfl
    have hP3 : 0 < P ^ 3 := by positivity
    rw [← hEa] at hdet
    have ha : 2 * (4300 * uu K * P ^ 3) ≤ |E| := by rw [hu]; linarith
    have hc : 4 * (4300 * uu K * P ^ 3) ≤ 17200 / 2 ^ 23 * |E| := by rw [hu]; linarith
    have hEp : 0 < |E| := abs_pos.2 hE0
    have q0 := quot_err hfl (hin 0) w0 k0 k3 hEp ha hc
    have q1 := quot_err hfl (hin 1) w1 k1 k3 hEp ha hc
    have q2 := quot_err hfl (hin 2) w2 k2 k3 hEp ha hc
    have hD := q0.1
    obtain ⟨δ, hδ⟩ : ∃ δ : K, δ = 17201 / 2 ^ 23 := ⟨_, rfl⟩
    have hδb : 17200 / 2 ^ 23 * (1 + uu K) + uu K ≤ δ := by
      rw [hδ, hu]
      norm_num
    have q0' := q0.2.trans hδb
    have q1' := q1.2.trans hδb
    have q2' := q2.2.trans hδb
    have hδ0 : 0 ≤ δ := by rw [hδ]; positivity
    have cost : 8 * P * δ ^ 2 ≤ 1 / 2 ^ 14 * S := by
      have e1 : 8 * P * δ ^ 2 = 8 * (17201 / 2 ^ 23) ^ 2 * P := by rw [hδ]; ring
      rw [e1]
      exact mul_le_mul (by norm_num) hS hP0.le (by norm_num)
    have near : ∀ h k l, |h| ≤ δ → |k| ≤ δ → |l| ≤ δ → σ * evalFunc3D c ![w 0 + h, w 1 + k, w 2 + l] ≤ σ * evalFunc3D c w + 1 / 2 ^ 14 * S := by
      intro h k l hh hk hl
      rw [sh, mul_add]
      have := sign_mul_le hσ (form3_small hP.ge h4 h5 h6 hh hk hl)
      linarith
    have z0 : |(0 : K)| ≤ δ := by rwa [abs_zero]
    have fin0 : ∀ t, |t| ≤ δ → σ * evalFunc3D c (Function.update w 0 (w 0 + t)) ≤ σ * evalFunc3D c w + 1 / 2 ^ 14 * S := by
      intro t ht
      have : Function.update w 0 (w 0 + t) = ![w 0 + t, w 1 + 0, w 2 + 0] := by funext i; fin_cases i <;> simp
      rw [this]
      exact near t 0 0 ht z0 z0
    have fin1 : ∀ t, |t| ≤ δ → σ * evalFunc3D c (Function.update w 1 (w 1 + t)) ≤ σ * evalFunc3D c w + 1 / 2 ^ 14 * S := by
      intro t ht
      have : Function.update w 1 (w 1 + t) = ![w 0 + 0, w 1 + t, w 2 + 0] := by funext i; fin_cases i <;> simp
      rw [this]
      exact near 0 t 0 z0 ht z0
    have fin2 : ∀ t, |t| ≤ δ → σ * evalFunc3D c (Function.update w 2 (w 2 + t)) ≤ σ * evalFunc3D c w + 1 / 2 ^ 14 * S := by
      intro t ht
      have : Function.update w 2 (w 2 + t) = ![w 0 + 0, w 1 + 0, w 2 + t] := by funext i; fin_cases i <;> simp
      rw [this]
      exact near 0 0 t z0 z0 ht
    have hz : ∀ i, |(![fl (N0 / D), fl (N1 / D), fl (N2 / D)] : Fin 3 → K) i - w i| ≤ δ := by
      intro i
      fin_cases i
      exacts [q0', q1', q2']
    by_cases i0 : inside (fl (N0 / D))
    · by_cases i1 : inside (fl (N1 / D))
      · by_cases i2 : inside (fl (N2 / D))
        · refine hR _ _ (hpt hD i0 i1 i2) ?_
          have := near _ _ _ q0' q1' q2'
          rw [add_sub_cancel, add_sub_cancel, add_sub_cancel] at this
          linarith
        · refine hR _ _ (clipOut hR (F := fun x => σ * evalFunc3D c x) hb w hin _ hz 2 (not_inside i2) fin2) (by linarith)
      · refine hR _ _ (clipOut hR (F := fun x => σ * evalFunc3D c x) hb w hin _ hz 1 (not_inside i1) fin1) (by linarith)
    · refine hR _ _ (clipOut hR (F := fun x => σ * evalFunc3D c x) hb w hin _ hz 0 (not_inside i0) fin0) (by linarith)
  · refine hR _ _ (towardOut hR (F := fun x => σ * evalFunc3D c x) hb p w hp hin (σ * form3 c (p 0 - w 0) (p 1 - w 1) (p 2 - w 2)) (fun τ => ?_)
      (hpos _ _ _)) (by linarith)
    have e1 : (fun i => p i + τ * (w i - p i)) = fun i => w i + (1 - τ) * (p i - w i) := by
      funext i
      ring
    show σ * evalFunc3D c (fun i => p i + τ * (w i - p i)) = σ * evalFunc3D c w + _
    rw [e1, shv fun i => p i - w i]
    ring

/-- A quadratic function on the cube. -/
theorem inside_reach {p : Fin 3 → K} (hp : InCube p) {N0 N1 N2 D : K}
    (hcl : ∀ P, P = |c 7| + |c 8| + |c 9| → |c 4| ≤ 2 * P → |c 5| ≤ 2 * P → |c 6| ≤ 2 * P → |c 1| ≤ 8 * P → |c 2| ≤ 8 * P → |c 3| ≤ 8 * P →
      |N0 - (c 1 * -fixX c + c 2 * min12 c + c 3 * -min13 c)| ≤ 4300 * uu K * P ^ 3 ∧
      |N1 - (c 1 * min12 c + c 2 * -fixY c + c 3 * min23 c)| ≤ 4300 * uu K * P ^ 3 ∧
      |N2 - (c 1 * -min13 c + c 2 * min23 c + c 3 * -fixZ c)| ≤ 4300 * uu K * P ^ 3 ∧ |D - detH c| ≤ 4300 * uu K * P ^ 3)
    (hpt : D ≠ 0 → inside (fl (N0 / D)) → inside (fl (N1 / D)) → inside (fl (N2 / D)) →
      R (σ * evalFunc3D c ![fl (N0 / D), fl (N1 / D), fl (N2 / D)])) (he : 0 ≤ e) : R (σ * evalFunc3D c p + 1 / 2 ^ 14 * S + e) := by
  have n7 := abs_nonneg (c 7)
  have n8 := abs_nonneg (c 8)
  have n9 := abs_nonneg (c 9)
  have hS0 : 0 ≤ S := by linarith
  have hS14 : 0 ≤ 1 / 2 ^ 14 * S := by positivity
  by_cases s7 : σ * c 7 ≤ 0
  · refine hR _ _ (slide3 hR hb hp ![1, 0, 0] 0 rfl (q := 0) ?_ le_rfl) (by linarith)
    have e1 : form3 c 1 0 0 = 2 * c 7 := by unfold form3; ring
    show σ * form3 c 1 0 0 ≤ _
    rw [e1]
    linarith
  by_cases s8 : σ * c 8 ≤ 0
  · refine hR _ _ (slide3 hR hb hp ![0, 1, 0] 1 rfl (q := 0) ?_ le_rfl) (by linarith)
    have e1 : form3 c 0 1 0 = 2 * c 8 := by unfold form3; ring
    show σ * form3 c 0 1 0 ≤ _
    rw [e1]
    linarith
  by_cases s9 : σ * c 9 ≤ 0
  · refine hR _ _ (slide3 hR hb hp ![0, 0, 1] 2 rfl (q := 0) ?_ le_rfl) (by linarith)
    have e1 : form3 c 0 0 1 = 2 * c 9 := by unfold form3; ring
    show σ * form3 c 0 0 1 ≤ _
    rw [e1]
    linarith
  push Not at s7 s8 s9
  by_cases fx : fixX c < 0
  · exact hR _ _ (slideYZ hR hσ hb hp s8 le_rfl (by linarith)) (by linarith)
  by_cases fy : fixY c < 0
  · exact hR _ _ (slideZX hR hσ hb hp s9 le_rfl (by linarith)) (by linarith)
  by_cases fz : fixZ c < 0
  · exact hR _ _ (slideXY hR hσ hb hp s7 le_rfl (by linarith)) (by linarith)
  push Not at fx fy fz
  obtain ⟨P, hP⟩ : ∃ P, P = |c 7| + |c 8| + |c 9| := ⟨_, rfl⟩
  have hP0 : 0 ≤ P := by rw [hP]; positivity
  have hPS : P ≤ S := by rw [hP]; exact hS
  by_cases hd : σ * detH c ≤ 1 / 2 ^ 30 * P ^ 3
  · have hq1 : 0 ≤ 1 / 2 ^ 16 * P := by positivity
    have big : ∀ f, 1 / 2 ^ 15 * P ^ 2 < f → σ * detH c ≤ 2 * f * (1 / 2 ^ 16 * P) := by
      intro f hf
      have := mul_le_mul_of_nonneg_right hf.le hP0
      linarith [show (1 / 2 ^ 15 * P ^ 2 * P : K) = 1 / 2 ^ 15 * P ^ 3 by ring]
    have hpos2 : 0 ≤ 1 / 2 ^ 15 * P ^ 2 := by positivity
    by_cases b1 : 1 / 2 ^ 15 * P ^ 2 < fixX c
    · exact hR _ _ (slideDetX hR hb hp (by linarith) hq1 (big _ b1)) (by linarith)
    by_cases b2 : 1 / 2 ^ 15 * P ^ 2 < fixY c
    · exact hR _ _ (slideDetY hR hb hp (by linarith) hq1 (big _ b2)) (by linarith)
    by_cases b3 : 1 / 2 ^ 15 * P ^ 2 < fixZ c
    · exact hR _ _ (slideDetZ hR hb hp (by linarith) hq1 (big _ b3)) (by linarith)
    push Not at b1 b2 b3
    have small : ∀ f a, f ≤ 1 / 2 ^ 15 * P ^ 2 → P ≤ 3 * |a| → f ≤ 8 * |a| * (1 / 2 ^ 16 * P) := by
      intro f a hf ha
      have := mul_le_mul_of_nonneg_left ha hP0
      linarith [sq P]
    rcases le_total (|c 8|) (|c 7|) with h | h
    · rcases le_total (|c 9|) (|c 7|) with h' | h'
      · exact hR _ _ (slideXY hR hσ hb hp s7 hq1 (small _ _ b3 (by linarith))) (by linarith)
      · exact hR _ _ (slideZX hR hσ hb hp s9 hq1 (small _ _ b2 (by linarith))) (by linarith)
    · rcases le_total (|c 9|) (|c 8|) with h' | h'
      · exact hR _ _ (slideYZ hR hσ hb hp s8 hq1 (small _ _ b1 (by linarith))) (by linarith)
      · exact hR _ _ (slideZX hR hσ hb hp s9 hq1 (small _ _ b2 (by linarith))) (by linarith)
  · push Not at hd
    rw [hP] at hd
    exact inside_definite hfl hR hσ hb hS hp hcl hpt s7 s8 s9 fx fy fz hd he

end Inside

/-! ### The computed points -/

/-- Four times a floating-point number is exact. -/
theorem fourF_eq {a : K} (ha : IsFloat 53 a) : fourF fl a = 4 * a := by
  have h1 := ha.mul_zp 1
  have h2 := ha.mul_zp 2
  rw [zpow_one, mul_comm] at h1
  have e : (2 : K) ^ (2 : ℤ) = 4 := by norm_num
  rw [e, mul_comm] at h2
  unfold fourF
  rw [fl_eq hfl h1, ← mul_assoc]
  norm_num
  exact fl_eq hfl h2

theorem fl_four {a : K} (ha : IsFloat 53 a) : fl (4 * a) = 4 * a := by
  have h2 := ha.mul_zp 2
  have e : (2 : K) ^ (2 : ℤ) = 4 := by norm_num
  rw [e, mul_comm] at h2
  exact fl_eq hfl h2

/-- The linear coefficient on an edge. -/
theorem edge_close {a b d x y S : K} (hx : |x| ≤ 1) (hy : |y| ≤ 1) (hS : |a| + |b| + |d| ≤ S) :
    |fl (fl (fl (a * x) + b) + fl (d * y)) - (b + a * x + d * y)| ≤ 8 * uu K * S := by
  have a1 := (Appr.refl a).mul hfl le_rfl (by norm_num) le_rfl (by norm_num) (Appr.of_le hx)
  have a2 := (Appr.refl d).mul hfl le_rfl (by norm_num) le_rfl (by norm_num) (Appr.of_le hy)
  have a3 := a1.add hfl (by norm_num) (by norm_num) ((Appr.refl b).mono le_rfl (by norm_num) le_rfl)
  have a4 := (a3.add hfl (by norm_num) (by norm_num) (a2.mono (by norm_num) (by norm_num) le_rfl)).2
  rw [show b + a * x + d * y = a * x + b + d * y by ring]
  refine a4.trans ?_
  rw [mul_one, mul_one]
  have hu := uu_nonneg (K := K)
  have := mul_le_mul_of_nonneg_left hS hu
  have := mul_nonneg hu ((by positivity : 0 ≤ |a| + |b| + |d|).trans hS)
  linarith

/-- The same with the summands in the other order. -/
theorem edge_close' {a b d x y S : K} (hx : |x| ≤ 1) (hy : |y| ≤ 1) (hS : |a| + |b| + |d| ≤ S) :
    |fl (fl (b + fl (a * x)) + fl (d * y)) - (b + a * x + d * y)| ≤ 8 * uu K * S := by
  rw [add_comm b (fl (a * x))]
  exact edge_close hfl hx hy hS

/-- The computed quotient on a face. -/
theorem face_close {a b d g c3 c4 c5 x S : K} (hx : |x| ≤ 1) (h1 : |a| + |d| ≤ S) (h2 : |b| + |g| ≤ S) (hP : |c3| + |c5| ≤ S)
    (h4 : |c4| ≤ 2 * (|c3| + |c5|)) :
    |fl (fl (-(4 * c5) * fl (a + fl (d * x))) + fl (c4 * fl (b + fl (g * x)))) - ((b + g * x) * c4 - 4 * (a + d * x) * c5)| ≤
      100 * uu K * S * (|c3| + |c5|) ∧
    |fl (fl (c4 * fl (a + fl (d * x))) - fl (4 * c3 * fl (b + fl (g * x)))) - ((a + d * x) * c4 - 4 * (b + g * x) * c3)| ≤
      100 * uu K * S * (|c3| + |c5|) ∧
    |minorF fl (4 * c3) (4 * c5) c4 - (16 * c3 * c5 - c4 ^ 2)| ≤ 100 * uu K * S * (|c3| + |c5|) := by
  obtain ⟨P, hPe⟩ : ∃ P, P = |c3| + |c5| := ⟨_, rfl⟩
  rw [← hPe] at hP h4 ⊢
  have n3 := abs_nonneg c3
  have n5 := abs_nonneg c5
  have hP0 : 0 ≤ P := by rw [hPe]; positivity
  have hS0 : 0 ≤ S := hP0.trans hP
  have hu := uu_nonneg (K := K)
  have lin : ∀ a d : K, |a| + |d| ≤ S → Appr 5 S (fl (a + fl (d * x))) (a + d * x) := by
    intro a d h
    have a1 := (Appr.refl d).mul hfl le_rfl (by norm_num) le_rfl (by norm_num) (Appr.of_le hx)
    have a2 := ((Appr.refl a).mono le_rfl (by norm_num) le_rfl).add hfl (by norm_num) (by norm_num) a1
    exact a2.mono (by norm_num) (by norm_num) (by linarith)
  have f3 : Appr 0 (4 * P) (4 * c3) (4 * c3) := Appr.of_le (by rw [abs_mul, abs_of_pos (by norm_num : (0 : K) < 4)]; linarith)
  have f5 : Appr 0 (4 * P) (4 * c5) (4 * c5) := Appr.of_le (by rw [abs_mul, abs_of_pos (by norm_num : (0 : K) < 4)]; linarith)
  have f4 := Appr.of_le h4
  have l1 := lin a d h1
  have l2 := lin b g h2
  have hSP : 0 ≤ uu K * (S * P) := by positivity
  refine ⟨?_, ?_, ?_⟩
  · have m1 := f5.neg.mul hfl le_rfl (by norm_num) (by norm_num) (by norm_num) l1
    have m2 := f4.mul hfl le_rfl (by norm_num) (by norm_num) (by norm_num) l2
    have m3 := (m1.add hfl (by norm_num) (by norm_num) m2).2
    rw [show (b + g * x) * c4 - 4 * (a + d * x) * c5 = -(4 * c5) * (a + d * x) + c4 * (b + g * x) by ring]
    refine m3.trans ?_
    linarith
  · have m1 := f4.mul hfl le_rfl (by norm_num) (by norm_num) (by norm_num) l1
    have m2 := f3.mul hfl le_rfl (by norm_num) (by norm_num) (by norm_num) l2
    have m3 := (m1.sub hfl (by norm_num) (by norm_num) m2).2
    rw [show (a + d * x) * c4 - 4 * (b + g * x) * c3 = c4 * (a + d * x) - 4 * c3 * (b + g * x) by ring]
    refine m3.trans ?_
    linarith
  · have m1 := f3.mul hfl le_rfl (by norm_num) (by norm_num) (by norm_num) f5
    have m2 := f4.mul hfl le_rfl (by norm_num) (by norm_num) (by norm_num) f4
    have m3 := (m1.sub hfl (by norm_num) (by norm_num) m2).2
    unfold minorF
    rw [sq c4, show 16 * c3 * c5 - c4 * c4 = 4 * c3 * (4 * c5) - c4 * c4 by ring]
    refine m3.trans ?_
    have : uu K * (P * P) ≤ uu K * (S * P) := mul_le_mul_of_nonneg_left (mul_le_mul_of_nonneg_right hP hP0) hu
    linarith

/-- A rounded principal minor. -/
theorem minor_appr {a b d P : K} (ha : |a| ≤ P) (hb : |b| ≤ P) (hd : |d| ≤ 2 * P) :
    Appr 5 (20 * P ^ 2) (minorF fl (4 * a) (4 * b) d) (16 * a * b - d ^ 2) := by
  have f : ∀ a : K, |a| ≤ P → Appr 0 (4 * P) (4 * a) (4 * a) :=
    fun a h => Appr.of_le (by rw [abs_mul, abs_of_pos (by norm_num : (0 : K) < 4)]; linarith)
  have fd := Appr.of_le hd
  have m1 := (f a ha).mul hfl le_rfl (by norm_num) le_rfl (by norm_num) (f b hb)
  have m2 := fd.mul hfl le_rfl (by norm_num) le_rfl (by norm_num) fd
  have m3 := m1.sub hfl (by norm_num) (by norm_num) m2
  unfold minorF
  rw [sq d, show 16 * a * b - d * d = 4 * a * (4 * b) - d * d by ring]
  exact m3.mono (by norm_num) (by norm_num) (le_of_eq (by ring))

/-- A rounded minor off the diagonal. -/
theorem minor_appr' {a b d g P : K} (ha : |a| ≤ P) (hb : |b| ≤ 2 * P) (hd : |d| ≤ 2 * P) (hg : |g| ≤ 2 * P) :
    Appr 5 (12 * P ^ 2) (fl (fl (4 * a * b) - fl (d * g))) (4 * a * b - d * g) := by
  have fa : Appr 0 (4 * P) (4 * a) (4 * a) := Appr.of_le (by rw [abs_mul, abs_of_pos (by norm_num : (0 : K) < 4)]; linarith)
  have m1 := fa.mul hfl le_rfl (by norm_num) le_rfl (by norm_num) (Appr.of_le hb)
  have m2 := (Appr.of_le hd).mul hfl le_rfl (by norm_num) le_rfl (by norm_num) (Appr.of_le hg)
  have m3 := m1.sub hfl (by norm_num) (by norm_num) m2
  exact m3.mono (by norm_num) (by norm_num) (le_of_eq (by ring))

/-- The same with the products exchanged. -/
theorem minor_appr'' {a b d g P : K} (ha : |a| ≤ P) (hb : |b| ≤ 2 * P) (hd : |d| ≤ 2 * P) (hg : |g| ≤ 2 * P) :
    Appr 5 (12 * P ^ 2) (fl (fl (d * g) - fl (4 * a * b))) (d * g - 4 * a * b) := by
  have fa : Appr 0 (4 * P) (4 * a) (4 * a) := Appr.of_le (by rw [abs_mul, abs_of_pos (by norm_num : (0 : K) < 4)]; linarith)
  have m1 := fa.mul hfl le_rfl (by norm_num) le_rfl (by norm_num) (Appr.of_le hb)
  have m2 := (Appr.of_le hd).mul hfl le_rfl (by norm_num) le_rfl (by norm_num) (Appr.of_le hg)
  have m3 := m2.sub hfl (by norm_num) (by norm_num) m1
  exact m3.mono (by norm_num) (by norm_num) (le_of_eq (by ring))

/-- A rounded numerator. -/
theorem row_close {c1 c2 c3 x1 x2 x3 m1 m2 m3 P b1 b2 b3 : K} (h1 : |c1| ≤ 8 * P) (h2 : |c2| ≤ 8 * P) (h3 : |c3| ≤ 8 * P)
    (a1 : Appr 5 (b1 * P ^ 2) x1 m1) (a2 : Appr 5 (b2 * P ^ 2) x2 m2) (a3 : Appr 5 (b3 * P ^ 2) x3 m3) (hP : 0 ≤ P) (hb : b1 + b2 + b3 ≤ 44) :
    |fl (fl (fl (c1 * x1) + fl (c2 * x2)) + fl (c3 * x3)) - (c1 * m1 + c2 * m2 + c3 * m3)| ≤ 4300 * uu K * P ^ 3 := by
  have t1 := (Appr.of_le h1).mul hfl le_rfl (by norm_num) (by norm_num) (by norm_num) a1
  have t2 := (Appr.of_le h2).mul hfl le_rfl (by norm_num) (by norm_num) (by norm_num) a2
  have t3 := (Appr.of_le h3).mul hfl le_rfl (by norm_num) (by norm_num) (by norm_num) a3
  have t4 := t1.add hfl (by norm_num) (by norm_num) t2
  have t5 := (t4.add hfl (by norm_num) (by norm_num) (t3.mono (by norm_num) (by norm_num) le_rfl)).2
  refine t5.trans ?_
  have hu := uu_nonneg (K := K)
  have h0 : 0 ≤ uu K * P ^ 3 := by positivity
  have := mul_le_mul_of_nonneg_right hb h0
  linarith

/-- The rounded determinant. -/
theorem det3_close {c : Fin 10 → K} (hc : ∀ i, IsFloat 53 (c i)) {P : K} (hP : P = |c 7| + |c 8| + |c 9|) (h4 : |c 4| ≤ 2 * P) (h5 : |c 5| ≤ 2 * P)
    (h6 : |c 6| ≤ 2 * P) : |det3DF fl c - detH c| ≤ 4300 * uu K * P ^ 3 := by
  have n7 := abs_nonneg (c 7)
  have n8 := abs_nonneg (c 8)
  have n9 := abs_nonneg (c 9)
  have p7 : |c 7| ≤ P := by linarith
  have p8 : |c 8| ≤ P := by linarith
  have p9 : |c 9| ≤ P := by linarith
  have fx := minor_appr hfl p8 p9 h6
  have m12 := minor_appr' hfl p9 h4 h5 h6
  have m13 := minor_appr'' hfl p8 h5 h4 h6
  have f7 : Appr 0 (4 * P) (4 * c 7) (4 * c 7) := Appr.of_le (by rw [abs_mul, abs_of_pos (by norm_num : (0 : K) < 4)]; linarith)
  have t1 := f7.mul hfl le_rfl (by norm_num) (by norm_num) (by norm_num) fx
  have t2 := (Appr.of_le h4).mul hfl le_rfl (by norm_num) (by norm_num) (by norm_num) m12
  have t3 := (Appr.of_le h5).mul hfl le_rfl (by norm_num) (by norm_num) (by norm_num) m13
  have t4 := t1.sub hfl (by norm_num) (by norm_num) t2
  have t5 := (t4.add hfl (by norm_num) (by norm_num) (t3.mono (by norm_num) (by norm_num) le_rfl)).2
  unfold det3DF detH fixX min12 min13
  simp only [fourF_eq hfl (hc 8), fourF_eq hfl (hc 9), fl_four hfl (hc 7)]
  refine t5.trans ?_
  have hu := uu_nonneg (K := K)
  have h0 : 0 ≤ uu K * P ^ 3 := by rw [hP]; positivity
  linarith

/-! ### Every point of the cube -/

omit [IsStrictOrderedRing K] [FloorRing K] hfl in
/-- One of the points of evaluation has a value (times `σ`) of at most `v`. -/
def Reach3 (fl : K → K) (c : Fin 10 → K) (σ v : K) : Prop := ∃ p ∈ points3DF fl c, σ * evalFunc3D c p ≤ v

omit [IsStrictOrderedRing K] [FloorRing K] hfl in
theorem Reach3.mono {c : Fin 10 → K} {σ : K} (v w : K) (h : Reach3 fl c σ v) (hw : v ≤ w) : Reach3 fl c σ w := by
  obtain ⟨p, h1, h2⟩ := h
  exact ⟨p, h1, h2.trans hw⟩

omit [IsStrictOrderedRing K] [FloorRing K] hfl in
theorem reach3_corner (c : Fin 10 → K) (σ : K) {x y z : K} (hx : x = -1 ∨ x = 1) (hy : y = -1 ∨ y = 1) (hz : z = -1 ∨ z = 1) :
    Reach3 fl c σ (σ * evalFunc3D c ![x, y, z]) := by
  refine ⟨_, ?_, le_rfl⟩
  unfold points3DF corners3D
  rcases hx with rfl | rfl <;> rcases hy with rfl | rfl <;> rcases hz with rfl | rfl <;> simp

section All

variable {c : Fin 10 → K} (hc : ∀ i, IsFloat 53 (c i)) {σ : K} (hσ : |σ| = 1) {S : K} (hS : ∑ i, |c i| ≤ S)

include hc hσ hS

/-- The edges along the z axis. -/
theorem reach3_edgeZ {x y z : K} (hx : x = -1 ∨ x = 1) (hy : y = -1 ∨ y = 1) (hz : |z| ≤ 1) :
    Reach3 fl c σ (σ * evalFunc3D c ![x, y, z] + 1 / 2 ^ 27 * S) := by
  have n : ∀ i, 0 ≤ |c i| := fun i => abs_nonneg _
  rw [sum_ten] at hS
  have one : ∀ s : K, s = -1 ∨ s = 1 → |s| ≤ 1 := by rintro s (rfl | rfl) <;> simp
  have e : ∀ t, evalFunc3D c ![x, y, t] = (c 0 - c 7 - c 8 - c 9 + (c 1 + 2 * c 7 * x + c 4 * y) * x + (c 2 + 2 * c 8 * y) * y) + (c 3 + c 5 * x + c 6 * y) * t + 2 * c 9 * t ^ 2 := by
    intro t
    rw [evalFunc3D_vec]
    ring
  rw [e]
  have c1 := reach3_corner (fl := fl) c σ hx hy (Or.inl rfl)
  have c2 := reach3_corner (fl := fl) c σ hx hy (Or.inr rfl)
  rw [e] at c1 c2
  refine edge_reach hfl (Reach3.mono) hσ (by linarith [n 0, n 1, n 2, n 3, n 4, n 5, n 6, n 7, n 8, n 9])
    (B' := fl (fl (fl (c 5 * x) + c 3) + fl (c 6 * y))) (edge_close hfl (one _ hx) (one _ hy) (by linarith [n 0, n 1, n 2, n 3, n 4, n 5, n 6, n 7, n 8, n 9]))
    (by refine Reach3.mono _ _ c1 (le_of_eq ?_); ring) (by refine Reach3.mono _ _ c2 (le_of_eq ?_); ring) (fun h0 hin => ?_) hz
  rw [← e]
  refine ⟨_, ?_, le_rfl⟩
  unfold points3DF edges3DF
  simp only [List.mem_append]
  refine Or.inl (Or.inl (Or.inr (Or.inl (Or.inl ?_))))
  rw [if_pos h0, List.mem_flatMap]
  refine ⟨x, by rcases hx with rfl | rfl <;> simp, ?_⟩
  rw [List.mem_flatMap]
  refine ⟨y, by rcases hy with rfl | rfl <;> simp, ?_⟩
  rw [fourF_eq hfl (hc 9), if_pos hin]
  exact List.mem_singleton.2 rfl

/-- The edges along the y axis. -/
theorem reach3_edgeY {x y z : K} (hx : x = -1 ∨ x = 1) (hz : z = -1 ∨ z = 1) (hy : |y| ≤ 1) :
    Reach3 fl c σ (σ * evalFunc3D c ![x, y, z] + 1 / 2 ^ 27 * S) := by
  have n : ∀ i, 0 ≤ |c i| := fun i => abs_nonneg _
  rw [sum_ten] at hS
  have one : ∀ s : K, s = -1 ∨ s = 1 → |s| ≤ 1 := by rintro s (rfl | rfl) <;> simp
  have e : ∀ t, evalFunc3D c ![x, t, z] = (c 0 - c 7 - c 8 - c 9 + (c 1 + 2 * c 7 * x + c 5 * z) * x + (c 3 + 2 * c 9 * z) * z) + (c 2 + c 4 * x + c 6 * z) * t + 2 * c 8 * t ^ 2 := by
    intro t
    rw [evalFunc3D_vec]
    ring
  rw [e]
  have c1 := reach3_corner (fl := fl) c σ hx (Or.inl rfl) hz
  have c2 := reach3_corner (fl := fl) c σ hx (Or.inr rfl) hz
  rw [e] at c1 c2
  refine edge_reach hfl (Reach3.mono) hσ (by linarith [n 0, n 1, n 2, n 3, n 4, n 5, n 6, n 7, n 8, n 9])
    (B' := fl (fl (c 2 + fl (c 4 * x)) + fl (c 6 * z))) (edge_close' hfl (one _ hx) (one _ hz) (by linarith [n 0, n 1, n 2, n 3, n 4, n 5, n 6, n 7, n 8, n 9]))
    (by refine Reach3.mono _ _ c1 (le_of_eq ?_); ring) (by refine Reach3.mono _ _ c2 (le_of_eq ?_); ring) (fun h0 hin => ?_) hy
  rw [← e]
  refine ⟨_, ?_, le_rfl⟩
  unfold points3DF edges3DF
  simp only [List.mem_append]
  refine Or.inl (Or.inl (Or.inr (Or.inl (Or.inr ?_))))
  rw [if_pos h0, List.mem_flatMap]
  refine ⟨x, by rcases hx with rfl | rfl <;> simp, ?_⟩
  rw [List.mem_flatMap]
  refine ⟨z, by rcases hz with rfl | rfl <;> simp, ?_⟩
  rw [fourF_eq hfl (hc 8), if_pos hin]
  exact List.mem_singleton.2 rfl

/-- The edges along the x axis. -/
theorem reach3_edgeX {x y z : K} (hy : y = -1 ∨ y = 1) (hz : z = -1 ∨ z = 1) (hx : |x| ≤ 1) :
    Reach3 fl c σ (σ * evalFunc3D c ![x, y, z] + 1 / 2 ^ 27 * S) := by
  have n : ∀ i, 0 ≤ |c i| := fun i => abs_nonneg _
  rw [sum_ten] at hS
  have one : ∀ s : K, s = -1 ∨ s = 1 → |s| ≤ 1 := by rintro s (rfl | rfl) <;> simp
  have e : ∀ t, evalFunc3D c ![t, y, z] = (c 0 - c 7 - c 8 - c 9 + (c 2 + 2 * c 8 * y + c 6 * z) * y + (c 3 + 2 * c 9 * z) * z) + (c 1 + c 4 * y + c 5 * z) * t + 2 * c 7 * t ^ 2 := by
    intro t
    rw [evalFunc3D_vec]
    ring
  rw [e]
  have c1 := reach3_corner (fl := fl) c σ (Or.inl rfl) hy hz
  have c2 := reach3_corner (fl := fl) c σ (Or.inr rfl) hy hz
  rw [e] at c1 c2
  refine edge_reach hfl (Reach3.mono) hσ (by linarith [n 0, n 1, n 2, n 3, n 4, n 5, n 6, n 7, n 8, n 9])
    (B' := fl (fl (c 1 + fl (c 4 * y)) + fl (c 5 * z))) (edge_close' hfl (one _ hy) (one _ hz) (by linarith [n 0, n 1, n 2, n 3, n 4, n 5, n 6, n 7, n 8, n 9]))
    (by refine Reach3.mono _ _ c1 (le_of_eq ?_); ring) (by refine Reach3.mono _ _ c2 (le_of_eq ?_); ring) (fun h0 hin => ?_) hx
  rw [← e]
  refine ⟨_, ?_, le_rfl⟩
  unfold points3DF edges3DF
  simp only [List.mem_append]
  refine Or.inl (Or.inl (Or.inr (Or.inr ?_)))
  rw [if_pos h0, List.mem_flatMap]
  refine ⟨y, by rcases hy with rfl | rfl <;> simp, ?_⟩
  rw [List.mem_flatMap]
  refine ⟨z, by rcases hz with rfl | rfl <;> simp, ?_⟩
  rw [fourF_eq hfl (hc 7), if_pos hin]
  exact List.mem_singleton.2 rfl

/-- The faces with x constant. -/
theorem reach3_faceX {x y z : K} (hx : x = -1 ∨ x = 1) (hy : |y| ≤ 1) (hz : |z| ≤ 1) :
    Reach3 fl c σ (σ * evalFunc3D c ![x, y, z] + 1 / 2 ^ 19 * S + 1 / 2 ^ 27 * S) := by
  have n : ∀ i, 0 ≤ |c i| := fun i => abs_nonneg _
  have hS' := hS
  rw [sum_ten] at hS'
  have hS0 : 0 ≤ S := by linarith [n 0, n 1, n 2, n 3, n 4, n 5, n 6, n 7, n 8, n 9]
  have one : |x| ≤ 1 := by rcases hx with rfl | rfl <;> simp
  obtain ⟨g, hg⟩ : ∃ g : Fin 6 → K, g = ![c 0 + c 1 * x + c 7 * (2 * x ^ 2 - 1), c 2 + c 4 * x, c 3 + c 5 * x, c 8, c 6, c 9] := ⟨_, rfl⟩
  have g1 : g 1 = c 2 + c 4 * x := by rw [hg]; rfl
  have g2 : g 2 = c 3 + c 5 * x := by rw [hg]; rfl
  have g3 : g 3 = c 8 := by rw [hg]; rfl
  have g4 : g 4 = c 6 := by rw [hg]; rfl
  have g5 : g 5 = c 9 := by rw [hg]; rfl
  have e : ∀ s t, evalFunc3D c ![x, s, t] = evalFunc2D g ![s, t] := by
    intro s t
    have g0 : g 0 = c 0 + c 1 * x + c 7 * (2 * x ^ 2 - 1) := by rw [hg]; rfl
    rw [evalFunc3D_vec, evalFunc2D_vec, g0, g1, g2, g3, g4, g5]
    ring
  have hin : InCube ![y, z] := by intro i; fin_cases i; exacts [hy, hz]
  rw [e]
  refine face_reach hfl (Reach3.mono) hσ (fun b hb hex => ?_) (by rw [g3, g5]; linarith [n 0, n 1, n 2, n 3, n 4, n 5, n 6, n 7, n 8, n 9]) hin
    (N0 := fl (fl (-(4 * c 9) * fl (c 2 + fl (c 4 * x))) + fl (c 6 * fl (c 3 + fl (c 5 * x)))))
    (N1 := fl (fl (c 6 * fl (c 2 + fl (c 4 * x))) - fl (4 * c 8 * fl (c 3 + fl (c 5 * x)))))
    (D := minorF fl (4 * c 8) (4 * c 9) (c 6)) (fun h4 => ?_) (fun h0 h1 h2 => ?_) (by positivity)
  · rw [vec2_eta b, ← e]
    obtain ⟨i, hi⟩ := hex
    fin_cases i
    · exact reach3_edgeZ hfl hc hσ hS hx hi (hb 1)
    · exact reach3_edgeY hfl hc hσ hS hx hi (hb 0)
  · rw [g1, g2, g3, g4, g5]
    rw [g3, g4, g5] at h4
    exact face_close hfl one (by linarith [n 0, n 1, n 2, n 3, n 4, n 5, n 6, n 7, n 8, n 9])
      (by linarith [n 0, n 1, n 2, n 3, n 4, n 5, n 6, n 7, n 8, n 9]) (by linarith [n 0, n 1, n 2, n 3, n 4, n 5, n 6, n 7, n 8, n 9]) h4
  · rw [← e]
    refine ⟨_, ?_, le_rfl⟩
    unfold points3DF faces3DF
    simp only [List.mem_append]
    refine Or.inl (Or.inr (Or.inl (Or.inl ?_)))
    simp only [fourF_eq hfl (hc 8), fourF_eq hfl (hc 9)]
    rw [if_pos h0, List.mem_flatMap]
    refine ⟨x, by rcases hx with rfl | rfl <;> simp, ?_⟩
    rw [if_pos ⟨h1, h2⟩]
    exact List.mem_singleton.2 rfl

/-- The faces with y constant. -/
theorem reach3_faceY {x y z : K} (hy : y = -1 ∨ y = 1) (hx : |x| ≤ 1) (hz : |z| ≤ 1) :
    Reach3 fl c σ (σ * evalFunc3D c ![x, y, z] + 1 / 2 ^ 19 * S + 1 / 2 ^ 27 * S) := by
  have n : ∀ i, 0 ≤ |c i| := fun i => abs_nonneg _
  have hS' := hS
  rw [sum_ten] at hS'
  have hS0 : 0 ≤ S := by linarith [n 0, n 1, n 2, n 3, n 4, n 5, n 6, n 7, n 8, n 9]
  have one : |y| ≤ 1 := by rcases hy with rfl | rfl <;> simp
  obtain ⟨g, hg⟩ : ∃ g : Fin 6 → K, g = ![c 0 + c 2 * y + c 8 * (2 * y ^ 2 - 1), c 1 + c 4 * y, c 3 + c 6 * y, c 7, c 5, c 9] := ⟨_, rfl⟩
  have g1 : g 1 = c 1 + c 4 * y := by rw [hg]; rfl
  have g2 : g 2 = c 3 + c 6 * y := by rw [hg]; rfl
  have g3 : g 3 = c 7 := by rw [hg]; rfl
  have g4 : g 4 = c 5 := by rw [hg]; rfl
  have g5 : g 5 = c 9 := by rw [hg]; rfl
  have e : ∀ s t, evalFunc3D c ![s, y, t] = evalFunc2D g ![s, t] := by
    intro s t
    have g0 : g 0 = c 0 + c 2 * y + c 8 * (2 * y ^ 2 - 1) := by rw [hg]; rfl
    rw [evalFunc3D_vec, evalFunc2D_vec, g0, g1, g2, g3, g4, g5]
    ring
  have hin : InCube ![x, z] := by intro i; fin_cases i; exacts [hx, hz]
  rw [e]
  refine face_reach hfl (Reach3.mono) hσ (fun b hb hex => ?_) (by rw [g3, g5]; linarith [n 0, n 1, n 2, n 3, n 4, n 5, n 6, n 7, n 8, n 9]) hin
    (N0 := fl (fl (-(4 * c 9) * fl (c 1 + fl (c 4 * y))) + fl (c 5 * fl (c 3 + fl (c 6 * y)))))
    (N1 := fl (fl (c 5 * fl (c 1 + fl (c 4 * y))) - fl (4 * c 7 * fl (c 3 + fl (c 6 * y)))))
    (D := minorF fl (4 * c 7) (4 * c 9) (c 5)) (fun h4 => ?_) (fun h0 h1 h2 => ?_) (by positivity)
  · rw [vec2_eta b, ← e]
    obtain ⟨i, hi⟩ := hex
    fin_cases i
    · exact reach3_edgeZ hfl hc hσ hS hi hy (hb 1)
    · exact reach3_edgeX hfl hc hσ hS hy hi (hb 0)
  · rw [g1, g2, g3, g4, g5]
    rw [g3, g4, g5] at h4
    exact face_close hfl one (by linarith [n 0, n 1, n 2, n 3, n 4, n 5, n 6, n 7, n 8, n 9])
      (by linarith [n 0, n 1, n 2, n 3, n 4, n 5, n 6, n 7, n 8, n 9]) (by linarith [n 0, n 1, n 2, n 3, n 4, n 5, n 6, n 7, n 8, n 9]) h4
  · rw [← e]
    refine ⟨_, ?_, le_rfl⟩
    unfold points3DF faces3DF
    simp only [List.mem_append]
    refine Or.inl (Or.inr (Or.inl (Or.inr ?_)))
    simp only [fourF_eq hfl (hc 7), fourF_eq hfl (hc 9)]
    rw [if_pos h0, List.mem_flatMap]
    refine ⟨y, by rcases hy with rfl | rfl <;> simp, ?_⟩
    rw [if_pos ⟨h1, h2⟩]
    exact List.mem_singleton.2 rfl

/-- The faces with z constant. -/
theorem reach3_faceZ {x y z : K} (hz : z = -1 ∨ z = 1) (hx : |x| ≤ 1) (hy : |y| ≤ 1) :
    Reach3 fl c σ (σ * evalFunc3D c ![x, y, z] + 1 / 2 ^ 19 * S + 1 / 2 ^ 27 * S) := by
  have n : ∀ i, 0 ≤ |c i| := fun i => abs_nonneg _
  have hS' := hS
  rw [sum_ten] at hS'
  have hS0 : 0 ≤ S := by linarith [n 0, n 1, n 2, n 3, n 4, n 5, n 6, n 7, n 8, n 9]
  have one : |z| ≤ 1 := by rcases hz with rfl | rfl <;> simp
  obtain ⟨g, hg⟩ : ∃ g : Fin 6 → K, g = ![c 0 + c 3 * z + c 9 * (2 * z ^ 2 - 1), c 1 + c 5 * z, c 2 + c 6 * z, c 7, c 4, c 8] := ⟨_, rfl⟩
  have g1 : g 1 = c 1 + c 5 * z := by rw [hg]; rfl
  have g2 : g 2 = c 2 + c 6 * z := by rw [hg]; rfl
  have g3 : g 3 = c 7 := by rw [hg]; rfl
  have g4 : g 4 = c 4 := by rw [hg]; rfl
  have g5 : g 5 = c 8 := by rw [hg]; rfl
  have e : ∀ s t, evalFunc3D c ![s, t, z] = evalFunc2D g ![s, t] := by
    intro s t
    have g0 : g 0 = c 0 + c 3 * z + c 9 * (2 * z ^ 2 - 1) := by rw [hg]; rfl
    rw [evalFunc3D_vec, evalFunc2D_vec, g0, g1, g2, g3, g4, g5]
    ring
  have hin : InCube ![x, y] := by intro i; fin_cases i; exacts [hx, hy]
  rw [e]
  refine face_reach hfl (Reach3.mono) hσ (fun b hb hex => ?_) (by rw [g3, g5]; linarith [n 0, n 1, n 2, n 3, n 4, n 5, n 6, n 7, n 8, n 9]) hin
    (N0 := fl (fl (-(4 * c 8) * fl (c 1 + fl (c 5 * z))) + fl (c 4 * fl (c 2 + fl (c 6 * z)))))
    (N1 := fl (fl (c 4 * fl (c 1 + fl (c 5 * z))) - fl (4 * c 7 * fl (c 2 + fl (c 6 * z)))))
    (D := minorF fl (4 * c 7) (4 * c 8) (c 4)) (fun h4 => ?_) (fun h0 h1 h2 => ?_) (by positivity)
  · rw [vec2_eta b, ← e]
    obtain ⟨i, hi⟩ := hex
    fin_cases i
    · exact reach3_edgeY hfl hc hσ hS hi hz (hb 1)
    · exact reach3_edgeX hfl hc hσ hS hi hz (hb 0)
  · rw [g1, g2, g3, g4, g5]
    rw [g3, g4, g5] at h4
    exact face_close hfl one (by linarith [n 0, n 1, n 2, n 3, n 4, n 5, n 6, n 7, n 8, n 9])
      (by linarith [n 0, n 1, n 2, n 3, n 4, n 5, n 6, n 7, n 8, n 9]) (by linarith [n 0, n 1, n 2, n 3, n 4, n 5, n 6, n 7, n 8, n 9]) h4
  · rw [← e]
    refine ⟨_, ?_, le_rfl⟩
    unfold points3DF faces3DF
    simp only [List.mem_append]
    refine Or.inl (Or.inr (Or.inr ?_))
    simp only [fourF_eq hfl (hc 7), fourF_eq hfl (hc 8)]
    rw [if_pos h0, List.mem_flatMap]
    refine ⟨z, by rcases hz with rfl | rfl <;> simp, ?_⟩
    rw [if_pos ⟨h1, h2⟩]
    exact List.mem_singleton.2 rfl

/-- Every point of the cube: some point of evaluation has nearly as small a value. -/
theorem reach3_all {p : Fin 3 → K} (hp : InCube p) :
    Reach3 fl c σ (σ * evalFunc3D c p + 1 / 2 ^ 14 * S + (1 / 2 ^ 19 * S + 1 / 2 ^ 27 * S)) := by
  have n : ∀ i, 0 ≤ |c i| := fun i => abs_nonneg _
  have hS' := hS
  rw [sum_ten] at hS'
  have hS0 : 0 ≤ S := by linarith [n 0, n 1, n 2, n 3, n 4, n 5, n 6, n 7, n 8, n 9]
  have k8 := fourF_eq hfl (hc 8)
  have k9 := fourF_eq hfl (hc 9)
  have k7 := fourF_eq hfl (hc 7)
  obtain ⟨X, hX⟩ : ∃ X, X = minorF fl (4 * c 8) (4 * c 9) (c 6) := ⟨_, rfl⟩
  obtain ⟨Y, hY⟩ : ∃ Y, Y = minorF fl (4 * c 7) (4 * c 9) (c 5) := ⟨_, rfl⟩
  obtain ⟨Z, hZ⟩ : ∃ Z, Z = minorF fl (4 * c 7) (4 * c 8) (c 4) := ⟨_, rfl⟩
  obtain ⟨U, hU⟩ : ∃ U, U = fl (fl (4 * c 9 * c 4) - fl (c 5 * c 6)) := ⟨_, rfl⟩
  obtain ⟨V, hV⟩ : ∃ V, V = fl (fl (c 4 * c 6) - fl (4 * c 8 * c 5)) := ⟨_, rfl⟩
  obtain ⟨W, hW⟩ : ∃ W, W = fl (fl (4 * c 7 * c 6) - fl (c 4 * c 5)) := ⟨_, rfl⟩
  refine inside_reach hfl (Reach3.mono) hσ (fun b hb hex => ?_) (by linarith [n 0, n 1, n 2, n 3, n 4, n 5, n 6]) hp
    (N0 := fl (fl (fl (c 1 * -X) + fl (c 2 * U)) + fl (c 3 * -V)))
    (N1 := fl (fl (fl (c 1 * U) + fl (c 2 * -Y)) + fl (c 3 * W)))
    (N2 := fl (fl (fl (c 1 * -V) + fl (c 2 * W)) + fl (c 3 * -Z)))
    (D := det3DF fl c) (fun P hP h4 h5 h6 h1 h2 h3 => ?_) (fun h0 h1 h2 h3 => ?_) (by positivity)
  · obtain ⟨i, hi⟩ := hex
    rw [vec3_eta b, ← add_assoc]
    fin_cases i
    · exact reach3_faceX hfl hc hσ hS hi (hb 1) (hb 2)
    · exact reach3_faceY hfl hc hσ hS hi (hb 0) (hb 2)
    · exact reach3_faceZ hfl hc hσ hS hi (hb 0) (hb 1)
  · have n7 := n 7
    have n8 := n 8
    have n9 := n 9
    have p7 : |c 7| ≤ P := by linarith
    have p8 : |c 8| ≤ P := by linarith
    have p9 : |c 9| ≤ P := by linarith
    have hP0 : 0 ≤ P := by linarith
    have aX : Appr 5 (20 * P ^ 2) X (fixX c) := by rw [hX]; exact minor_appr hfl p8 p9 h6
    have aY : Appr 5 (20 * P ^ 2) Y (fixY c) := by rw [hY]; exact minor_appr hfl p7 p9 h5
    have aZ : Appr 5 (20 * P ^ 2) Z (fixZ c) := by rw [hZ]; exact minor_appr hfl p7 p8 h4
    have aU : Appr 5 (12 * P ^ 2) U (min12 c) := by rw [hU]; exact minor_appr' hfl p9 h4 h5 h6
    have aV : Appr 5 (12 * P ^ 2) V (min13 c) := by rw [hV]; exact minor_appr'' hfl p8 h5 h4 h6
    have aW : Appr 5 (12 * P ^ 2) W (min23 c) := by rw [hW]; exact minor_appr' hfl p7 h6 h4 h5
    exact ⟨row_close hfl h1 h2 h3 aX.neg aU aV.neg hP0 (by norm_num), row_close hfl h1 h2 h3 aU aY.neg aW hP0 (by norm_num),
      row_close hfl h1 h2 h3 aV.neg aW aZ.neg hP0 (by norm_num), det3_close hfl hc hP h4 h5 h6⟩
  · refine ⟨_, ?_, le_rfl⟩
    unfold points3DF interior3DF row3DF
    simp only [List.mem_append]
    refine Or.inr ?_
    simp only [k7, k8, k9, ← hX, ← hY, ← hZ, ← hU, ← hV, ← hW]
    rw [if_pos h0, if_pos ⟨h1, h2, h3⟩]
    exact List.mem_singleton.2 rfl

end All

end R

end YRoots
