import Verif.Proofs.FloatTransformExact
import Mathlib.Algebra.Order.Chebyshev

/-!
# Helper lemmas: columns that follow the recurrence up to small errors
-/

set_option linter.unusedSectionVars false

namespace YRoots

open Finset

/-- The squares of the coefficients of a Chebyshev series of `R` terms and its values in the extreme points. -/
theorem sum_sq_coef_le (R : ℕ) (hR : 0 < R) (a : ℕ → ℝ) :
    (∑ i ∈ range R, a i ^ 2) * R ≤ 2 * ∑ k ∈ range (R + 1), wt R k * (colEval R a (chebPt R k)) ^ 2 := by
  have hR0 : (0 : ℝ) < R := by positivity
  have hid : ∑ k ∈ range (R + 1), wt R k * (colEval R a (chebPt R k)) ^ 2 = ∑ i ∈ range R, a i ^ 2 * (R / (2 * wt R i)) := by
    have e : ∀ k ∈ range (R + 1), wt R k * (colEval R a (chebPt R k)) ^ 2 =
        ∑ i ∈ range R, ∑ j ∈ range R, a i * a j * (wt R k * (Real.cos (k * (i * Real.pi / R)) * Real.cos (k * (j * Real.pi / R)))) := by
      intro k _
      unfold colEval
      rw [sq, sum_mul_sum, mul_sum]
      refine sum_congr rfl fun i _ => ?_
      rw [mul_sum]
      refine sum_congr rfl fun j _ => ?_
      rw [chebT_chebPt, chebT_chebPt]
      have e1 : (j : ℝ) * (k * Real.pi / R) = k * (j * Real.pi / R) := by ring
      have e2 : (i : ℝ) * (k * Real.pi / R) = k * (i * Real.pi / R) := by ring
      rw [e1, e2]
      ring
    rw [sum_congr rfl e, sum_comm]
    refine sum_congr rfl fun i hi => ?_
    rw [sum_comm, sum_eq_single i]
    · rw [← mul_sum, trap_cos_mul R hR i i (mem_range.1 hi).le (mem_range.1 hi).le, if_pos rfl, sq]
    · intro j hj hji
      rw [← mul_sum, trap_cos_mul R hR i j (mem_range.1 hi).le (mem_range.1 hj).le, if_neg (Ne.symm hji), mul_zero]
    · intro hni
      exact absurd hi hni
  rw [hid, sum_mul, mul_sum]
  refine sum_le_sum fun i hi => ?_
  have hw := wt_pos R i
  have hw1 : wt R i ≤ 1 := by
    unfold wt
    rw [if_neg (by have := mem_range.1 hi; omega : i ≠ R)]
    split <;> norm_num
  have h1 : (R : ℝ) / 2 ≤ R / (2 * wt R i) := div_le_div_of_nonneg_left hR0.le (by linarith) (by linarith)
  have := mul_le_mul_of_nonneg_left h1 (sq_nonneg (a i))
  linarith

theorem sum_wt (R : ℕ) (hR : 0 < R) : ∑ k ∈ range (R + 1), wt R k = R := by
  have := trap_cos R hR 0
  simpa using this

/-- A Chebyshev series of `R` terms that is at most `B` on `[-1, 1]` has coefficients of sum at most `√(2 R) B`. -/
theorem sum_coef_le (R : ℕ) (a : ℕ → ℝ) (B : ℝ) (h : ∀ x : ℝ, |x| ≤ 1 → |colEval R a x| ≤ B) : ∑ i ∈ range R, |a i| ≤ √(2 * R) * B := by
  have hB : 0 ≤ B := (abs_nonneg _).trans (h 0 (by simp))
  rcases Nat.eq_zero_or_pos R with rfl | hR
  · simp
  have hR0 : (0 : ℝ) < R := by positivity
  have hpt : ∀ k, |chebPt R k| ≤ 1 := fun k => Real.abs_cos_le_one _
  have h2 : ∑ i ∈ range R, a i ^ 2 ≤ 2 * B ^ 2 := by
    have h1 : ∑ k ∈ range (R + 1), wt R k * (colEval R a (chebPt R k)) ^ 2 ≤ R * B ^ 2 := by
      calc _ ≤ ∑ k ∈ range (R + 1), wt R k * B ^ 2 := by
            refine sum_le_sum fun k _ => mul_le_mul_of_nonneg_left ?_ (wt_pos R k).le
            rw [← sq_abs]
            exact pow_le_pow_left₀ (abs_nonneg _) (h _ (hpt k)) 2
        _ = R * B ^ 2 := by rw [← sum_mul, sum_wt R hR]
    have h3 : (∑ i ∈ range R, a i ^ 2) * R ≤ 2 * B ^ 2 * R := by linarith [sum_sq_coef_le R hR a]
    exact le_of_mul_le_mul_right h3 hR0
  have h3 : (∑ i ∈ range R, |a i|) ^ 2 ≤ R * ∑ i ∈ range R, |a i| ^ 2 := by
    have := sq_sum_le_card_mul_sum_sq (s := range R) (f := fun i => |a i|)
    rwa [card_range] at this
  simp only [sq_abs] at h3
  have h4 : (∑ i ∈ range R, |a i|) ^ 2 ≤ (√(2 * R) * B) ^ 2 := by
    rw [mul_pow, Real.sq_sqrt (by positivity)]
    have := mul_le_mul_of_nonneg_left h2 hR0.le
    linarith
  exact (pow_le_pow_iff_left₀ (sum_nonneg fun _ _ => abs_nonneg _) (by positivity) two_ne_zero).1 h4

/-- The recurrence of the columns. -/
noncomputable def rec3 (α β : ℝ) (b1 b2 : ℕ → ℝ) (i : ℕ) : ℝ := -b1 i + α * mulX b2 i + 2 * β * b2 i

section Seq

variable {α β : ℝ} (hαβ : |α| + |β| ≤ 1)

include hαβ

theorem abs_affine_le {x : ℝ} (hx : |x| ≤ 1) : |α * x + β| ≤ 1 := by
  refine (abs_add_le _ _).trans (le_trans ?_ hαβ)
  rw [abs_mul]
  have := mul_le_of_le_one_right (abs_nonneg α) hx
  linarith

/-- Columns with local errors of sum at most `t` stay close to the Chebyshev polynomials. -/
theorem seq_close (R : ℕ) (b : ℕ → ℕ → ℝ) (hb0 : b 0 = Function.update (fun _ => 0) 0 1)
    (hb1 : b 1 = Function.update (Function.update (fun _ => 0) 0 β) 1 α) {t : ℝ} (m : ℕ) (hmR : m + 2 ≤ R)
    (hz : ∀ c ≤ m + 1, ∀ i, c < i → b c i = 0) (ht : ∀ c < m, ∑ i ∈ range R, |b (c + 2) i - rec3 α β (b c) (b (c + 1)) i| ≤ t)
    {x : ℝ} (hx : |x| ≤ 1) :
    ∀ k, |chebU k (α * x + β) * (chebT (m + 1) (α * x + β) - colEval R (b (m + 1)) x)
      - chebU' k (α * x + β) * (chebT m (α * x + β) - colEval R (b m) x)| ≤ errB t m k := by
  induction m with
  | zero =>
    intro k
    have e1 : colEval R (b 0) x = 1 := by rw [hb0]; exact tInit_colEval1 (V := ℝ) (fun _ => 0) α β R (by omega) x
    have e2 : colEval R (b (0 + 1)) x = α * x + β := by rw [zero_add, hb1]; exact tInit_colEval2 (V := ℝ) (fun _ => 0) α β R (by omega) x
    rw [e1, e2]
    simp [errB]
  | succ m ih =>
    have i1 := ih (by omega) (fun c hc => hz c (by omega)) (fun c hc => ht c (by omega))
    obtain ⟨R', hR'⟩ : ∃ R', R = R' + 2 := ⟨R - 2, by omega⟩
    refine err_step (d := colEval R (rec3 α β (b m) (b (m + 1))) x - colEval R (b (m + 2)) x) (abs_affine_le hαβ hx) i1 ?_ ?_
    · unfold rec3
      rw [colEval_lin (r := 0), hR', colEval_mulX _ x R' (fun i hi => hz (m + 1) (by omega) i (by omega)), chebT_add_two]
      ring
    · unfold colEval
      rw [← sum_sub_distrib]
      calc _ ≤ ∑ i ∈ range R, |rec3 α β (b m) (b (m + 1)) i * chebT i x - b (m + 2) i * chebT i x| := abs_sum_le_sum_abs _ _
        _ ≤ ∑ i ∈ range R, |b (m + 2) i - rec3 α β (b m) (b (m + 1)) i| := by
            refine sum_le_sum fun i _ => ?_
            rw [← sub_mul, abs_mul, abs_sub_comm]
            exact mul_le_of_le_one_right (abs_nonneg _) (abs_chebT_le_one i hx)
        _ ≤ t := ht m (by omega)

end Seq

/-- Columns of values `a` and error terms `e`, and output rows `o`, as the two functions with `exact=True` compute them when no row is dropped. -/
structure ESeq {ι : Type*} (fl : ℝ → ℝ) (coeffs : ℕ → ι → ℝ) (α β : ℝ) (m : ℕ) (a e : ℕ → ℕ → ℝ) (o : ℕ → ℕ → ι → ℝ) : Prop where
  a0 : a 0 = Function.update (fun _ => 0) 0 1
  a1 : a 1 = Function.update (Function.update (fun _ => 0) 0 β) 1 α
  e0 : e 0 = fun _ => 0
  e1 : e 1 = fun _ => 0
  za : ∀ c ≤ m + 1, ∀ i, c < i → a c i = 0
  ze : ∀ c ≤ m + 1, ∀ i, c < i → e c i = 0
  step : ∀ c < m, ∀ i, SpotOK α β (a c) (a (c + 1)) (e c) (e (c + 1)) i (a (c + 2) i, e (c + 2) i)
  o0 : ∀ i k, Near (1 / 2 ^ 53) 2 (o 0 i k) (coeffs 0 k * a 0 i + coeffs 1 k * a 1 i) (|coeffs 0 k| * |a 0 i| + |coeffs 1 k| * |a 1 i|)
  ostep : ∀ c < m, ∀ i k, o (c + 1) i k = fl (o c i k + fl (coeffs (c + 2) k * fl (a (c + 2) i + e (c + 2) i)))

section Cols

variable {ι : Type*} {fl : ℝ → ℝ} {coeffs : ℕ → ι → ℝ} {α β : ℝ} {m : ℕ} {a e : ℕ → ℕ → ℝ} {o : ℕ → ℕ → ι → ℝ}

theorem sum_maj' (hαβ : |α| + |β| ≤ 1) (b1 b2 : ℕ → ℝ) {R : ℕ} (hR : 2 ≤ R) (h2 : ∀ i, R - 1 ≤ i → b2 i = 0) :
    ∑ i ∈ range R, maj α β b1 b2 i ≤ ∑ i ∈ range R, |b1 i| + 2 * ∑ i ∈ range R, |b2 i| := by
  obtain ⟨R', rfl⟩ : ∃ R', R = R' + 2 := ⟨R - 2, by omega⟩
  exact sum_maj α β hαβ b1 b2 R' (fun i hi => h2 i (by omega))

theorem half_mono {t : ℝ} (ht : 0 ≤ t) {j m : ℕ} (h : j ≤ m) : t * ((j : ℝ) * (j + 1) / 2) ≤ t * ((m : ℝ) * (m + 1) / 2) := by
  have hj' : (j : ℝ) ≤ m := by exact_mod_cast h
  have hj0 : (0 : ℝ) ≤ j := Nat.cast_nonneg j
  apply mul_le_mul_of_nonneg_left _ ht
  nlinarith

theorem colEval_add (R : ℕ) (b c : ℕ → ℝ) (x : ℝ) : colEval R (fun i => b i + c i) x = colEval R b x + colEval R c x := by
  unfold colEval
  rw [← sum_add_distrib]
  exact sum_congr rfl fun i _ => by ring

variable (h : ESeq fl coeffs α β m a e o) (hαβ : |α| + |β| ≤ 1)

include h hαβ

/-- The values alone: close to the Chebyshev polynomials up to an error of order `u`. -/
theorem ESeq.values {ta : ℝ} (hta : ta = 6 * (6 * (1 / 2 ^ 53)) * √(2 * ((m + 2 : ℕ) : ℝ))) (h1 : ta * ((m : ℝ) * (m + 1) / 2) ≤ 1) :
    (∀ c ≤ m + 1, ∑ i ∈ range (m + 2), |a c i| ≤ 2 * √(2 * ((m + 2 : ℕ) : ℝ))) ∧
      ∀ c ≤ m + 1, ∀ x : ℝ, |x| ≤ 1 → |chebT c (α * x + β) - colEval (m + 2) (a c) x| ≤ ta * ((m : ℝ) * (m + 1) / 2) := by
  obtain ⟨P, hP⟩ : ∃ P, P = √(2 * ((m + 2 : ℕ) : ℝ)) := ⟨_, rfl⟩
  rw [← hP] at hta ⊢
  have hP1 : 1 ≤ P := by
    rw [hP]
    apply Real.one_le_sqrt.2
    push_cast
    have : (0 : ℝ) ≤ m := Nat.cast_nonneg m
    linarith
  have ht0 : 0 ≤ ta := by rw [hta]; positivity
  have hM0 : 0 ≤ ta * ((m : ℝ) * (m + 1) / 2) := by positivity
  have hloc : ∀ c < m, ∑ i ∈ range (m + 2), |a c i| ≤ 2 * P → ∑ i ∈ range (m + 2), |a (c + 1) i| ≤ 2 * P →
      ∑ i ∈ range (m + 2), |a (c + 2) i - rec3 α β (a c) (a (c + 1)) i| ≤ ta := by
    intro c hc k1 k2
    calc _ ≤ ∑ i ∈ range (m + 2), 6 * (1 / 2 ^ 53) * maj α β (a c) (a (c + 1)) i := by
          refine sum_le_sum fun i _ => ?_
          obtain ⟨-, s, s1, s2, -⟩ := h.step c hc i
          simp only at s1
          have : a (c + 2) i - rec3 α β (a c) (a (c + 1)) i = -s := by unfold rec3; linarith
          rw [this, abs_neg]
          exact s2
      _ ≤ 6 * (1 / 2 ^ 53) * (2 * P + 2 * (2 * P)) := by
          rw [← mul_sum]
          apply mul_le_mul_of_nonneg_left _ (by norm_num)
          have := sum_maj' hαβ (a c) (a (c + 1)) (R := m + 2) (by omega) (fun i hi => h.za (c + 1) (by omega) i (by omega))
          linarith
      _ = ta := by rw [hta]; ring
  have hcl : ∀ j ≤ m, (∀ c ≤ j, ∑ i ∈ range (m + 2), |a c i| ≤ 2 * P) → ∀ x : ℝ, |x| ≤ 1 →
      |chebT (j + 1) (α * x + β) - colEval (m + 2) (a (j + 1)) x| ≤ ta * ((m : ℝ) * (m + 1) / 2) := by
    intro j hj hs x hx
    have := err_zero (seq_close hαβ (m + 2) a h.a0 h.a1 (t := ta) j (by omega) (fun c hc => h.za c (by omega))
      (fun c hc => hloc c (by omega) (hs c (by omega)) (hs (c + 1) (by omega))) hx)
    exact this.trans (half_mono ht0 hj)
  have hS : ∀ c ≤ m + 1, ∑ i ∈ range (m + 2), |a c i| ≤ 2 * P := by
    intro c
    induction c using Nat.strong_induction_on with
    | _ c ih =>
      intro hc
      cases c with
      | zero =>
        rw [h.a0, sum_eq_single 0]
        · simp only [Function.update_self, abs_one]; linarith
        · intro b _ hb; simp [hb]
        · intro hn; exact absurd (mem_range.2 (by omega)) hn
      | succ j =>
        have := hcl j (by omega) (fun c hcj => ih c (by omega) (by omega))
        have hb : ∀ x : ℝ, |x| ≤ 1 → |colEval (m + 2) (a (j + 1)) x| ≤ 2 := by
          intro x hx
          have h2 := abs_chebT_le_one (j + 1) (abs_affine_le hαβ hx)
          have h3 := abs_sub (chebT (j + 1) (α * x + β)) (chebT (j + 1) (α * x + β) - colEval (m + 2) (a (j + 1)) x)
          rw [sub_sub_cancel] at h3
          linarith [this x hx]
        have := sum_coef_le (m + 2) (a (j + 1)) 2 hb
        rw [← hP] at this
        linarith
  refine ⟨hS, ?_⟩
  intro c hc x hx
  cases c with
  | zero =>
    have e1 : colEval (m + 2) (a 0) x = 1 := by rw [h.a0]; exact tInit_colEval1 (V := ℝ) (fun _ => 0) α β (m + 2) (by omega) x
    rw [e1, chebT_zero, sub_self, abs_zero]
    exact hM0
  | succ j => exact hcl j (by omega) (fun c hcj => hS c (by omega)) x hx

/-- Values and error terms together: close to the Chebyshev polynomials up to an error of order `u ^ 2`. -/
theorem ESeq.cols {ta κ M P E : ℝ} (hP : P = √(2 * ((m + 2 : ℕ) : ℝ))) (hta : ta = 6 * (6 * (1 / 2 ^ 53)) * P) (hM : M = (m : ℝ) * (m + 1) / 2)
    (hκ : κ = (1 + 1 / 2 ^ 53) ^ 10 - 1) (hE : E = κ * ta * (6 * P * M + 1) * M) (h1 : ta * M ≤ 1) (h2 : κ * (6 * P * M + 1) ≤ 1) :
    (∀ c ≤ m + 1, ∀ x : ℝ, |x| ≤ 1 → |chebT c (α * x + β) - colEval (m + 2) (fun i => a c i + e c i) x| ≤ E) ∧
      ∀ c ≤ m + 1, ∑ i ∈ range (m + 2), |a c i + e c i| ≤ P * (1 + E) := by
  have hP0 : 0 ≤ P := by rw [hP]; positivity
  have ht0 : 0 ≤ ta := by rw [hta]; positivity
  have hκ0 : 0 ≤ κ := by rw [hκ]; norm_num
  have hM0 : 0 ≤ M := by rw [hM]; positivity
  obtain ⟨v1, v2⟩ := h.values hαβ (ta := ta) (by rw [hta, hP]) (by rw [← hM]; exact h1)
  rw [← hP] at v1
  rw [← hM] at v2
  obtain ⟨tx, htx⟩ : ∃ tx, tx = κ * ta * (6 * P * M + 1) := ⟨_, rfl⟩
  have htx0 : 0 ≤ tx := by rw [htx]; positivity
  have htxa : tx ≤ ta := by
    have := mul_le_mul_of_nonneg_right h2 ht0
    rw [htx]
    linarith
  obtain ⟨D, hD⟩ : ∃ D, D = 2 * P * ta * M := ⟨_, rfl⟩
  have hD0 : 0 ≤ D := by rw [hD]; positivity
  have hEx : E = tx * M := by rw [hE, htx]
  have hE0 : 0 ≤ E := by rw [hEx]; positivity
  have hx0 : (fun i => a 0 i + e 0 i) = Function.update (fun _ => 0) 0 1 := by rw [h.a0, h.e0]; simp
  have hx1 : (fun i => a 1 i + e 1 i) = Function.update (Function.update (fun _ => 0) 0 β) 1 α := by rw [h.a1, h.e1]; simp
  have hloc : ∀ c < m, ∑ i ∈ range (m + 2), |e c i| ≤ D → ∑ i ∈ range (m + 2), |e (c + 1) i| ≤ D →
      ∑ i ∈ range (m + 2), |(a (c + 2) i + e (c + 2) i) - rec3 α β (fun i => a c i + e c i) (fun i => a (c + 1) i + e (c + 1) i) i| ≤ tx := by
    intro c hc k1 k2
    calc _ ≤ ∑ i ∈ range (m + 2), κ * (maj α β (e c) (e (c + 1)) i + 6 * (1 / 2 ^ 53) * maj α β (a c) (a (c + 1)) i) := by
          refine sum_le_sum fun i _ => ?_
          obtain ⟨-, s, s1, -, s3⟩ := h.step c hc i
          simp only at s1 s3
          have mx : mulX (fun i => a (c + 1) i + e (c + 1) i) i = mulX (a (c + 1)) i + mulX (e (c + 1)) i := by
            match i with
            | 0 => rfl
            | 1 => simp only [mulX]; ring
            | i + 2 => simp only [mulX]; ring
          have : (a (c + 2) i + e (c + 2) i) - rec3 α β (fun i => a c i + e c i) (fun i => a (c + 1) i + e (c + 1) i) i =
              e (c + 2) i - (-e c i + α * mulX (e (c + 1)) i + 2 * β * e (c + 1) i + s) := by
            unfold rec3
            rw [mx]
            linarith
          rw [this, hκ]
          exact s3
      _ ≤ κ * ((D + 2 * D) + 6 * (1 / 2 ^ 53) * (2 * P + 2 * (2 * P))) := by
          rw [← mul_sum, sum_add_distrib, ← mul_sum]
          apply mul_le_mul_of_nonneg_left _ hκ0
          have q1 := sum_maj' hαβ (e c) (e (c + 1)) (R := m + 2) (by omega) (fun i hi => h.ze (c + 1) (by omega) i (by omega))
          have q2 := sum_maj' hαβ (a c) (a (c + 1)) (R := m + 2) (by omega) (fun i hi => h.za (c + 1) (by omega) i (by omega))
          have q3 := v1 c (by omega)
          have q4 := v1 (c + 1) (by omega)
          have q5 : ∑ i ∈ range (m + 2), maj α β (a c) (a (c + 1)) i ≤ 2 * P + 2 * (2 * P) := by linarith
          have := mul_le_mul_of_nonneg_left q5 (by norm_num : (0 : ℝ) ≤ 6 * (1 / 2 ^ 53))
          linarith
      _ = tx := by rw [htx, hD, hta]; ring
  have hcl : ∀ j ≤ m, (∀ c ≤ j, ∑ i ∈ range (m + 2), |e c i| ≤ D) → ∀ x : ℝ, |x| ≤ 1 →
      |chebT (j + 1) (α * x + β) - colEval (m + 2) (fun i => a (j + 1) i + e (j + 1) i) x| ≤ E := by
    intro j hj hs x hx
    have := err_zero (seq_close hαβ (m + 2) (fun c i => a c i + e c i) hx0 hx1 (t := tx) j (by omega)
      (fun c hc i hi => by rw [h.za c (by omega) i hi, h.ze c (by omega) i hi, add_zero])
      (fun c hc => hloc c (by omega) (hs c (by omega)) (hs (c + 1) (by omega))) hx)
    rw [hEx, hM]
    exact this.trans (half_mono htx0 hj)
  have hS : ∀ c ≤ m + 1, ∑ i ∈ range (m + 2), |e c i| ≤ D := by
    intro c
    induction c using Nat.strong_induction_on with
    | _ c ih =>
      intro hc
      cases c with
      | zero => rw [h.e0]; simpa using hD0
      | succ j =>
        have q := hcl j (by omega) (fun c hcj => ih c (by omega) (by omega))
        have hb : ∀ x : ℝ, |x| ≤ 1 → |colEval (m + 2) (e (j + 1)) x| ≤ 2 * (ta * M) := by
          intro x hx
          have q1 := q x hx
          have q2 := v2 (j + 1) (by omega) x hx
          rw [colEval_add] at q1
          have q3 : E ≤ ta * M := by rw [hEx]; exact mul_le_mul_of_nonneg_right htxa hM0
          have q4 := abs_le.1 q1
          have q5 := abs_le.1 q2
          rw [abs_le]
          constructor <;> linarith [q4.1, q4.2, q5.1, q5.2]
        have := sum_coef_le (m + 2) (e (j + 1)) _ hb
        rw [← hP] at this
        refine this.trans (le_of_eq ?_)
        rw [hD]; ring
  have hfin : ∀ c ≤ m + 1, ∀ x : ℝ, |x| ≤ 1 → |chebT c (α * x + β) - colEval (m + 2) (fun i => a c i + e c i) x| ≤ E := by
    intro c hc x hx
    cases c with
    | zero =>
      have e1 : colEval (m + 2) (fun i => a 0 i + e 0 i) x = 1 := by
        rw [hx0]; exact tInit_colEval1 (V := ℝ) (fun _ => 0) α β (m + 2) (by omega) x
      rw [e1, chebT_zero, sub_self, abs_zero]
      exact hE0
    | succ j => exact hcl j (by omega) (fun c hcj => hS c (by omega)) x hx
  refine ⟨hfin, fun c hc => ?_⟩
  rw [hP]
  refine sum_coef_le (m + 2) _ (1 + E) fun x hx => ?_
  have h2 := abs_chebT_le_one c (abs_affine_le hαβ hx)
  have h3 := abs_sub (chebT c (α * x + β)) (chebT c (α * x + β) - colEval (m + 2) (fun i => a c i + e c i) x)
  rw [sub_sub_cancel] at h3
  linarith [hfin c hc x hx]

end Cols

section Out

variable {ι : Type*} {fl : ℝ → ℝ} (hfl : RoundsToNearest 53 fl) {coeffs : ℕ → ι → ℝ} {α β : ℝ} {m : ℕ} {a e : ℕ → ℕ → ℝ} {o : ℕ → ℕ → ι → ℝ}

include hfl in
theorem ESeq.out_near (h : ESeq fl coeffs α β m a e o) (j : ℕ) (hj : j ≤ m) (i : ℕ) (k : ι) :
    Near (1 / 2 ^ 53) (j + 2) (o j i k) (∑ c ∈ range (j + 2), coeffs c k * (a c i + e c i))
      (∑ c ∈ range (j + 2), |coeffs c k| * |a c i + e c i|) := by
  induction j with
  | zero =>
    have := h.o0 i k
    simp only [sum_range_succ, sum_range_zero, zero_add, h.e0, h.e1, add_zero]
    exact this
  | succ j ih =>
    rw [h.ostep j (by omega), sum_range_succ (n := j + 2), sum_range_succ (n := j + 2)]
    have n1 : Near (1 / 2 ^ 53) 1 (fl (a (j + 2) i + e (j + 2) i)) (a (j + 2) i + e (j + 2) i) |a (j + 2) i + e (j + 2) i| :=
      (refl0 hfl _).fl (by norm_num) (fl_rel' hfl)
    exact addN hfl (ih (by omega)) (mulN hfl n1 (coeffs (j + 2) k)) (by omega)

/-- Error of a fibre, from bounds on the columns. -/
theorem fibre_error_gen {N R : ℕ} (coeffs : ℕ → ι → ℝ) (o : ℕ → ι → ℝ) (X : ℕ → ℕ → ℝ) (k : ι) {y x : ℝ} (hx : |x| ≤ 1) {u : ℝ} (hu : 0 ≤ u)
    (ho : ∀ i, Near u N (o i k) (∑ c ∈ range N, coeffs c k * X c i) (∑ c ∈ range N, |coeffs c k| * |X c i|)) {A E : ℝ}
    (hA : ∀ c < N, ∑ i ∈ range R, |X c i| ≤ A) (hE : ∀ c < N, |chebT c y - colEval R (X c) x| ≤ E) :
    |∑ c ∈ range N, chebT c y * coeffs c k - ∑ i ∈ range R, chebT i x * o i k| ≤ (E + ((1 + u) ^ N - 1) * A) * ∑ c ∈ range N, |coeffs c k| := by
  have e1 : ∑ i ∈ range R, chebT i x * ∑ c ∈ range N, coeffs c k * X c i = ∑ c ∈ range N, colEval R (X c) x * coeffs c k := by
    simp only [mul_sum, colEval, sum_mul]
    rw [sum_comm]
    refine sum_congr rfl fun c _ => sum_congr rfl fun i _ => by ring
  have e2 : ∑ c ∈ range N, chebT c y * coeffs c k - ∑ i ∈ range R, chebT i x * o i k =
      ∑ c ∈ range N, (chebT c y - colEval R (X c) x) * coeffs c k -
      ∑ i ∈ range R, chebT i x * (o i k - ∑ c ∈ range N, coeffs c k * X c i) := by
    simp only [sub_mul, mul_sub, sum_sub_distrib]
    rw [e1]
    ring
  rw [e2, add_mul]
  refine (abs_sub _ _).trans (add_le_add ?_ ?_)
  · rw [mul_sum]
    refine (abs_sum_le_sum_abs _ _).trans (sum_le_sum fun c hc => ?_)
    rw [abs_mul]
    exact mul_le_mul_of_nonneg_right (hE c (mem_range.1 hc)) (abs_nonneg _)
  · have hε : 0 ≤ (1 + u) ^ N - 1 := by linarith [one_le_pow_u hu N]
    calc _ ≤ ∑ i ∈ range R, ((1 + u) ^ N - 1) * ∑ c ∈ range N, |coeffs c k| * |X c i| := by
          refine (abs_sum_le_sum_abs _ _).trans (sum_le_sum fun i _ => ?_)
          rw [abs_mul]
          exact (mul_le_of_le_one_left (abs_nonneg _) (abs_chebT_le_one i hx)).trans (ho i).err
      _ = ((1 + u) ^ N - 1) * ∑ c ∈ range N, |coeffs c k| * ∑ i ∈ range R, |X c i| := by
          rw [← mul_sum, sum_comm]
          simp only [mul_sum]
      _ ≤ ((1 + u) ^ N - 1) * ∑ c ∈ range N, |coeffs c k| * A := by
          apply mul_le_mul_of_nonneg_left _ hε
          exact sum_le_sum fun c hc => mul_le_mul_of_nonneg_left (hA c (mem_range.1 hc)) (abs_nonneg _)
      _ = _ := by rw [← sum_mul]; ring

end Out

end YRoots
