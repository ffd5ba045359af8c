import Verif.Proofs.OneDim
import Verif.Spec.OneDim
import Mathlib.LinearAlgebra.Matrix.ToLinearEquiv
import Mathlib.RingTheory.Polynomial.DegreeLT

/-!
# Roots and eigenvalues in `OneDimension.py`
-/

namespace YRoots.OneD

open Polynomial

/-! ### Degrees -/

theorem natDegree_family (U : ℕ → ℂ[X]) (hU : ∀ i, (U i).degree = i) (c : ℕ → ℂ) (n : ℕ) (hc : c n ≠ 0) :
    (∑ i ∈ Finset.range (n + 1), C (c i) * U i).natDegree = n := by
  rw [Finset.sum_range_succ]
  have h1 : (C (c n) * U n).degree = n := by rw [degree_C_mul hc, hU]
  have h2 : (∑ i ∈ Finset.range n, C (c i) * U i).degree < n := by
    rw [← mem_degreeLT]
    refine Submodule.sum_mem _ fun i hi => ?_
    rw [mem_degreeLT]
    by_cases hci : c i = 0
    · rw [hci, C_0, zero_mul, degree_zero]; exact WithBot.bot_lt_coe n
    · rw [degree_C_mul hci, hU]
      exact_mod_cast Finset.mem_range.1 hi
  exact natDegree_eq_of_degree_eq_some (by rw [degree_add_eq_right_of_degree_lt (h1 ▸ h2), h1])

theorem powPoly_natDegree (c : List ℝ) (n : ℕ) (hn : c.length = n + 1) (hc : c.getD n 0 ≠ 0) : (powPoly c).natDegree = n := by
  rw [powPoly, hn]
  exact natDegree_family (fun i => X ^ i) (fun i => degree_X_pow i) (fun i => ((c.getD i 0 : ℝ) : ℂ)) n (by exact_mod_cast hc)

theorem chebPoly_natDegree (c : List ℝ) (n : ℕ) (hn : c.length = n + 1) (hc : c.getD n 0 ≠ 0) :
    (chebPoly c).natDegree = n := by
  rw [chebPoly, hn]
  exact natDegree_family (fun i => Chebyshev.T ℂ (i : ℤ)) (fun i => by rw [Chebyshev.degree_T]; simp)
    (fun i => ((c.getD i 0 : ℝ) : ℂ)) n (by exact_mod_cast hc)

theorem chebPoly_conj (c : List ℝ) : (chebPoly c).roots.map (starRingEnd ℂ) = (chebPoly c).roots := by
  rw [← (IsAlgClosed.splits (chebPoly c)).roots_map]
  congr 1
  simp [chebPoly, Polynomial.map_sum, Chebyshev.map_T]

/-! ### Eigenvectors -/

/-- Coefficients as polynomials. -/
noncomputable def φX : ℝ →+* ℂ[X] := (C : ℂ →+* ℂ[X]).comp Complex.ofRealHom

theorem φX_apply (x : ℝ) : φX x = C (x : ℂ) := rfl

/-- The conjugated eigenvector, extended by zero. -/
noncomputable def lv {n : ℕ} (v : Fin n → ℂ) (i : ℕ) : ℂ := (starRingEnd ℂ) (comp v i)

theorem lv_fin {n : ℕ} (v : Fin n → ℂ) (i : Fin n) : lv v i.val = (starRingEnd ℂ) (v i) := by
  simp [lv, comp]

theorem lv_left {E : Eigen} (hE : E.OK) {n : ℕ} {A : Matrix (Fin n) (Fin n) ℝ} {p : ℂ × (Fin n → ℂ)}
    (hp : p ∈ E.eigLeft n A) (j : Fin n) : ∑ i : Fin n, lv p.2 i.val * Complex.ofRealHom (A i j) = p.1 * lv p.2 j.val := by
  have := (hE.left n A p hp).2 j
  simp only [lv_fin]
  exact this

theorem lv_ne {E : Eigen} (hE : E.OK) {n : ℕ} {A : Matrix (Fin n) (Fin n) ℝ} {p : ℂ × (Fin n → ℂ)}
    (hp : p ∈ E.eigLeft n A) : ∃ i, i < n ∧ lv p.2 i ≠ 0 := by
  obtain ⟨i, hi⟩ := Function.ne_iff.1 (hE.left n A p hp).1
  exact ⟨i.val, i.isLt, by rw [lv_fin]; simpa using hi⟩

theorem conj_npDiv {n : ℕ} (v : Fin n → ℂ) (a b : ℕ) (r : ℂ) (hb : lv v b ≠ 0) (h : lv v a = r * lv v b) :
    (npDiv (comp v a) (comp v b)).map (starRingEnd ℂ) = some r := by
  have hb' : comp v b ≠ 0 := fun h0 => hb (by rw [lv, h0, map_zero])
  rw [npDiv, if_neg hb', Option.map_some]
  congr 1
  rw [map_div₀]
  change lv v a / lv v b = r
  rw [h, mul_div_cancel_right₀ _ hb]

theorem npDiv_conj {n : ℕ} (v : Fin n → ℂ) (a b : ℕ) (r : ℂ) (hb : lv v b ≠ 0) (h : lv v a = r * lv v b) :
    npDiv (comp v a) (comp v b) = some ((starRingEnd ℂ) r) := by
  have h1 := conj_npDiv v a b r hb h
  rw [Option.map_eq_some_iff] at h1
  obtain ⟨z, hz, hz2⟩ := h1
  rw [hz, ← hz2, Complex.conj_conj]

theorem eig_list {E : Eigen} (hE : E.OK) {n : ℕ} {A : Matrix (Fin n) (Fin n) ℝ} (f : ℂ × (Fin n → ℂ) → Option ℂ)
    (g : ℂ → ℂ) (h : ∀ p ∈ E.eigLeft n A, f p = some (g p.1)) :
    (((E.eigLeft n A).map f : List (Option ℂ)) : Multiset (Option ℂ)) =
      ((A.map ((↑) : ℝ → ℂ)).charpoly.roots.map g).map some := by
  rw [← hE.eigLeft n A, Multiset.map_coe, Multiset.map_coe, List.map_map, List.map_map]
  rw [List.map_congr_left h]
  rfl

/-! ### `multPower` -/

theorem linear_roots (a b : ℂ) (hb : b ≠ 0) (P : ℂ[X]) (hP : P = C a + C b * X) : P.roots = {-a / b} := by
  have : P = C b * (X - C (-a / b)) := by
    rw [hP, mul_sub, ← C_mul, mul_div_cancel₀ _ hb, C_neg]; ring
  rw [this, roots_C_mul _ hb, roots_X_sub_C]

theorem const_roots (P : ℂ[X]) (a : ℂ) (hP : P = C a) : P.roots = 0 := by rw [hP, roots_C]

theorem companion_roots (c : List ℝ) (hn : 2 ≤ c.length - 1) (hc : c.getD (c.length - 1) 0 ≠ 0) :
    ((companion c).map ((↑) : ℝ → ℂ)).charpoly.roots = (powPoly c).roots := by
  have hrot : ((companion c).map ((↑) : ℝ → ℂ)) = Matrix.reindex Fin.revPerm Fin.revPerm ((companion0 c).map ((↑) : ℝ → ℂ)) := by
    ext i j; simp [companion_eq, Matrix.reindex_apply]
  rw [hrot, Matrix.charpoly_reindex]
  have hcC : ((c.getD (c.length - 1) 0 : ℝ) : ℂ) ≠ 0 := by exact_mod_cast hc
  have hP : powPoly c = ∑ i ∈ Finset.range (c.length - 1 + 1), C ((c.getD i 0 : ℝ) : ℂ) * X ^ i := by
    rw [powPoly, show c.length - 1 + 1 = c.length by omega]
  rw [charpoly_of_left ((companion0 c).map ((↑) : ℝ → ℂ)) (fun i => X ^ i.val)
    (fun j => if j.val + 1 < c.length - 1 then 0 else 1)
    (C ((c.getD (c.length - 1) 0 : ℝ) : ℂ)⁻¹ * powPoly c) ⟨0, by omega⟩ 0 rfl ?_ ?_ (Or.inl rfl),
    roots_C_mul _ (inv_ne_zero hcC)]
  · intro j
    have hj := j.isLt
    have := companion0_col φX (fun i => X ^ i) c j
    simp only [φX_apply] at this
    simp only [Matrix.map_apply]
    rw [this]
    split_ifs with h
    · rw [pow_succ]; ring
    · rw [hP, Finset.sum_range_succ, ← Fin.sum_univ_eq_sum_range (fun i => C ((c.getD i 0 : ℝ) : ℂ) * X ^ i), mul_one,
        mul_add, ← mul_assoc, ← C_mul, inv_mul_cancel₀ hcC, C_1, one_mul, sub_neg_eq_add, add_comm, Finset.mul_sum]
      congr 1
      · refine Finset.sum_congr rfl fun i _ => ?_
        push_cast
        rw [← mul_assoc, ← C_mul, div_eq_inv_mul, mul_comm]
      · rw [← pow_succ']; congr 1; omega
  · rw [natDegree_C_mul (inv_ne_zero hcC)]
    exact powPoly_natDegree c (c.length - 1) (by omega) hc

theorem multPower_finds {E : Eigen} (hE : E.OK) (c : List ℝ) (ev : Bool) (hne : c ≠ []) (hc : c.getD (c.length - 1) 0 ≠ 0) :
    Finds (multPower E c ev) (powPoly c) := by
  rw [multPower]
  have hlen : 0 < c.length := List.length_pos_iff.2 hne
  by_cases h1 : c.length ≤ 1
  · refine ⟨[], by simp [h1], ?_⟩
    rw [const_roots (powPoly c) (c.getD 0 0 : ℝ) (by rw [powPoly, show c.length = 1 by omega]; simp)]
    rfl
  simp only [if_neg h1]
  by_cases h2 : c.length - 1 = 1
  · rw [if_pos h2]
    rw [h2] at hc
    have hcC : ((c.getD 1 0 : ℝ) : ℂ) ≠ 0 := by exact_mod_cast hc
    refine ⟨_, rfl, ?_⟩
    rw [linear_roots (c.getD 0 0 : ℝ) (c.getD 1 0 : ℝ) hcC (powPoly c)
      (by rw [powPoly, show c.length = 2 by omega, Finset.sum_range_succ, Finset.sum_range_one]; simp)]
    rw [npDiv, if_neg hcC]; simp
  rw [if_neg h2, if_neg hc]
  have hn : 2 ≤ c.length - 1 := by omega
  cases ev with
  | true =>
    refine ⟨_, rfl, ?_⟩
    rw [← companion_roots c hn hc, ← hE.eigvals, Multiset.map_coe]
  | false =>
    refine ⟨_, rfl, ?_⟩
    rw [eig_list hE _ id, companion_roots c hn hc, Multiset.map_id]
    intro p hp
    -- the rotated eigenvector
    let u : ℕ → ℂ := fun k => lv p.2 ((c.length - 1) - 1 - k)
    have hu : ∀ j : Fin (c.length - 1), ∑ i : Fin (c.length - 1), u i.val * Complex.ofRealHom (companion0 c i j) = p.1 * u j.val := by
      intro j
      have := lv_left hE hp j.rev
      rw [← Equiv.sum_comp Fin.revPerm] at this
      have hj : j.rev.val = (c.length - 1) - 1 - j.val := by rw [Fin.val_rev]; omega
      rw [hj] at this
      rw [← this]
      refine Finset.sum_congr rfl fun i _ => ?_
      have hi : (Fin.revPerm i).val = (c.length - 1) - 1 - i.val := by rw [Fin.revPerm_apply, Fin.val_rev]; omega
      rw [hi, companion_eq, Matrix.submatrix_apply, Fin.revPerm_apply, Fin.rev_rev, Fin.rev_rev]
    have hstep : ∀ k, k + 1 < (c.length - 1) → u (k + 1) = p.1 * u k := by
      intro k hk
      have := hu ⟨k, by omega⟩
      rw [companion0_col Complex.ofRealHom u c ⟨k, by omega⟩, if_pos hk] at this
      exact this
    have hu0 : u 0 ≠ 0 := by
      intro h0
      have hall : ∀ k, k < (c.length - 1) → u k = 0 := by
        intro k
        induction k with
        | zero => intro _; exact h0
        | succ k ih => intro hk; rw [hstep k hk, ih (by omega), mul_zero]
      obtain ⟨i, hi, hi2⟩ := lv_ne hE hp
      refine hi2 ?_
      have := hall ((c.length - 1) - 1 - i) (by omega)
      simp only [u] at this
      rwa [show (c.length - 1) - 1 - ((c.length - 1) - 1 - i) = i by omega] at this
    refine conj_npDiv p.2 ((c.length - 1) - 2) ((c.length - 1) - 1) p.1 ?_ ?_
    · simpa [u] using hu0
    · have := hstep 0 (by omega)
      simp only [u] at this
      rwa [show (c.length - 1) - 1 - (0 + 1) = (c.length - 1) - 2 by omega, show (c.length - 1) - 1 - 0 = (c.length - 1) - 1 by omega] at this

/-! ### `divPower` -/

theorem mem_charpoly_roots {E : Eigen} (hE : E.OK) {n : ℕ} {A : Matrix (Fin n) (Fin n) ℝ} {p : ℂ × (Fin n → ℂ)}
    (hp : p ∈ E.eigLeft n A) : p.1 ∈ (A.map ((↑) : ℝ → ℂ)).charpoly.roots := by
  rw [← hE.eigLeft n A, Multiset.mem_coe]
  exact List.mem_map_of_mem hp

theorem divisionPower_roots (c : List ℝ) (hn : 2 ≤ c.length - 1) (hc : c.getD (c.length - 1) 0 ≠ 0) (h0 : c.getD 0 0 ≠ 0) :
    ((divisionPower c).map ((↑) : ℝ → ℂ)).charpoly.roots = (powPoly c).roots.map fun r => 1 / r := by
  have h0C : ((c.getD 0 0 : ℝ) : ℂ) ≠ 0 := by exact_mod_cast h0
  have hP : powPoly c = ∑ i ∈ Finset.range (c.length - 1 + 1), C ((c.getD i 0 : ℝ) : ℂ) * X ^ i := by
    rw [powPoly, show c.length - 1 + 1 = c.length by omega]
  have hdeg := powPoly_natDegree c (c.length - 1) (by omega) hc
  obtain ⟨hq1, hq2, hq3⟩ := rev_factor (powPoly c)
    (∑ i ∈ Finset.range (c.length - 1 + 1), C ((c.getD i 0 : ℝ) : ℂ) * X ^ (c.length - 1 - i)) 1 one_ne_zero
    (by
      rw [hP, eval_finsetSum, Finset.sum_range_succ']
      simpa using h0)
    (by
      intro y hy
      rw [hdeg, hP, eval_finsetSum, eval_finsetSum, Finset.mul_sum]
      refine Finset.sum_congr rfl fun i hi => ?_
      have hi : i ≤ c.length - 1 := by have := Finset.mem_range.1 hi; omega
      simp only [eval_mul, eval_C, eval_pow, eval_X]
      rw [pow_sub₀ _ hy hi, div_pow, one_pow]; ring)
  rw [charpoly_of_left ((divisionPower c).map ((↑) : ℝ → ℂ)) (fun i => X ^ (c.length - 1 - 1 - i.val))
    (fun j => if j.val = 0 then 1 else 0)
    (C ((c.getD 0 0 : ℝ) : ℂ)⁻¹ *
      ∑ i ∈ Finset.range (c.length - 1 + 1), C ((c.getD i 0 : ℝ) : ℂ) * X ^ (c.length - 1 - i))
    ⟨c.length - 1 - 1, by omega⟩ 0 (by simp) ?_ ?_ (Or.inl rfl), roots_C_mul _ (inv_ne_zero h0C), hq3]
  · intro j
    have hj := j.isLt
    have := divisionPower_col φX (fun i => X ^ (c.length - 1 - 1 - i)) c j
    simp only [φX_apply] at this
    simp only [Matrix.map_apply]
    rw [this]
    split_ifs with h
    · rw [Finset.sum_range_succ', ← Fin.sum_univ_eq_sum_range
        (fun i => C ((c.getD (i + 1) 0 : ℝ) : ℂ) * X ^ (c.length - 1 - (i + 1))), mul_one,
        mul_add, ← mul_assoc, ← C_mul, inv_mul_cancel₀ h0C, C_1, one_mul, sub_neg_eq_add, add_comm, Finset.mul_sum]
      congr 1
      · refine Finset.sum_congr rfl fun i _ => ?_
        push_cast
        rw [← mul_assoc, ← C_mul, div_eq_inv_mul, mul_comm, show c.length - 1 - 1 - i.val = c.length - 1 - (i.val + 1) by omega]
      · rw [← pow_succ', h]; congr 1; omega
    · rw [← pow_succ', show c.length - 1 - 1 - j.val + 1 = c.length - 1 - 1 - (j.val - 1) by omega]; ring
  · rw [natDegree_C_mul (inv_ne_zero h0C), hq1, hdeg]

theorem powPoly_roots_ne_zero (c : List ℝ) (hne : c ≠ []) (h0 : c.getD 0 0 ≠ 0) : ∀ r ∈ (powPoly c).roots, r ≠ 0 := by
  rintro r hr rfl
  have hev : (powPoly c).eval 0 = ((c.getD 0 0 : ℝ) : ℂ) := by
    obtain ⟨m, hm⟩ : ∃ m, c.length = m + 1 := ⟨c.length - 1, by have := List.length_pos_iff.2 hne; omega⟩
    rw [powPoly, hm, eval_finsetSum, Finset.sum_range_succ']
    simp
  have := (mem_roots'.1 hr).2
  rw [IsRoot, hev] at this
  exact h0 (by exact_mod_cast this)

theorem map_inv_inv (S : Multiset ℂ) (s : ℂ) (hs : s ≠ 0) (hS : ∀ r ∈ S, r ≠ 0) :
    (S.map fun r => s / r).map (fun z => s / z) = S := by
  rw [Multiset.map_map]
  conv_rhs => rw [← Multiset.map_id S]
  refine Multiset.map_congr rfl fun r hr => ?_
  have := hS r hr
  simp only [Function.comp, id]
  field_simp

theorem divPower_finds {E : Eigen} (hE : E.OK) (c : List ℝ) (ev : Bool) (hne : c ≠ []) (hc : c.getD (c.length - 1) 0 ≠ 0)
    (h0 : c.getD 0 0 ≠ 0) : Finds (divPower E c ev) (powPoly c) := by
  rw [divPower]
  have hlen : 0 < c.length := List.length_pos_iff.2 hne
  by_cases h1 : c.length ≤ 1
  · refine ⟨[], by simp [h1], ?_⟩
    rw [const_roots (powPoly c) (c.getD 0 0 : ℝ) (by rw [powPoly, show c.length = 1 by omega]; simp)]
    rfl
  simp only [if_neg h1]
  by_cases h2 : c.length - 1 = 1
  · rw [if_pos h2]
    rw [h2] at hc
    have hcC : ((c.getD 1 0 : ℝ) : ℂ) ≠ 0 := by exact_mod_cast hc
    refine ⟨_, rfl, ?_⟩
    rw [linear_roots (c.getD 0 0 : ℝ) (c.getD 1 0 : ℝ) hcC (powPoly c)
      (by rw [powPoly, show c.length = 2 by omega, Finset.sum_range_succ, Finset.sum_range_one]; simp)]
    rw [npDiv, if_neg hcC]; simp
  rw [if_neg h2, if_neg h0]
  have hn : 2 ≤ c.length - 1 := by omega
  have hroots := divisionPower_roots c hn hc h0
  have hr0 := powPoly_roots_ne_zero c hne h0
  have hev0 : ∀ z ∈ ((divisionPower c).map ((↑) : ℝ → ℂ)).charpoly.roots, z ≠ 0 := by
    intro z hz
    rw [hroots] at hz
    obtain ⟨r, hr, rfl⟩ := Multiset.mem_map.1 hz
    exact div_ne_zero one_ne_zero (hr0 r hr)
  cases ev with
  | true =>
    refine ⟨_, rfl, ?_⟩
    rw [← Multiset.map_coe, hE.eigvals]
    rw [Multiset.map_congr (g := fun z => some (1 / z)) rfl (fun z hz => by rw [npDiv, if_neg (hev0 z hz)])]
    have := map_inv_inv (powPoly c).roots 1 one_ne_zero hr0
    rw [← hroots] at this
    conv_rhs => rw [← this]
    rw [Multiset.map_map]; rfl
  | false =>
    refine ⟨_, rfl, ?_⟩
    rw [eig_list hE _ (fun z => 1 / z), hroots, map_inv_inv _ _ one_ne_zero hr0]
    intro p hp
    have hl0 := hev0 _ (mem_charpoly_roots hE hp)
    have hstep : ∀ k, k + 1 < c.length - 1 → lv p.2 (k + 1) = 1 / p.1 * lv p.2 k := by
      intro k hk
      have := lv_left hE hp ⟨k + 1, hk⟩
      rw [divisionPower_col Complex.ofRealHom (lv p.2) c ⟨k + 1, hk⟩, if_neg (by simp)] at this
      simp only [Nat.add_sub_cancel] at this
      rw [this]; field_simp
    have hu0 : lv p.2 0 ≠ 0 := by
      intro hz
      have hall : ∀ k, k < c.length - 1 → lv p.2 k = 0 := by
        intro k
        induction k with
        | zero => intro _; exact hz
        | succ k ih => intro hk; rw [hstep k hk, ih (by omega), mul_zero]
      obtain ⟨i, hi, hi2⟩ := lv_ne hE hp
      exact hi2 (hall i hi)
    exact conj_npDiv p.2 1 0 (1 / p.1) hu0 (hstep 0 (by omega))

/-! ### `multCheb` -/

theorem colleague_roots (c : List ℝ) (hn : 2 ≤ c.length - 1) (hc : c.getD (c.length - 1) 0 ≠ 0) :
    ((colleague c).map ((↑) : ℝ → ℂ)).charpoly.roots = (chebPoly c).roots := by
  have hcC : ((c.getD (c.length - 1) 0 : ℝ) : ℂ) ≠ 0 := by exact_mod_cast hc
  have hP : chebPoly c = ∑ i ∈ Finset.range (c.length - 1 + 1), C ((c.getD i 0 : ℝ) : ℂ) * Chebyshev.T ℂ (i : ℤ) := by
    rw [chebPoly, show c.length - 1 + 1 = c.length by omega]
  have hk : (2 * ((c.getD (c.length - 1) 0 : ℝ) : ℂ))⁻¹ ≠ 0 := inv_ne_zero (mul_ne_zero two_ne_zero hcC)
  have hhalf : (φX (1 / 2)) * 2 = 1 := by
    rw [← map_ofNat φX 2, ← map_mul]; norm_num
  rw [charpoly_of_left ((colleague c).map ((↑) : ℝ → ℂ)) (fun i => Chebyshev.T ℂ (i.val : ℤ))
    (fun j => if j.val + 1 < c.length - 1 then 0 else 1)
    (C (2 * ((c.getD (c.length - 1) 0 : ℝ) : ℂ))⁻¹ * chebPoly c) ⟨0, by omega⟩ 0 (by simp) ?_ ?_ (Or.inl rfl),
    roots_C_mul _ hk]
  · intro j
    have hj := j.isLt
    simp only [Matrix.map_apply, ← φX_apply]
    by_cases hj0 : j.val = 0
    · have := colleague_col_zero φX (fun i => Chebyshev.T ℂ (i : ℤ)) c j hj0 hn
      rw [this, if_pos (by omega), hj0]
      simp
    · obtain ⟨k, hk⟩ : ∃ k, j.val = k + 1 := ⟨j.val - 1, by omega⟩
      have hT : Chebyshev.T ℂ ((k : ℤ) + 2) = 2 * X * Chebyshev.T ℂ ((k : ℤ) + 1) - Chebyshev.T ℂ (k : ℤ) :=
        Chebyshev.T_add_two ℂ k
      by_cases hjn : j.val + 1 < c.length - 1
      · have := colleague_col_mid φX (fun i => Chebyshev.T ℂ (i : ℤ)) c j hj0 hjn
        rw [this, if_pos hjn, hk]
        simp only [Nat.add_sub_cancel, Nat.cast_add, Nat.cast_one]
        rw [show ((k : ℤ) + 1 + 1) = k + 2 by ring, hT]
        linear_combination (-X * Chebyshev.T ℂ ((k : ℤ) + 1)) * hhalf
      · have hjl : j.val + 1 = c.length - 1 := by omega
        have := colleague_col_last φX (fun i => Chebyshev.T ℂ (i : ℤ)) c j hj0 hjl
        rw [this, if_neg hjn, hP, Finset.sum_range_succ, ← Fin.sum_univ_eq_sum_range
          (fun i => C ((c.getD i 0 : ℝ) : ℂ) * Chebyshev.T ℂ (i : ℤ))]
        have hS : C (2 * ((c.getD (c.length - 1) 0 : ℝ) : ℂ))⁻¹ *
            ∑ i : Fin (c.length - 1), C ((c.getD i.val 0 : ℝ) : ℂ) * Chebyshev.T ℂ (i.val : ℤ) =
            φX (1 / 2) * ∑ i : Fin (c.length - 1), Chebyshev.T ℂ (i.val : ℤ) *
              φX (c.getD i.val 0 / c.getD (c.length - 1) 0) := by
          rw [Finset.mul_sum, Finset.mul_sum]
          refine Finset.sum_congr rfl fun i _ => ?_
          have : C (2 * ((c.getD (c.length - 1) 0 : ℝ) : ℂ))⁻¹ * C ((c.getD i.val 0 : ℝ) : ℂ) =
              φX (1 / 2) * φX (c.getD i.val 0 / c.getD (c.length - 1) 0) := by
            rw [← map_mul φX, φX_apply, ← C_mul]
            congr 1
            push_cast
            field_simp
          linear_combination (Chebyshev.T ℂ (i.val : ℤ)) * this
        have hT' : C (2 * ((c.getD (c.length - 1) 0 : ℝ) : ℂ))⁻¹ * C ((c.getD (c.length - 1) 0 : ℝ) : ℂ) = φX (1 / 2) := by
          rw [φX_apply, ← C_mul]
          congr 1
          push_cast
          field_simp
        have hlast : Chebyshev.T ℂ ((c.length - 1 : ℕ) : ℤ) = 2 * X * Chebyshev.T ℂ ((k : ℤ) + 1) - Chebyshev.T ℂ (k : ℤ) := by
          rw [← hT, ← hjl, hk]; push_cast; rfl
        have hprev : Chebyshev.T ℂ (j.val : ℤ) = Chebyshev.T ℂ ((k : ℤ) + 1) := by rw [hk]; push_cast; rfl
        have hprev2 : Chebyshev.T ℂ ((j.val - 1 : ℕ) : ℤ) = Chebyshev.T ℂ (k : ℤ) := by rw [hk]; rfl
        rw [mul_one, mul_add, hS, ← mul_assoc, hT', hlast, hprev, hprev2]
        linear_combination (-X * Chebyshev.T ℂ ((k : ℤ) + 1)) * hhalf
  · rw [natDegree_C_mul hk]
    exact chebPoly_natDegree c (c.length - 1) (by omega) hc

theorem multCheb_finds {E : Eigen} (hE : E.OK) (c : List ℝ) (ev : Bool) (hne : c ≠ []) (hc : c.getD (c.length - 1) 0 ≠ 0) :
    Finds (multCheb E c ev) (chebPoly c) := by
  rw [multCheb]
  have hlen : 0 < c.length := List.length_pos_iff.2 hne
  by_cases h1 : c.length ≤ 1
  · refine ⟨[], by simp [h1], ?_⟩
    rw [const_roots (chebPoly c) (c.getD 0 0 : ℝ) (by rw [chebPoly, show c.length = 1 by omega]; simp)]
    rfl
  simp only [if_neg h1]
  by_cases h2 : c.length - 1 = 1
  · rw [if_pos h2]
    rw [h2] at hc
    have hcC : ((c.getD 1 0 : ℝ) : ℂ) ≠ 0 := by exact_mod_cast hc
    refine ⟨_, rfl, ?_⟩
    rw [linear_roots (c.getD 0 0 : ℝ) (c.getD 1 0 : ℝ) hcC (chebPoly c)
      (by rw [chebPoly, show c.length = 2 by omega, Finset.sum_range_succ, Finset.sum_range_one]; simp)]
    rw [npDiv, if_neg hcC]; simp
  rw [if_neg h2, if_neg hc]
  have hn : 2 ≤ c.length - 1 := by omega
  cases ev with
  | true =>
    refine ⟨_, rfl, ?_⟩
    rw [← colleague_roots c hn hc, ← hE.eigvals, Multiset.map_coe]
  | false =>
    refine ⟨_, rfl, ?_⟩
    rw [eig_list hE _ (starRingEnd ℂ), colleague_roots c hn hc, chebPoly_conj]
    intro p hp
    have hs1 : lv p.2 1 = p.1 * lv p.2 0 := by
      have := lv_left hE hp ⟨0, by omega⟩
      rwa [colleague_col_zero Complex.ofRealHom (lv p.2) c ⟨0, by omega⟩ rfl hn] at this
    have hu0 : lv p.2 0 ≠ 0 := by
      intro hz
      have hall : ∀ k, (k < c.length - 1 → lv p.2 k = 0) ∧ (k + 1 < c.length - 1 → lv p.2 (k + 1) = 0) := by
        intro k
        induction k with
        | zero => exact ⟨fun _ => hz, fun _ => by rw [hs1, hz, mul_zero]⟩
        | succ k ih =>
          refine ⟨ih.2, fun hk => ?_⟩
          have := lv_left hE hp ⟨k + 1, by omega⟩
          rw [colleague_col_mid Complex.ofRealHom (lv p.2) c ⟨k + 1, by omega⟩ (by simp) hk] at this
          simp only [Nat.add_sub_cancel] at this
          rw [ih.1 (by omega), ih.2 (by omega), zero_add, mul_zero] at this
          refine (mul_eq_zero.1 this).resolve_right ?_
          simp
      obtain ⟨i, hi, hi2⟩ := lv_ne hE hp
      exact hi2 ((hall i).1 hi)
    exact npDiv_conj p.2 1 0 p.1 hu0 hs1

/-! ### `divCheb` -/

/-- `X^i T_i(s/X)`. -/
noncomputable def homT (s : ℂ) : ℕ → ℂ[X]
  | 0 => 1
  | 1 => C s
  | i + 2 => 2 * C s * homT s (i + 1) - X ^ 2 * homT s i

theorem homT_eval (s y : ℂ) (hy : y ≠ 0) : ∀ i : ℕ,
    (homT s i).eval y = y ^ i * (Chebyshev.T ℂ (i : ℤ)).eval (s / y) ∧
    (homT s (i + 1)).eval y = y ^ (i + 1) * (Chebyshev.T ℂ ((i + 1 : ℕ) : ℤ)).eval (s / y) := by
  intro i
  induction i with
  | zero => constructor <;> simp [homT]; field_simp
  | succ i ih =>
    refine ⟨ih.2, ?_⟩
    rw [homT, eval_sub, eval_mul, eval_mul, eval_mul, eval_pow, eval_X, eval_C, ih.1, ih.2,
      show ((i + 1 + 1 : ℕ) : ℤ) = (i : ℤ) + 2 by push_cast; ring, Chebyshev.T_add_two]
    simp only [eval_sub, eval_mul, eval_ofNat, eval_X, Nat.cast_add, Nat.cast_one]
    field_simp
    ring

theorem getXinv_ok (c : List ℝ) (hlen : 2 ≤ c.length) : ∃ xinv d, getXinv c = .ok (xinv, d) := by
  rw [getXinv, if_neg (by omega)]
  exact ⟨_, _, rfl⟩

theorem chebPoly_eval_zero (c : List ℝ) (hlen : 2 ≤ c.length) (xinv : ℕ → ℝ) (d : ℝ) (h : getXinv c = .ok (xinv, d)) :
    (chebPoly c).eval 0 = (d : ℂ) := by
  have hT : ∀ j : ℕ, 1 ≤ j → (Chebyshev.T ℂ ((j - 1 : ℕ) : ℤ)).eval 0 + (Chebyshev.T ℂ ((j + 1 : ℕ) : ℤ)).eval 0 = 0 := by
    intro j hj
    obtain ⟨k, rfl⟩ : ∃ k, j = k + 1 := ⟨j - 1, by omega⟩
    rw [show ((k + 1 + 1 : ℕ) : ℤ) = (k : ℤ) + 2 by push_cast; ring, Chebyshev.T_add_two]
    simp
  have := getXinv_spec Complex.ofRealHom (fun i => (Chebyshev.T ℂ (i : ℤ)).eval 0) 1 0 (c.length - 1) c rfl hlen
    (by simp) (fun j hj _ => by rw [one_mul, hT j hj]; ring) xinv d h
  rw [show c.length - 1 + 1 = c.length by omega] at this
  rw [chebPoly, eval_finsetSum]
  simp only [eval_mul, eval_C]
  simp only [one_mul, zero_mul, sub_zero] at this
  simpa using this.symm

theorem divisionCheb_roots (c : List ℝ) (hn : 2 ≤ c.length - 1) (hc : c.getD (c.length - 1) 0 ≠ 0) (xinv : ℕ → ℝ) (d : ℝ)
    (h : getXinv c = .ok (xinv, d)) (hd : d ≠ 0) :
    ((divisionCheb (c.length - 1) xinv d).map ((↑) : ℝ → ℂ)).charpoly.roots =
      (chebPoly c).roots.map fun r => (scale d : ℂ) / r := by
  have hdC : (d : ℂ) ≠ 0 := by exact_mod_cast hd
  have hsC : (scale d : ℂ) ≠ 0 := by exact_mod_cast scale_ne_zero hd
  have hP : chebPoly c = ∑ i ∈ Finset.range (c.length - 1 + 1), C ((c.getD i 0 : ℝ) : ℂ) * Chebyshev.T ℂ (i : ℤ) := by
    rw [chebPoly, show c.length - 1 + 1 = c.length by omega]
  have hdeg := chebPoly_natDegree c (c.length - 1) (by omega) hc
  set n := c.length - 1 with hnn
  set v : ℕ → ℂ[X] := fun i => X ^ (n - i) * homT (scale d) i with hv
  obtain ⟨hq1, hq2, hq3⟩ := rev_factor (chebPoly c)
    (∑ i ∈ Finset.range (n + 1), C ((c.getD i 0 : ℝ) : ℂ) * v i) (scale d) hsC
    (by rw [chebPoly_eval_zero c (by omega) xinv d h]; exact hdC)
    (by
      intro y hy
      rw [hdeg, hP, eval_finsetSum, eval_finsetSum, Finset.mul_sum]
      refine Finset.sum_congr rfl fun i hi => ?_
      have hi : i ≤ n := by have := Finset.mem_range.1 hi; omega
      simp only [hv, eval_mul, eval_C, eval_pow, eval_X, (homT_eval _ y hy i).1]
      rw [pow_sub₀ _ hy hi]
      field_simp)
  have hv1 : v 0 * φX (scale d) = X * v 1 := by
    simp only [hv, homT, φX_apply]
    rw [show n - 0 = n - 1 + 1 by omega, pow_succ]; ring
  have hv2 : ∀ j, 1 ≤ j → j + 1 ≤ n → 2 * (v j * φX (scale d)) = X * (v (j - 1) + v (j + 1)) := by
    intro j hj hjn
    obtain ⟨k, rfl⟩ : ∃ k, j = k + 1 := ⟨j - 1, by omega⟩
    obtain ⟨m, hm⟩ : ∃ m, n = k + 2 + m := ⟨n - (k + 2), by omega⟩
    simp only [hv, homT, φX_apply, Nat.add_sub_cancel]
    rw [show n - (k + 1) = m + 1 by omega, show n - k = m + 2 by omega, show n - (k + 1 + 1) = m by omega]
    ring
  have hx := getXinv_spec φX v X (φX (scale d)) n c rfl (by omega) hv1 hv2 xinv d h
  -- the residuals of the columns
  let r : ℕ → ℂ[X] := fun j => if hj : j < n then
    X * v j - ∑ i : Fin n, v i.val * φX (divisionCheb n xinv d i ⟨j, hj⟩) else 0
  have hr1 : 1 < n → r 1 = 0 := by
    intro h1
    simp only [r, dif_pos h1]
    rw [divisionCheb_col1 φX v n xinv d ⟨1, h1⟩ rfl, hv1]; ring
  have hr2 : ∀ j, 1 ≤ j → j + 1 < n → r (j - 1) + r (j + 1) = 0 := by
    intro j hj hjn
    simp only [r, dif_pos hjn, dif_pos (show j - 1 < n by omega)]
    have := divisionCheb_col_pair φX v n xinv d ⟨j - 1, by omega⟩ ⟨j + 1, hjn⟩ j hj rfl rfl
    have h2 := hv2 j hj (by omega)
    linear_combination (-1) * this - h2
  let w : ℕ → ℂ[X] := fun j => if j % 2 = 0 then X * (-1) ^ (j / 2) else 0
  have hr0 : C (d : ℂ) * r 0 = X * ∑ i ∈ Finset.range (n + 1), C ((c.getD i 0 : ℝ) : ℂ) * v i := by
    simp only [r, dif_pos (show 0 < n by omega)]
    rw [divisionCheb_col0 φX v n xinv d ⟨0, by omega⟩ rfl, mul_sub, Finset.mul_sum, Finset.mul_sum]
    have e1 : ∑ i ∈ Finset.range (n + 1), X * (C ((c.getD i 0 : ℝ) : ℂ) * v i) =
        ∑ i ∈ Finset.range (n + 1), φX (c.getD i 0) * (X * v i) :=
      Finset.sum_congr rfl fun i _ => by rw [φX_apply]; ring
    rw [e1, ← hx, ← Fin.sum_univ_eq_sum_range (fun i => v i * φX (xinv i)), Finset.mul_sum]
    refine congrArg₂ _ rfl (Finset.sum_congr rfl fun i _ => ?_)
    rw [← φX_apply, ← scale_eq, map_mul, map_mul]; ring
  have hrw : ∀ j, (j < n → r j = C (d : ℂ)⁻¹ * (∑ i ∈ Finset.range (n + 1), C ((c.getD i 0 : ℝ) : ℂ) * v i) * w j) ∧
      (j + 1 < n → r (j + 1) = C (d : ℂ)⁻¹ * (∑ i ∈ Finset.range (n + 1), C ((c.getD i 0 : ℝ) : ℂ) * v i) * w (j + 1)) := by
    intro j
    induction j with
    | zero =>
      refine ⟨fun _ => ?_, fun h1 => by rw [hr1 h1]; simp [w]⟩
      have : r 0 = C (d : ℂ)⁻¹ * (C (d : ℂ) * r 0) := by
        rw [← mul_assoc, ← C_mul, inv_mul_cancel₀ hdC, C_1, one_mul]
      rw [this, hr0]
      simp only [w]
      norm_num
      ring
    | succ j ih =>
      refine ⟨ih.2, fun hj => ?_⟩
      have h1 := hr2 (j + 1) (by omega) hj
      rw [Nat.add_sub_cancel, ih.1 (by omega)] at h1
      have hw : w (j + 1 + 1) = -w j := by
        simp only [w, show (j + 1 + 1) % 2 = j % 2 by omega, show (j + 1 + 1) / 2 = j / 2 + 1 by omega, pow_succ]
        split_ifs <;> ring
      rw [hw]
      linear_combination h1
  rw [charpoly_of_left ((divisionCheb n xinv d).map ((↑) : ℝ → ℂ)) (fun i => v i.val) (fun j => w j.val)
    (C (d : ℂ)⁻¹ * ∑ i ∈ Finset.range (n + 1), C ((c.getD i 0 : ℝ) : ℂ) * v i) ⟨0, by omega⟩ n (by simp [hv, homT]) ?_ ?_
    (Or.inr ?_), roots_C_mul _ (inv_ne_zero hdC), hq3]
  · intro j
    have := (hrw j.val).1 j.isLt
    simp only [r, dif_pos j.isLt] at this
    exact this
  · rw [natDegree_C_mul (inv_ne_zero hdC), hq1, hdeg]
  · rw [coeff_C_mul]
    exact mul_ne_zero (inv_ne_zero hdC) hq2

theorem divCheb_finds {E : Eigen} (hE : E.OK) (c : List ℝ) (ev : Bool) (hlen : 2 ≤ c.length)
    (hc : c.getD (c.length - 1) 0 ≠ 0) (h0 : (chebPoly c).eval 0 ≠ 0) : Finds (divCheb E c ev) (chebPoly c) := by
  obtain ⟨xinv, d, hx⟩ := getXinv_ok c hlen
  rw [chebPoly_eval_zero c hlen xinv d hx] at h0
  have hd : d ≠ 0 := by exact_mod_cast h0
  have hsC : (scale d : ℂ) ≠ 0 := by exact_mod_cast scale_ne_zero hd
  rw [divCheb, hx]
  simp only [if_neg (show ¬c.length ≤ 1 by omega)]
  by_cases h2 : c.length - 1 = 1
  · rw [if_pos h2]
    rw [h2] at hc
    have hcC : ((c.getD 1 0 : ℝ) : ℂ) ≠ 0 := by exact_mod_cast hc
    refine ⟨_, rfl, ?_⟩
    rw [linear_roots (c.getD 0 0 : ℝ) (c.getD 1 0 : ℝ) hcC (chebPoly c)
      (by rw [chebPoly, show c.length = 2 by omega, Finset.sum_range_succ, Finset.sum_range_one]; simp)]
    rw [npDiv, if_neg hcC]; simp
  rw [if_neg h2]
  have hn : 2 ≤ c.length - 1 := by omega
  have hroots := divisionCheb_roots c hn hc xinv d hx hd
  have hr0 : ∀ r ∈ (chebPoly c).roots, r ≠ 0 := by
    rintro r hr rfl
    have := (mem_roots'.1 hr).2
    rw [IsRoot, chebPoly_eval_zero c hlen xinv d hx] at this
    exact h0 this
  have hev0 : ∀ z ∈ ((divisionCheb (c.length - 1) xinv d).map ((↑) : ℝ → ℂ)).charpoly.roots, z ≠ 0 := by
    intro z hz
    rw [hroots] at hz
    obtain ⟨r, hr, rfl⟩ := Multiset.mem_map.1 hz
    exact div_ne_zero hsC (hr0 r hr)
  cases ev with
  | true =>
    refine ⟨_, rfl, ?_⟩
    rw [← Multiset.map_coe, hE.eigvals]
    rw [Multiset.map_congr (g := fun z => some ((scale d : ℂ) / z)) rfl (fun z hz => by
      rw [npDiv, if_neg (hev0 z hz), scale]
      split_ifs
      · simp
      · rw [Option.map_some]; congr 1; rw [one_div, mul_comm, ← div_eq_mul_inv])]
    have := map_inv_inv (chebPoly c).roots _ hsC hr0
    rw [← hroots] at this
    conv_rhs => rw [← this]
    rw [Multiset.map_map]; rfl
  | false =>
    refine ⟨_, rfl, ?_⟩
    rw [eig_list hE _ (fun z => (scale d : ℂ) / z), hroots, map_inv_inv _ _ hsC hr0]
    intro p hp
    have hl0 := hev0 _ (mem_charpoly_roots hE hp)
    have hs1 : lv p.2 1 = (scale d : ℂ) / p.1 * lv p.2 0 := by
      have := lv_left hE hp ⟨1, by omega⟩
      rw [divisionCheb_col1 Complex.ofRealHom (lv p.2) _ xinv d ⟨1, by omega⟩ rfl] at this
      change lv p.2 0 * (scale d : ℂ) = p.1 * lv p.2 1 at this
      field_simp
      linear_combination (-1 : ℂ) * this
    have hu0 : lv p.2 0 ≠ 0 := by
      intro hz
      have hall : ∀ k, (k < c.length - 1 → lv p.2 k = 0) ∧ (k + 1 < c.length - 1 → lv p.2 (k + 1) = 0) := by
        intro k
        induction k with
        | zero => exact ⟨fun _ => hz, fun _ => by rw [hs1, hz, mul_zero]⟩
        | succ k ih =>
          refine ⟨ih.2, fun hk => ?_⟩
          have := divisionCheb_col_pair Complex.ofRealHom (lv p.2) _ xinv d ⟨k, by omega⟩ ⟨k + 1 + 1, hk⟩ (k + 1)
            (by omega) rfl rfl
          rw [lv_left hE hp ⟨k, by omega⟩, lv_left hE hp ⟨k + 1 + 1, hk⟩] at this
          simp only [ih.1 (by omega), ih.2 (by omega), mul_zero, zero_add, zero_mul] at this
          exact (mul_eq_zero.1 this).resolve_left hl0
      obtain ⟨i, hi, hi2⟩ := lv_ne hE hp
      exact hi2 ((hall i).1 hi)
    exact conj_npDiv p.2 1 0 _ hu0 hs1

/-- If `0` is a root, every finite value returned is `0`. -/
theorem divCheb_zero {E : Eigen} (c : List ℝ) (hlen : 3 ≤ c.length) (h0 : (chebPoly c).eval 0 = 0) :
    ∃ l, divCheb E c true = .ok l ∧ ∀ z, some z ∈ l → z = 0 := by
  obtain ⟨xinv, d, hx⟩ := getXinv_ok c (by omega)
  rw [chebPoly_eval_zero c (by omega) xinv d hx] at h0
  have hd : d = 0 := by exact_mod_cast h0
  rw [divCheb, hx]
  simp only [if_neg (show ¬c.length ≤ 1 by omega), if_neg (show ¬c.length - 1 = 1 by omega), if_true]
  refine ⟨_, rfl, fun z hz => ?_⟩
  obtain ⟨y, _, hy⟩ := List.mem_map.1 hz
  rw [hd, if_neg (by simp)] at hy
  rw [Option.map_eq_some_iff] at hy
  obtain ⟨r, _, hr⟩ := hy
  rw [← hr]; simp

end YRoots.OneD
