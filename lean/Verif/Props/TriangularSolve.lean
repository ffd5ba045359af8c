import Verif.Model.TriangularSolve
import Mathlib.Data.List.GetD
import Mathlib.Data.List.Range
import Mathlib.Data.List.Perm.Basic
import Mathlib.Data.List.Nodup
import Mathlib.Tactic.Ring
import Mathlib.Tactic.LinearCombination
import Mathlib.Algebra.BigOperators.Ring.Finset
import Mathlib.Data.Rat.Defs
import Mathlib.Algebra.Field.Rat

/-!
# C62: `inverse_P` inverts permutations, `triangular_solve` computes the reduced row echelon form
-/

namespace YRoots.Legacy

variable {K : Type*} [Field K]

/-! ### Specification -/

/-- `A` (of shape `(m, n)`) is in row echelon form without zero rows, with the pivot of row `i` in column `p i`. -/
structure Echelon (m n : ℕ) (A : ℕ → ℕ → K) (p : ℕ → ℕ) : Prop where
  lt : ∀ i < m, p i < n
  pivot : ∀ i < m, A i (p i) ≠ 0
  before : ∀ i < m, ∀ k < p i, A i k = 0
  mono : ∀ i j, i < j → j < m → p i < p j

/-- The reduced form: pivots are one and alone in their columns. -/
structure Reduced (m n : ℕ) (R : ℕ → ℕ → K) (p : ℕ → ℕ) : Prop extends Echelon m n R p where
  unit : ∀ i < m, ∀ j < m, R i (p j) = if i = j then 1 else 0

/-- The rows of `A` and `R` (of shape `(m, n)`) define the same system of equations. -/
def SameKernel (m n : ℕ) (A R : ℕ → ℕ → K) : Prop :=
  ∀ v : ℕ → K, (∀ i < m, ∑ k ∈ Finset.range n, A i k * v k = 0) ↔ ∀ i < m, ∑ k ∈ Finset.range n, R i k * v k = 0

/-! ### Helper lemmas -/

theorem inverseP_aux : ∀ (P : List ℕ) (s : ℕ) (init : List ℕ), P.Nodup → (∀ x ∈ P, x < init.length) →
    ((P.zipIdx s).foldl (fun inv p => inv.set p.1 p.2) init).length = init.length ∧
    (∀ t (h : t < P.length), ((P.zipIdx s).foldl (fun inv p => inv.set p.1 p.2) init).getD P[t] 0 = s + t) ∧
    ∀ x ∉ P, ((P.zipIdx s).foldl (fun inv p => inv.set p.1 p.2) init).getD x 0 = init.getD x 0
  | [], s, init, _, _ => by simp
  | a :: P, s, init, hn, hlt => by
    obtain ⟨ha, hn'⟩ := List.nodup_cons.1 hn
    obtain ⟨h1, h2, h3⟩ := inverseP_aux P (s + 1) (init.set a s) hn'
      (fun x hx => by simpa using hlt x (List.mem_cons_of_mem _ hx))
    have hal := hlt a List.mem_cons_self
    simp only [List.zipIdx_cons, List.foldl_cons]
    refine ⟨by simpa using h1, fun t ht => ?_, fun x hx => ?_⟩
    · cases t with
      | zero =>
        rw [List.getElem_cons_zero, h3 a ha, List.getD_eq_getElem _ _ (by simpa using hal)]
        simp
      | succ t =>
        rw [List.getElem_cons_succ, h2 t (by simpa using ht)]
        omega
    · rw [h3 x fun h => hx (List.mem_cons_of_mem _ h)]
      have hne : a ≠ x := fun h => hx (h ▸ List.mem_cons_self)
      by_cases hxl : x < init.length
      · rw [List.getD_eq_getElem _ _ (by simpa using hxl), List.getD_eq_getElem _ _ hxl, List.getElem_set_ne hne]
      · rw [List.getD_eq_default _ _ (by simpa using hxl), List.getD_eq_default _ _ (by simpa using hxl)]

/-- A triangular system with a zero right-hand side from row `i₀` on. -/
theorem tri_zero (m : ℕ) (C : ℕ → ℕ → K) (w : ℕ → K) (i₀ : ℕ) (hd : ∀ i < m, C i i ≠ 0)
    (h : ∀ i < m, i₀ ≤ i → ∑ j ∈ Finset.Ico i m, C i j * w j = 0) : ∀ i < m, i₀ ≤ i → w i = 0 := by
  have : ∀ t i, m - i = t → i < m → i₀ ≤ i → w i = 0 := by
    intro t
    induction t using Nat.strong_induction_on with
    | _ t ih =>
      intro i hi hm h0
      have h1 := h i hm h0
      rw [Finset.sum_eq_sum_Ico_succ_bot hm, Finset.sum_eq_zero, add_zero] at h1
      · exact (mul_eq_zero.1 h1).resolve_left (hd i hm)
      · intro j hj
        rw [Finset.mem_Ico] at hj
        rw [ih (m - j) (by omega) j rfl hj.2 (by omega), mul_zero]
  exact fun i hm h0 => this _ i rfl hm h0

theorem backSub_spec [DecidableEq K] (m : ℕ) (C : ℕ → ℕ → K) (d : ℕ → K) (hd : ∀ i < m, C i i ≠ 0) :
    ∀ t ≤ m, ∀ i, m - t ≤ i → i < m → ∑ j ∈ Finset.Ico i m, C i j * backSub m C d t j = d i
  | 0, _, i, h1, h2 => by omega
  | t + 1, ht, i, h1, h2 => by
    have ih := backSub_spec m C d hd t (by omega)
    have hne : ∀ i, m - (t + 1) < i → ∑ j ∈ Finset.Ico i m, C i j * backSub m C d (t + 1) j =
        ∑ j ∈ Finset.Ico i m, C i j * backSub m C d t j := by
      intro i hi
      refine Finset.sum_congr rfl fun j hj => ?_
      rw [Finset.mem_Ico] at hj
      congr 1
      conv_lhs => unfold backSub
      exact Function.update_of_ne (show j ≠ m - 1 - t by omega) _ _
    by_cases hi : i = m - 1 - t
    · rw [Finset.sum_eq_sum_Ico_succ_bot h2]
      have e1 : ∑ j ∈ Finset.Ico (i + 1) m, C i j * backSub m C d (t + 1) j =
          ∑ j ∈ Finset.Ico (i + 1) m, C i j * backSub m C d t j := by
        refine Finset.sum_congr rfl fun j hj => ?_
        rw [Finset.mem_Ico] at hj
        congr 1
        conv_lhs => unfold backSub
        exact Function.update_of_ne (show j ≠ m - 1 - t by omega) _ _
      have e2 : backSub m C d (t + 1) i = (d i - ∑ j ∈ Finset.Ico (i + 1) m, C i j * backSub m C d t j) / C i i := by
        rw [hi]
        conv_lhs => unfold backSub
        exact Function.update_self _ _ _
      rw [e1, e2, mul_div_cancel₀ _ (hd i h2)]
      ring
    · rw [hne i (by omega)]
      exact ih i (by omega) h2

theorem pivotScan_spec [DecidableEq K] {m n : ℕ} {A : ℕ → ℕ → K} {p : ℕ → ℕ} (hE : Echelon m n A p) :
    ∀ r j k, k + r = n → j ≤ m → (∀ i, j ≤ i → i < m → k ≤ p i) →
      (pivotScan m A r j k).1 = (List.range' j (m - j)).map p ∧
      ((pivotScan m A r j k).1 ++ (pivotScan m A r j k).2).Perm (List.range' k r)
  | 0, j, k, hk, hj, hp => by
    have hjm : j = m := by
      by_contra hne
      have h1 := hp j le_rfl (by omega)
      have h2 := hE.lt j (by omega)
      omega
    subst hjm
    simp [pivotScan]
  | r + 1, j, k, hk, hj, hp => by
    unfold pivotScan
    by_cases hjm : j < m
    · simp only [if_pos hjm]
      by_cases hA : A j k ≠ 0
      · simp only [if_pos hA]
        have hpj : p j = k := by
          have h1 := hp j le_rfl hjm
          by_contra hne
          exact hA (hE.before j hjm k (by omega))
        obtain ⟨ih1, ih2⟩ := pivotScan_spec hE r (j + 1) (k + 1) (by omega) (by omega) (fun i h1 h2 => by
          have := hE.mono j i (by omega) h2
          omega)
        refine ⟨?_, ?_⟩
        · rw [ih1, show m - j = (m - (j + 1)) + 1 by omega, List.range'_succ, List.map_cons, hpj]
        · rw [List.range'_succ, List.cons_append]
          exact ih2.cons k
      · simp only [if_neg hA]
        have hA0 : A j k = 0 := not_not.1 hA
        obtain ⟨ih1, ih2⟩ := pivotScan_spec hE r j (k + 1) (by omega) hj (fun i h1 h2 => by
          have h3 := hp i h1 h2
          rcases Nat.lt_or_ge k (p i) with h | h
          · exact h
          · exfalso
            have h4 : p i = k := by omega
            rcases Nat.eq_or_lt_of_le h1 with e | e
            · subst e; exact hE.pivot j hjm (by rw [h4]; exact hA0)
            · have := hE.mono j i e h2
              have := hp j le_rfl hjm
              omega)
        refine ⟨ih1, ?_⟩
        rw [List.range'_succ]
        exact List.perm_middle.trans (ih2.cons k)
    · simp only [if_neg hjm]
      have : m - j = 0 := by omega
      simp [this]

/-! ### The properties -/

/-- C62: `inverse_P` inverts permutations of `0, …, len(P) - 1`. -/
theorem C62_inverse_P (P : List ℕ) (hP : P.Perm (List.range P.length)) :
    (inverseP P).length = P.length ∧ (∀ t (h : t < P.length), (inverseP P).getD P[t] 0 = t) ∧
      ∀ x < P.length, ∃ h : (inverseP P).getD x 0 < P.length, P[(inverseP P).getD x 0] = x := by
  have hlt : ∀ x ∈ P, x < P.length := fun x hx => by simpa using hP.mem_iff.1 hx
  obtain ⟨h1, h2, -⟩ := inverseP_aux P 0 (List.replicate P.length 0) (hP.nodup_iff.2 List.nodup_range)
    (fun x hx => by simpa using hlt x hx)
  refine ⟨by simpa [inverseP] using h1, fun t h => by simpa [inverseP] using h2 t h, fun x hx => ?_⟩
  obtain ⟨t, ht, rfl⟩ := List.getElem_of_mem (hP.mem_iff.2 (List.mem_range.2 hx))
  have := h2 t ht
  rw [Nat.zero_add] at this
  exact ⟨by rw [inverseP, this]; exact ht, by simp only [inverseP, this]⟩

/-- C62, the part that is right: for a matrix in echelon form without zero rows that is not square, `triangular_solve` returns
the reduced row echelon form. -/
theorem C62_triangular_partial [DecidableEq K] {m n : ℕ} {A : ℕ → ℕ → K} {p : ℕ → ℕ} (hE : Echelon m n A p) (hmn : m ≠ n) :
    ∃ R, triangularSolve m n A = .ok R ∧ Reduced m n R p ∧ SameKernel m n A R := by
  obtain ⟨hc, hperm⟩ := pivotScan_spec hE n 0 0 (by omega) (by omega) (fun _ _ _ => Nat.zero_le _)
  set c := (pivotScan m A n 0 0).1 with hcdef
  set d := (pivotScan m A n 0 0).2 with hddef
  have hcl : c.length = m := by rw [hc]; simp
  have hcd : ∀ t < m, c.getD t 0 = p t := by
    intro t ht
    rw [List.getD_eq_getElem _ _ (by omega)]
    simp only [hc, List.getElem_map, List.getElem_range']
    congr 1
    omega
  rw [show List.range' 0 n = List.range n from List.range_eq_range'.symm] at hperm
  have hlen : (c ++ d).length = n := by rw [hperm.length_eq, List.length_range]
  obtain ⟨-, hinv, -⟩ := C62_inverse_P (c ++ d) (by rw [hlen]; exact hperm)
  set C : ℕ → ℕ → K := fun i j => A i (c.getD j 0) with hC
  have hdiag : ∀ i < m, C i i ≠ 0 := fun i hi => by
    simp only [hC, hcd i hi]
    exact hE.pivot i hi
  set R : ℕ → ℕ → K := fun i k => if (inverseP (c ++ d)).getD k 0 < m then (if i = (inverseP (c ++ d)).getD k 0 then 1 else 0)
    else backSub m C (fun i => A i (d.getD ((inverseP (c ++ d)).getD k 0 - m) 0)) m i with hR
  have hsolve : triangularSolve m n A = .ok R := by
    unfold triangularSolve
    rw [if_pos hmn]
    simp only
    rw [if_neg (not_not.2 hcl), if_neg]
    rintro ⟨i, hi, h⟩
    exact hdiag i (List.mem_range.1 hi) h
  have hRp : ∀ i, ∀ t < m, R i (p t) = if i = t then 1 else 0 := by
    intro i t ht
    have h1 := hinv t (by rw [List.length_append]; omega)
    rw [List.getElem_append_left (by omega), ← List.getD_eq_getElem _ 0, hcd t ht] at h1
    simp only [hR, h1, if_pos ht]
  have hup : ∀ i < m, ∀ t < i, C i t = 0 := fun i hi t ht => by
    simp only [hC, hcd t (by omega)]
    exact hE.before i hi _ (hE.mono t i ht hi)
  -- every column of `R` solves the triangular system for the column of `A`
  have hcol : ∀ k < n, ∀ i < m, ∑ j ∈ Finset.Ico i m, C i j * R j k = A i k := by
    intro k hk i hi
    obtain ⟨t, ht, htk⟩ := List.getElem_of_mem (hperm.mem_iff.2 (List.mem_range.2 hk))
    have h1 := hinv t ht
    rw [htk] at h1
    rcases Nat.lt_or_ge t m with htm | htm
    · rw [List.getElem_append_left (by omega), ← List.getD_eq_getElem _ 0, hcd t htm] at htk
      subst htk
      have : ∀ j ∈ Finset.Ico i m, C i j * R j (p t) = if j = t then C i t else 0 := by
        intro j _
        rw [hRp j t htm]
        split_ifs with e
        · rw [e, mul_one]
        · rw [mul_zero]
      rw [Finset.sum_congr rfl this, Finset.sum_ite_eq']
      have hCt : C i t = A i (p t) := by simp only [hC, hcd t htm]
      split_ifs with hmem
      · exact hCt
      · rw [Finset.mem_Ico, not_and_or] at hmem
        rw [← hCt, hup i hi t (by omega)]
    · have hd1 : d.getD (t - m) 0 = k := by
        rw [List.getElem_append_right (by omega)] at htk
        simp only [hcl] at htk
        rw [List.getD_eq_getElem _ _ (by rw [List.length_append] at ht; omega)]
        exact htk
      have hRk : ∀ j, R j k = backSub m C (fun i => A i k) m j := by
        intro j
        simp only [hR, h1, if_neg (not_lt.2 htm), hd1]
      rw [Finset.sum_congr rfl fun j _ => by rw [hRk j]]
      exact backSub_spec m C _ hdiag m le_rfl i (by omega) hi
  refine ⟨R, hsolve, ⟨⟨hE.lt, fun i hi => ?_, fun i hi k hk => ?_, hE.mono⟩, fun i _ j hj => hRp i j hj⟩, fun v => ?_⟩
  · rw [hRp i i hi]; simp
  · refine tri_zero m C (fun j => R j k) i hdiag (fun i' hi' hle => ?_) i hi le_rfl
    rw [hcol k (by have := hE.lt i hi; omega) i' hi']
    refine hE.before i' hi' k ?_
    rcases Nat.eq_or_lt_of_le hle with e | e
    · rwa [← e]
    · exact hk.trans (hE.mono i i' e hi')
  · have hsum : ∀ i < m, ∑ k ∈ Finset.range n, A i k * v k =
        ∑ j ∈ Finset.Ico i m, C i j * ∑ k ∈ Finset.range n, R j k * v k := by
      intro i hi
      simp only [Finset.mul_sum]
      rw [Finset.sum_comm]
      refine Finset.sum_congr rfl fun k hk => ?_
      rw [← hcol k (Finset.mem_range.1 hk) i hi, Finset.sum_mul]
      exact Finset.sum_congr rfl fun j _ => by ring
    constructor
    · intro h i hi
      exact tri_zero m C (fun j => ∑ k ∈ Finset.range n, R j k * v k) 0 hdiag
        (fun i hi _ => by rw [← hsum i hi]; exact h i hi) i hi (Nat.zero_le _)
    · intro h i hi
      rw [hsum i hi]
      refine Finset.sum_eq_zero fun j hj => ?_
      rw [h j (Finset.mem_Ico.1 hj).2, mul_zero]

/-- The echelon matrix with rows `(1, 2)` and `(0, 0)`. -/
def squareEchelon : ℕ → ℕ → ℚ := fun i k => if i = 0 ∧ k = 0 then 1 else if i = 0 ∧ k = 1 then 2 else 0

/-- C62 is false for square matrices: for every square matrix the identity is returned, which for the echelon matrix with rows
`(1, 2)`, `(0, 0)` has another kernel. -/
theorem C62_square_false : ∃ R, triangularSolve 2 2 squareEchelon = .ok R ∧ ¬ SameKernel 2 2 squareEchelon R := by
  refine ⟨_, rfl, fun h => ?_⟩
  have := (h fun k => if k = 0 then 2 else -1).1 (by
    intro i hi
    rw [Finset.sum_range_succ, Finset.sum_range_one]
    match i, hi with
    | 0, _ => decide +kernel
    | 1, _ => decide +kernel) 0 (by norm_num)
  rw [Finset.sum_range_succ, Finset.sum_range_one] at this
  exact absurd this (by decide +kernel)

/-- The echelon matrix with rows `(0, 2, 4, 6)` and `(0, 0, 0, 3)`; the result has the rows `(0, 1, 2, 0)`,
`(0, 0, 0, 1)`. -/
def wideEchelon : ℕ → ℕ → ℚ := fun i k => if i = 0 then 2 * k else if k = 3 then 3 else 0

theorem wideEchelon_ok : Echelon 2 4 wideEchelon fun i => if i = 0 then 1 else 3 where
  lt i hi := by match i, hi with
    | 0, _ => decide
    | 1, _ => decide
  pivot i hi := by match i, hi with
    | 0, _ => decide +kernel
    | 1, _ => decide +kernel
  before i hi k hk := by match i, hi, k, hk with
    | 0, _, 0, _ => decide +kernel
    | 1, _, 0, _ => decide +kernel
    | 1, _, 1, _ => decide +kernel
    | 1, _, 2, _ => decide +kernel
  mono i j hij hj := by
    obtain rfl : i = 0 := by omega
    obtain rfl : j = 1 := by omega
    decide

example : ∃ R, triangularSolve 2 4 wideEchelon = .ok R ∧ Reduced 2 4 R (fun i => if i = 0 then 1 else 3) ∧ SameKernel 2 4 wideEchelon R :=
  C62_triangular_partial wideEchelon_ok (by decide)

example : inverseP [2, 0, 3, 1] = [1, 3, 0, 2] := by decide

end YRoots.Legacy
