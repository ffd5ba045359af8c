import Verif.Proofs.QuadSplit
import Mathlib.LinearAlgebra.Matrix.Determinant.Basic
import Mathlib.LinearAlgebra.Matrix.ToLinearEquiv
import Mathlib.Tactic.LinearCombination
import Mathlib.Tactic.FinCases

/-!
# Helper lemmas: the closed forms of the 2-D and 3-D quadratic checks
-/

set_option linter.unusedSectionVars false
set_option linter.unusedVariables false
set_option linter.unusedSimpArgs false

namespace YRoots

open Finset

variable {n : ℕ} {K : Type*} [Field K] [LinearOrder K] [IsStrictOrderedRing K]

theorem boundary_of_not_free {c : Fin n → K} (hc : InCube c) {i : Fin n} (hi : i ∉ free c) : c i = -1 ∨ c i = 1 := by
  rw [mem_free, not_lt] at hi
  have h := le_antisymm (hc i) hi
  rcases abs_eq (zero_le_one' K) |>.1 h with h | h
  · exact .inr h
  · exact .inl h

theorem inside_of_free {c : Fin n → K} {i : Fin n} (hi : i ∈ free c) : inside (c i) := abs_lt.1 (mem_free.1 hi)

theorem nonsing_one {A : Matrix (Fin n) (Fin n) K} {i : Fin n} (h : NonsingOn A {i}) : A i i ≠ 0 := by
  intro h0
  have := h (Pi.single i 1) (fun j hj => Pi.single_eq_of_ne (by simpa using hj) _) (fun j hj => ?_) i
  · simp at this
  · rw [mem_singleton] at hj
    subst hj
    simp [Pi.single_apply, h0]

theorem nonsing_two {A : Matrix (Fin n) (Fin n) K} (hA : A.IsSymm) {i j : Fin n} (hij : i ≠ j)
    (h : NonsingOn A {i, j}) : A i i * A j j - A i j ^ 2 ≠ 0 := by
  intro h0
  have key : ∀ a b : K, A i i * a + A i j * b = 0 → A j i * a + A j j * b = 0 → a = 0 ∧ b = 0 := by
    intro a b h1 h2
    have := h (fun l => Pi.single (M := fun _ => K) i a l + Pi.single (M := fun _ => K) j b l) (fun l hl => by
      simp only [mem_insert, mem_singleton, not_or] at hl
      simp [Pi.single_eq_of_ne hl.1, Pi.single_eq_of_ne hl.2]) (fun l hl => by
      have e : ∑ m, A l m * (Pi.single (M := fun _ => K) i a m + Pi.single (M := fun _ => K) j b m)
          = A l i * a + A l j * b := by
        simp [mul_add, sum_add_distrib, Pi.single_apply]
      rw [e]
      simp only [mem_insert, mem_singleton] at hl
      rcases hl with rfl | rfl
      · exact h1
      · exact h2)
    have hi := this i
    have hj := this j
    simp only [Pi.single_eq_same, Pi.single_eq_of_ne hij, Pi.single_eq_of_ne (Ne.symm hij), add_zero, zero_add] at hi hj
    exact ⟨hi, hj⟩
  have hs : A j i = A i j := hA.apply i j
  obtain ⟨e1, e2⟩ := key (A j j) (-A i j) (by linear_combination h0) (by rw [hs]; ring)
  obtain ⟨e3, e4⟩ := key (-A i j) (A i i) (by ring) (by rw [hs]; linear_combination h0)
  obtain ⟨e5, -⟩ := key 1 0 (by rw [e4]; ring) (by rw [hs]; linear_combination -e2)
  exact one_ne_zero e5

theorem nonsing_univ {A : Matrix (Fin n) (Fin n) K} (h : NonsingOn A univ) : A.det ≠ 0 := by
  intro h0
  obtain ⟨v, hv, hz⟩ := Matrix.exists_mulVec_eq_zero_iff.2 h0
  apply hv
  funext i
  exact h v (fun i hi => absurd (mem_univ i) hi) (fun i _ => congrFun hz i) i

theorem quadA_diag (M : Tensor n K) (i : Fin n) : quadA M i i = 4 * pureQuad M i := by simp [quadA]; ring

/-! ### Two variables -/

theorem coeffs2D_eq (M : Tensor 2 K) (hM : M.Nonempty) :
    coeffs2D M = ![M.pad3.coef fun _ => 0, quadB M 0, quadB M 1, pureQuad M 0, quadA M 0 1, pureQuad M 1] := by
  have h0 := hM 0
  have h1 := hM 1
  have e0 : (fun _ => 0 : Fin 2 → ℕ) = ![0, 0] := by ext i; fin_cases i <;> rfl
  have e1 : (Pi.single 0 1 : Fin 2 → ℕ) = ![1, 0] := by ext i; fin_cases i <;> rfl
  have e2 : (Pi.single 1 1 : Fin 2 → ℕ) = ![0, 1] := by ext i; fin_cases i <;> rfl
  have e3 : (spot2 0 0 : Fin 2 → ℕ) = ![2, 0] := by ext i; fin_cases i <;> rfl
  have e4 : (spot2 0 1 : Fin 2 → ℕ) = ![1, 1] := by ext i; fin_cases i <;> rfl
  have e5 : (spot2 1 1 : Fin 2 → ℕ) = ![0, 2] := by ext i; fin_cases i <;> rfl
  unfold coeffs2D
  simp only [quadB, pureQuad, quadA, Matrix.of_apply, e0, e1, e2, e3, e4, e5, pad3_coef, mem_idx, Fin.forall_fin_two]
  simp [h0, h1]

theorem evalFunc2D_eq (M : Tensor 2 K) (hM : M.Nonempty) (x : Fin 2 → K) :
    evalFunc2D (coeffs2D M) x = evalQ M x := by
  rw [coeffs2D_eq M hM, evalQ_eq_qf]
  have hs : quadA M 1 0 = quadA M 0 1 := (quadA_symm M).apply 0 1
  have d0 : quadA M 0 0 = pureQuad M 0 * 2 * 2 := by simp [quadA]
  have d1 : quadA M 1 1 = pureQuad M 1 * 2 * 2 := by simp [quadA]
  simp only [evalFunc2D, qf, Fin.sum_univ_two, hs, d0, d1]
  simp
  ring

theorem otherSum2D_eq (M : Tensor 2 K) (hM : M.Nonempty) : M.absSum - ∑ i, |coeffs2D M i| = restAbs M := by
  rw [absSum_split, coeffs2D_eq M hM]
  have f0 : univ.filter ((0 : Fin 2) < ·) = {1} := by decide
  have f1 : univ.filter ((1 : Fin 2) < ·) = ∅ := by decide
  have hA : quadA M 0 1 = M.pad3.coef (spot2 0 1) := by simp [quadA]
  simp only [Fin.sum_univ_two, f0, f1, sum_singleton, sum_empty, hA, Fin.sum_univ_six]
  simp
  ring

theorem vec2_eta (c : Fin 2 → K) : c = ![c 0, c 1] := by ext i; fin_cases i <;> rfl

theorem mem_guard {α : Type*} {P : Prop} [Decidable P] {c p : α} (hP : P) (h : c = p) :
    c ∈ (if P then [p] else []) := by rw [if_pos hP, h]; simp

theorem points2D_complete (M : Tensor 2 K) (hM : M.Nonempty) (c : Fin 2 → K) (hc : InCube c)
    (hg : ∀ i ∈ free c, grad (quadA M) (quadB M) c i = 0) (hns : NonsingOn (quadA M) (free c)) :
    c ∈ points2D (coeffs2D M) := by
  have hA := quadA_symm M
  have hs : quadA M 1 0 = quadA M 0 1 := hA.apply 0 1
  have hco := coeffs2D_eq M hM
  generalize coeffs2D M = k at hco ⊢
  have k1 : quadB M 0 = k 1 := by rw [hco]; rfl
  have k2 : quadB M 1 = k 2 := by rw [hco]; rfl
  have d0 : quadA M 0 0 = 4 * k 3 := by rw [quadA_diag, hco]; rfl
  have k4 : quadA M 0 1 = k 4 := by rw [hco]; rfl
  have d1 : quadA M 1 1 = 4 * k 5 := by rw [quadA_diag, hco]; rfl
  simp only [grad, Fin.sum_univ_two] at hg
  have hmem : ∀ i, i ∉ free c → c i ∈ ([-1, 1] : List K) := fun i hi => by
    rcases boundary_of_not_free hc hi with h | h <;> simp [h]
  have eta : ∀ x y, x = c 0 → y = c 1 → c = ![x, y] := by rintro _ _ rfl rfl; exact vec2_eta c
  have ins : ∀ i ∈ free c, ∀ x, x = c i → inside x := by rintro i hi _ rfl; exact inside_of_free hi
  have hpq : ∀ a : K, 4 * a ≠ 0 → a ≠ 0 := fun a h h0 => h (by rw [h0]; ring)
  unfold points2D
  simp only [List.mem_append]
  by_cases h0 : 0 ∈ free c <;> by_cases h1 : 1 ∈ free c
  · have hf : free c = {0, 1} := by ext i; fin_cases i <;> simp [h0, h1]
    have g0 := hg 0 h0
    have g1 := hg 1 h1
    rw [hf] at hns
    have hd := nonsing_two hA (by decide) hns
    simp only [hs, d0, d1, k1, k2, k4] at g0 g1 hd
    have hd' : 16 * k 3 * k 5 - k 4 ^ 2 ≠ 0 := fun h => hd (by linear_combination h)
    right
    have ex : (k 2 * k 4 - 4 * k 1 * k 5) / (16 * k 3 * k 5 - k 4 ^ 2) = c 0 := by
      rw [div_eq_iff hd']; linear_combination k 4 * g1 - 4 * k 5 * g0
    have ey : (k 1 * k 4 - 4 * k 2 * k 3) / (16 * k 3 * k 5 - k 4 ^ 2) = c 1 := by
      rw [div_eq_iff hd']; linear_combination k 4 * g0 - 4 * k 3 * g1
    rw [if_pos hd']
    exact mem_guard ⟨ins 0 h0 _ ex, ins 1 h1 _ ey⟩ (eta _ _ ex ey)
  · have hf : free c = {0} := by ext i; fin_cases i <;> simp [h0, h1]
    rw [hf] at hns
    have hd := nonsing_one hns
    have g0 := hg 0 h0
    simp only [hs, d0, d1, k1, k2, k4] at g0 hd
    left; right
    have ex : -(k 1 + k 4 * c 1) / (4 * k 3) = c 0 := by
      rw [div_eq_iff hd]; linear_combination -g0
    rw [if_pos (hpq _ hd), List.mem_flatMap]
    exact ⟨c 1, hmem 1 h1, mem_guard (ins 0 h0 _ ex) (eta _ _ ex rfl)⟩
  · have hf : free c = {1} := by ext i; fin_cases i <;> simp [h0, h1]
    rw [hf] at hns
    have hd := nonsing_one hns
    have g1 := hg 1 h1
    simp only [hs, d0, d1, k1, k2, k4] at g1 hd
    left; left; right
    have ex : -(k 2 + k 4 * c 0) / (4 * k 5) = c 1 := by
      rw [div_eq_iff hd]; linear_combination -g1
    rw [if_pos (hpq _ hd), List.mem_flatMap]
    exact ⟨c 0, hmem 0 h0, mem_guard (ins 1 h1 _ ex) (eta _ _ rfl ex)⟩
  · left; left; left
    rw [vec2_eta c]
    rcases boundary_of_not_free hc h0 with e0 | e0 <;> rcases boundary_of_not_free hc h1 with e1 | e1 <;>
      rw [e0, e1] <;> simp

/-! ### Three variables -/

theorem coeffs3D_eq (M : Tensor 3 K) (hM : M.Nonempty) :
    coeffs3D M = ![M.pad3.coef fun _ => 0, quadB M 0, quadB M 1, quadB M 2, quadA M 0 1, quadA M 0 2, quadA M 1 2,
      pureQuad M 0, pureQuad M 1, pureQuad M 2] := by
  have h0 := hM 0
  have h1 := hM 1
  have h2 := hM 2
  have e0 : (fun _ => 0 : Fin 3 → ℕ) = ![0, 0, 0] := by ext i; fin_cases i <;> rfl
  have e1 : (Pi.single 0 1 : Fin 3 → ℕ) = ![1, 0, 0] := by ext i; fin_cases i <;> rfl
  have e2 : (Pi.single 1 1 : Fin 3 → ℕ) = ![0, 1, 0] := by ext i; fin_cases i <;> rfl
  have e2' : (Pi.single 2 1 : Fin 3 → ℕ) = ![0, 0, 1] := by ext i; fin_cases i <;> rfl
  have e3 : (spot2 0 0 : Fin 3 → ℕ) = ![2, 0, 0] := by ext i; fin_cases i <;> rfl
  have e4 : (spot2 0 1 : Fin 3 → ℕ) = ![1, 1, 0] := by ext i; fin_cases i <;> rfl
  have e5 : (spot2 0 2 : Fin 3 → ℕ) = ![1, 0, 1] := by ext i; fin_cases i <;> rfl
  have e6 : (spot2 1 2 : Fin 3 → ℕ) = ![0, 1, 1] := by ext i; fin_cases i <;> rfl
  have e7 : (spot2 1 1 : Fin 3 → ℕ) = ![0, 2, 0] := by ext i; fin_cases i <;> rfl
  have e8 : (spot2 2 2 : Fin 3 → ℕ) = ![0, 0, 2] := by ext i; fin_cases i <;> rfl
  have f : ∀ P : Fin 3 → Prop, (∀ i, P i) ↔ P 0 ∧ P 1 ∧ P 2 := fun P =>
    ⟨fun h => ⟨h 0, h 1, h 2⟩, fun h i => by fin_cases i <;> simp [h]⟩
  unfold coeffs3D
  simp only [quadB, pureQuad, quadA, Matrix.of_apply, e0, e1, e2, e2', e3, e4, e5, e6, e7, e8, pad3_coef, mem_idx, f]
  simp [h0, h1, h2]

theorem evalFunc3D_eq (M : Tensor 3 K) (hM : M.Nonempty) (x : Fin 3 → K) :
    evalFunc3D (coeffs3D M) x = evalQ M x := by
  rw [coeffs3D_eq M hM, evalQ_eq_qf]
  have hs : ∀ i j, quadA M j i = quadA M i j := (quadA_symm M).apply
  simp only [evalFunc3D, qf, Fin.sum_univ_three, hs 0 1, hs 0 2, hs 1 2, quadA_diag]
  simp
  ring

theorem otherSum3D_eq (M : Tensor 3 K) (hM : M.Nonempty) : M.absSum - ∑ i, |coeffs3D M i| = restAbs M := by
  rw [absSum_split, coeffs3D_eq M hM]
  have f0 : univ.filter ((0 : Fin 3) < ·) = {1, 2} := by decide
  have f1 : univ.filter ((1 : Fin 3) < ·) = {2} := by decide
  have f2 : univ.filter ((2 : Fin 3) < ·) = ∅ := by decide
  have a1 : quadA M 0 1 = M.pad3.coef (spot2 0 1) := by simp [quadA]
  have a2 : quadA M 0 2 = M.pad3.coef (spot2 0 2) := by simp [quadA]
  have a3 : quadA M 1 2 = M.pad3.coef (spot2 1 2) := by simp [quadA]
  rw [Fin.sum_univ_three, Fin.sum_univ_three, Fin.sum_univ_three, f0, f1, f2, sum_pair (by decide), sum_singleton,
    sum_empty, a1, a2, a3]
  simp only [Fin.sum_univ_succ]
  simp
  ring

theorem vec3_eta (c : Fin 3 → K) : c = ![c 0, c 1, c 2] := by ext i; fin_cases i <;> rfl

theorem points3D_complete (M : Tensor 3 K) (hM : M.Nonempty) (c : Fin 3 → K) (hc : InCube c)
    (hg : ∀ i ∈ free c, grad (quadA M) (quadB M) c i = 0) (hns : NonsingOn (quadA M) (free c)) :
    c ∈ corners3D ++ edges3D (coeffs3D M) ++ faces3D (coeffs3D M) ++ interior3D (coeffs3D M) := by
  have hA := quadA_symm M
  have hco := coeffs3D_eq M hM
  generalize coeffs3D M = k at hco ⊢
  have s1 : quadA M 1 0 = k 4 := by rw [hA.apply 0 1, hco]; rfl
  have s2 : quadA M 2 0 = k 5 := by rw [hA.apply 0 2, hco]; rfl
  have s3 : quadA M 2 1 = k 6 := by rw [hA.apply 1 2, hco]; rfl
  have k4 : quadA M 0 1 = k 4 := by rw [hco]; rfl
  have k5 : quadA M 0 2 = k 5 := by rw [hco]; rfl
  have k6 : quadA M 1 2 = k 6 := by rw [hco]; rfl
  have k1 : quadB M 0 = k 1 := by rw [hco]; rfl
  have k2 : quadB M 1 = k 2 := by rw [hco]; rfl
  have k3 : quadB M 2 = k 3 := by rw [hco]; rfl
  have d0 : quadA M 0 0 = 4 * k 7 := by rw [quadA_diag, hco]; rfl
  have d1 : quadA M 1 1 = 4 * k 8 := by rw [quadA_diag, hco]; rfl
  have d2 : quadA M 2 2 = 4 * k 9 := by rw [quadA_diag, hco]; rfl
  simp only [grad, Fin.sum_univ_three] at hg
  have hmem : ∀ i, i ∉ free c → c i ∈ ([-1, 1] : List K) := fun i hi => by
    rcases boundary_of_not_free hc hi with h | h <;> simp [h]
  have eta : ∀ x y z, x = c 0 → y = c 1 → z = c 2 → c = ![x, y, z] := by
    rintro _ _ _ rfl rfl rfl; exact vec3_eta c
  have ins : ∀ i ∈ free c, ∀ x, x = c i → inside x := by rintro i hi _ rfl; exact inside_of_free hi
  have hpq : ∀ a : K, 4 * a ≠ 0 → a ≠ 0 ∧ 2 * (2 * a) ≠ 0 := fun a h =>
    ⟨fun h0 => h (by rw [h0]; ring), fun h0 => h (by linear_combination h0)⟩
  simp only [List.mem_append]
  by_cases h0 : 0 ∈ free c <;> by_cases h1 : 1 ∈ free c <;> by_cases h2 : 2 ∈ free c
  · -- interior
    have hf : free c = univ := by ext i; fin_cases i <;> simp [h0, h1, h2]
    rw [hf] at hns
    have hd := nonsing_univ hns
    rw [Matrix.det_fin_three] at hd
    have g0 := hg 0 h0
    have g1 := hg 1 h1
    have g2 := hg 2 h2
    simp only [s1, s2, s3, k1, k2, k3, k4, k5, k6, d0, d1, d2] at hd g0 g1 g2
    right
    unfold interior3D
    dsimp only
    rw [if_pos (fun h => hd (by linear_combination h))]
    have hd' : 4 * k 7 * (2 * (2 * k 8) * (2 * (2 * k 9)) - k 6 ^ 2) - k 4 * (2 * (2 * k 9) * k 4 - k 5 * k 6) +
        k 5 * (k 4 * k 6 - 2 * (2 * k 8) * k 5) ≠ 0 := fun h => hd (by linear_combination h)
    refine mem_guard ⟨ins 0 h0 _ ?e0, ins 1 h1 _ ?e1, ins 2 h2 _ ?e2⟩ (eta _ _ _ ?e0 ?e1 ?e2)
    · rw [div_eq_iff hd']
      linear_combination (-(2 * (2 * k 8) * (2 * (2 * k 9)) - k 6 ^ 2)) * g0
        + (2 * (2 * k 9) * k 4 - k 5 * k 6) * g1 - (k 4 * k 6 - 2 * (2 * k 8) * k 5) * g2
    · rw [div_eq_iff hd']
      linear_combination (2 * (2 * k 9) * k 4 - k 5 * k 6) * g0
        - (2 * (2 * k 7) * (2 * (2 * k 9)) - k 5 ^ 2) * g1 + (2 * (2 * k 7) * k 6 - k 4 * k 5) * g2
    · rw [div_eq_iff hd']
      linear_combination (-(k 4 * k 6 - 2 * (2 * k 8) * k 5)) * g0
        + (2 * (2 * k 7) * k 6 - k 4 * k 5) * g1 - (2 * (2 * k 7) * (2 * (2 * k 8)) - k 4 ^ 2) * g2
  · -- z on the boundary
    have hf : free c = {0, 1} := by ext i; fin_cases i <;> simp [h0, h1, h2]
    rw [hf] at hns
    have hd := nonsing_two hA (by decide) hns
    have g0 := hg 0 h0
    have g1 := hg 1 h1
    simp only [s1, s2, s3, k1, k2, k3, k4, k5, k6, d0, d1, d2] at hd g0 g1
    left; right
    unfold faces3D
    dsimp only
    simp only [List.mem_append]
    right
    have hd' : 2 * (2 * k 7) * (2 * (2 * k 8)) - k 4 ^ 2 ≠ 0 := fun h => hd (by linear_combination h)
    rw [if_pos hd', List.mem_flatMap]
    refine ⟨c 2, hmem 2 h2, mem_guard ⟨ins 0 h0 _ ?p1, ins 1 h1 _ ?q1⟩ (eta _ _ _ ?p1 ?q1 rfl)⟩
    · rw [div_eq_iff hd']; linear_combination -(2 * (2 * k 8)) * g0 + k 4 * g1
    · rw [div_eq_iff hd']; linear_combination k 4 * g0 - (2 * (2 * k 7)) * g1
  · -- y on the boundary
    have hf : free c = {0, 2} := by ext i; fin_cases i <;> simp [h0, h1, h2]
    rw [hf] at hns
    have hd := nonsing_two hA (by decide) hns
    have g0 := hg 0 h0
    have g2 := hg 2 h2
    simp only [s1, s2, s3, k1, k2, k3, k4, k5, k6, d0, d1, d2] at hd g0 g2
    left; right
    unfold faces3D
    dsimp only
    simp only [List.mem_append]
    left; right
    have hd' : 2 * (2 * k 7) * (2 * (2 * k 9)) - k 5 ^ 2 ≠ 0 := fun h => hd (by linear_combination h)
    rw [if_pos hd', List.mem_flatMap]
    refine ⟨c 1, hmem 1 h1, mem_guard ⟨ins 0 h0 _ ?p2, ins 2 h2 _ ?q2⟩ (eta _ _ _ ?p2 rfl ?q2)⟩
    · rw [div_eq_iff hd']; linear_combination -(2 * (2 * k 9)) * g0 + k 5 * g2
    · rw [div_eq_iff hd']; linear_combination k 5 * g0 - (2 * (2 * k 7)) * g2
  · -- only x free
    have hf : free c = {0} := by ext i; fin_cases i <;> simp [h0, h1, h2]
    rw [hf] at hns
    have hd := nonsing_one hns
    have g0 := hg 0 h0
    simp only [s1, s2, s3, k1, k2, k3, k4, k5, k6, d0, d1, d2] at hd g0
    left; left; right
    unfold edges3D
    dsimp only
    simp only [List.mem_append]
    right
    rw [if_pos (hpq _ hd).1, List.mem_flatMap]
    refine ⟨c 1, hmem 1 h1, List.mem_flatMap.2 ⟨c 2, hmem 2 h2, mem_guard (ins 0 h0 _ ?p3) (eta _ _ _ ?p3 rfl rfl)⟩⟩
    rw [div_eq_iff (hpq _ hd).2]; linear_combination -g0
  · -- x on the boundary
    have hf : free c = {1, 2} := by ext i; fin_cases i <;> simp [h0, h1, h2]
    rw [hf] at hns
    have hd := nonsing_two hA (by decide) hns
    have g1 := hg 1 h1
    have g2 := hg 2 h2
    simp only [s1, s2, s3, k1, k2, k3, k4, k5, k6, d0, d1, d2] at hd g1 g2
    left; right
    unfold faces3D
    dsimp only
    simp only [List.mem_append]
    left; left
    have hd' : 2 * (2 * k 8) * (2 * (2 * k 9)) - k 6 ^ 2 ≠ 0 := fun h => hd (by linear_combination h)
    rw [if_pos hd', List.mem_flatMap]
    refine ⟨c 0, hmem 0 h0, mem_guard ⟨ins 1 h1 _ ?p4, ins 2 h2 _ ?q4⟩ (eta _ _ _ rfl ?p4 ?q4)⟩
    · rw [div_eq_iff hd']; linear_combination -(2 * (2 * k 9)) * g1 + k 6 * g2
    · rw [div_eq_iff hd']; linear_combination k 6 * g1 - (2 * (2 * k 8)) * g2
  · -- only y free
    have hf : free c = {1} := by ext i; fin_cases i <;> simp [h0, h1, h2]
    rw [hf] at hns
    have hd := nonsing_one hns
    have g1 := hg 1 h1
    simp only [s1, s2, s3, k1, k2, k3, k4, k5, k6, d0, d1, d2] at hd g1
    left; left; right
    unfold edges3D
    dsimp only
    simp only [List.mem_append]
    left; right
    rw [if_pos (hpq _ hd).1, List.mem_flatMap]
    refine ⟨c 0, hmem 0 h0, List.mem_flatMap.2 ⟨c 2, hmem 2 h2, mem_guard (ins 1 h1 _ ?p5) (eta _ _ _ rfl ?p5 rfl)⟩⟩
    rw [div_eq_iff (hpq _ hd).2]; linear_combination -g1
  · -- only z free
    have hf : free c = {2} := by ext i; fin_cases i <;> simp [h0, h1, h2]
    rw [hf] at hns
    have hd := nonsing_one hns
    have g2 := hg 2 h2
    simp only [s1, s2, s3, k1, k2, k3, k4, k5, k6, d0, d1, d2] at hd g2
    left; left; right
    unfold edges3D
    dsimp only
    simp only [List.mem_append]
    left; left
    rw [if_pos (hpq _ hd).1, List.mem_flatMap]
    refine ⟨c 0, hmem 0 h0, List.mem_flatMap.2 ⟨c 1, hmem 1 h1, mem_guard (ins 2 h2 _ ?p6) (eta _ _ _ rfl rfl ?p6)⟩⟩
    rw [div_eq_iff (hpq _ hd).2]; linear_combination -g2
  · left; left; left
    rw [vec3_eta c]
    rcases boundary_of_not_free hc h0 with e0 | e0 <;> rcases boundary_of_not_free hc h1 with e1 | e1 <;>
      rcases boundary_of_not_free hc h2 with e2 | e2 <;> rw [e0, e1, e2] <;> simp [corners3D]

end YRoots
