import Verif.Model.IntervalChecks
import Verif.Proofs.QuadND

/-!
# Helper lemmas: the quadratic checks of the legacy solver on subintervals
-/

set_option linter.unusedSectionVars false
set_option linter.unusedVariables false
set_option linter.unusedSimpArgs false

namespace YRoots.Legacy

open Finset

variable {n : ℕ} {K : Type*} [Field K] [LinearOrder K] [IsStrictOrderedRing K]

/-- Coordinates strictly inside the box. -/
def freeB (bx : Box n K) (x : Fin n → K) : Finset (Fin n) := univ.filter fun i => bx.lo i < x i ∧ x i < bx.hi i

theorem mem_freeB {bx : Box n K} {x : Fin n → K} {i : Fin n} : i ∈ freeB bx x ↔ bx.lo i < x i ∧ x i < bx.hi i := by
  simp [freeB]

/-- The affine parametrisation of a box by the cube. -/
def par (bx : Box n K) (t : Fin n → K) : Fin n → K := fun i => (bx.lo i + bx.hi i) / 2 + (bx.hi i - bx.lo i) / 2 * t i

theorem quad_range_box (A : Matrix (Fin n) (Fin n) K) (hA : A.IsSymm) (B : Fin n → K) (k : K) (bx : Box n K)
    (hbx : ∀ i, bx.lo i < bx.hi i) (C : (Fin n → K) → Prop)
    (hC : ∀ c, bx.Mem c → (∀ i ∈ freeB bx c, grad A B c i = 0) → NonsingOn A (freeB bx c) →
      ((∀ i ∈ freeB bx c, 0 ≤ A i i) ∨ ∀ i ∈ freeB bx c, A i i ≤ 0) → C c)
    (x : Fin n → K) (hx : bx.Mem x) :
    (∃ c, C c ∧ qf A B k c ≤ qf A B k x) ∧ ∃ c, C c ∧ qf A B k x ≤ qf A B k c := by
  classical
  have hh : ∀ i, 0 < (bx.hi i - bx.lo i) / 2 := fun i => by have := hbx i; linarith
  obtain ⟨h, hdef⟩ : ∃ h : Fin n → K, ∀ i, h i = (bx.hi i - bx.lo i) / 2 := ⟨_, fun _ => rfl⟩
  obtain ⟨m, mdef⟩ : ∃ m : Fin n → K, ∀ i, m i = (bx.lo i + bx.hi i) / 2 := ⟨_, fun _ => rfl⟩
  have hp : ∀ i, 0 < h i := fun i => by rw [hdef]; exact hh i
  have hpar : ∀ t i, par bx t i = m i + h i * t i := fun t i => by rw [hdef, mdef]; rfl
  have hlo : ∀ i, bx.lo i = m i - h i := fun i => by rw [hdef, mdef]; ring
  have hhi : ∀ i, bx.hi i = m i + h i := fun i => by rw [hdef, mdef]; ring
  let A' : Matrix (Fin n) (Fin n) K := Matrix.of fun i j => h i * A i j * h j
  let B' : Fin n → K := fun i => h i * grad A B m i
  have hA' : A'.IsSymm := by
    ext i j
    simp only [A', Matrix.transpose_apply, Matrix.of_apply]
    rw [hA.apply i j]; ring
  have hqf : ∀ t, qf A' B' (qf A B k m) t = qf A B k (par bx t) := by
    intro t
    have e : par bx t = fun i => m i + 1 * (h i * t i) := by funext i; rw [hpar]; ring
    rw [e, qf_line A hA B k m (fun i => h i * t i) 1]
    unfold qf
    simp only [A', B', Matrix.of_apply]
    have e1 : ∑ i, h i * grad A B m i * t i = ∑ i, grad A B m i * (h i * t i) :=
      sum_congr rfl fun i _ => by ring
    have e2 : ∑ i, ∑ j, h i * A i j * h j * t i * t j = ∑ i, (∑ j, A i j * (h j * t j)) * (h i * t i) := by
      refine sum_congr rfl fun i _ => ?_
      rw [sum_mul]
      exact sum_congr rfl fun j _ => by ring
    rw [e1, e2]; ring
  have hgrad : ∀ t i, grad A' B' t i = h i * grad A B (par bx t) i := by
    intro t i
    unfold grad
    simp only [A', B', Matrix.of_apply, grad]
    have e1 : ∑ j, A i j * par bx t j = ∑ j, A i j * m j + ∑ j, A i j * (h j * t j) := by
      rw [← sum_add_distrib]
      exact sum_congr rfl fun j _ => by rw [hpar]; ring
    have e2 : ∑ j, h i * A i j * h j * t j = h i * ∑ j, A i j * (h j * t j) := by
      rw [mul_sum]; exact sum_congr rfl fun j _ => by ring
    rw [e1, e2]; ring
  have hfree : ∀ t, freeB bx (par bx t) = free t := by
    intro t
    ext i
    rw [mem_freeB, mem_free, hpar, hlo, hhi, abs_lt]
    have := hp i
    constructor
    · rintro ⟨h1, h2⟩
      constructor
      · nlinarith
      · nlinarith
    · rintro ⟨h1, h2⟩
      constructor
      · nlinarith
      · nlinarith
  have hmem : ∀ t, InCube t → bx.Mem (par bx t) := by
    intro t ht i
    have := abs_le.1 (ht i)
    have := hp i
    rw [hpar, hlo, hhi]
    constructor <;> nlinarith
  have hns : ∀ S, NonsingOn A' S → NonsingOn A S := by
    intro S hS v hv hz i
    have := hS (fun i => v i / h i) (fun i hi => by rw [hv i hi, zero_div]) (fun i hi => by
      have e : ∑ j, A' i j * (v j / h j) = h i * ∑ j, A i j * v j := by
        rw [mul_sum]
        refine sum_congr rfl fun j _ => ?_
        simp only [A', Matrix.of_apply]
        have := (hp j).ne'
        field_simp
      rw [e, hz i hi, mul_zero]) i
    exact (div_eq_zero_iff.1 this).resolve_right (hp i).ne'
  obtain ⟨t, rfl⟩ : ∃ t, par bx t = x := by
    refine ⟨fun i => (x i - m i) / h i, ?_⟩
    funext i
    rw [hpar, mul_div_cancel₀ _ (hp i).ne']; ring
  have ht : InCube t := by
    intro i
    have := hx i
    rw [hpar, hlo, hhi] at this
    have := hp i
    rw [abs_le]
    constructor <;> nlinarith
  have key := quad_range A' hA' B' (qf A B k m) (fun t => C (par bx t)) (fun c hc hg hn hd => by
    have hd' : ∀ i, A' i i = h i ^ 2 * A i i := fun i => by simp only [A', Matrix.of_apply]; ring
    refine hC _ (hmem c hc) ?_ ?_ ?_
    · intro i hi
      rw [hfree] at hi
      have := hg i hi
      rw [hgrad] at this
      exact (mul_eq_zero.1 this).resolve_left (hp i).ne'
    · rw [hfree]; exact hns _ hn
    · rw [hfree]
      rcases hd with hd | hd
      · left
        intro i hi
        have := hd i hi
        rw [hd'] at this
        by_contra h0
        push Not at h0
        have := mul_neg_of_pos_of_neg (pow_pos (hp i) 2) h0
        linarith
      · right
        intro i hi
        have := hd i hi
        rw [hd'] at this
        by_contra h0
        push Not at h0
        have := mul_pos (pow_pos (hp i) 2) h0
        linarith) t ht
  simp only [hqf] at key
  obtain ⟨⟨c1, h1, h2⟩, c2, h3, h4⟩ := key
  exact ⟨⟨_, h1, h2⟩, _, h3, h4⟩

theorem bound_of_not_freeB {bx : Box n K} {c : Fin n → K} (hc : bx.Mem c) {i : Fin n} (hi : i ∉ freeB bx c) :
    c i = bx.lo i ∨ c i = bx.hi i := by
  rw [mem_freeB, not_and_or, not_lt, not_lt] at hi
  rcases hi with h | h
  · exact .inl (le_antisymm h (hc i).1)
  · exact .inr (le_antisymm (hc i).2 h)

theorem inside_of_freeB {bx : Box n K} {c : Fin n → K} {i : Fin n} (hi : i ∈ freeB bx c) : insideAx bx i (c i) :=
  mem_freeB.1 hi

theorem ends_mem {bx : Box n K} (ho : ∀ i, bx.lo i ≤ bx.hi i) {i : Fin n} {x : K} (h : x ∈ ends bx i) :
    bx.lo i ≤ x ∧ x ≤ bx.hi i := by
  simp only [ends, List.mem_cons, List.not_mem_nil, or_false] at h
  rcases h with rfl | rfl
  · exact ⟨le_rfl, ho i⟩
  · exact ⟨ho i, le_rfl⟩

theorem insideAx_le {bx : Box n K} {i : Fin n} {x : K} (h : insideAx bx i x) : bx.lo i ≤ x ∧ x ≤ bx.hi i :=
  ⟨h.1.le, h.2.le⟩

theorem memB_vec2 {bx : Box 2 K} {x y : K} (hx : bx.lo 0 ≤ x ∧ x ≤ bx.hi 0) (hy : bx.lo 1 ≤ y ∧ y ≤ bx.hi 1) :
    bx.Mem ![x, y] := by
  intro i; fin_cases i
  · exact hx
  · exact hy

theorem memB_vec3 {bx : Box 3 K} {x y z : K} (hx : bx.lo 0 ≤ x ∧ x ≤ bx.hi 0) (hy : bx.lo 1 ≤ y ∧ y ≤ bx.hi 1)
    (hz : bx.lo 2 ≤ z ∧ z ≤ bx.hi 2) : bx.Mem ![x, y, z] := by
  intro i; fin_cases i
  · exact hx
  · exact hy
  · exact hz

theorem points2D_completeB (M : Tensor 2 K) (hM : M.Nonempty) (bx : Box 2 K) (c : Fin 2 → K) (hc : bx.Mem c)
    (hg : ∀ i ∈ freeB bx c, grad (quadA M) (quadB M) c i = 0) (hns : NonsingOn (quadA M) (freeB bx c)) :
    c ∈ points2D (coeffs2D M) bx := by
  have hA := quadA_symm M
  have hs : quadA M 1 0 = quadA M 0 1 := hA.apply 0 1
  have hco := coeffs2D_eq M hM
  generalize coeffs2D M = k at hco ⊢
  have k1 : quadB M 0 = k 1 := by rw [hco]; rfl
  have k2 : quadB M 1 = k 2 := by rw [hco]; rfl
  have d0 : quadA M 0 0 = 4 * k 3 := by rw [quadA_diag, hco]; rfl
  have k4 : quadA M 0 1 = k 4 := by rw [hco]; rfl
  have d1 : quadA M 1 1 = 4 * k 5 := by rw [quadA_diag, hco]; rfl
  simp only [grad, Fin.sum_univ_two] at hg
  have hmem : ∀ i, i ∉ freeB bx c → c i ∈ ends bx i := fun i hi => by
    rcases bound_of_not_freeB hc hi with h | h <;> simp [ends, h]
  have eta : ∀ x y, x = c 0 → y = c 1 → c = ![x, y] := by rintro _ _ rfl rfl; exact vec2_eta c
  have ins : ∀ i ∈ freeB bx c, ∀ x, x = c i → insideAx bx i x := by rintro i hi _ rfl; exact inside_of_freeB hi
  have hpq : ∀ a : K, 4 * a ≠ 0 → a ≠ 0 := fun a h h0 => h (by rw [h0]; ring)
  unfold points2D
  simp only [List.mem_append]
  by_cases h0 : 0 ∈ freeB bx c <;> by_cases h1 : 1 ∈ freeB bx c
  · have hf : freeB bx c = {0, 1} := by ext i; fin_cases i <;> simp [h0, h1]
    have g0 := hg 0 h0
    have g1 := hg 1 h1
    rw [hf] at hns
    have hd := nonsing_two hA (by decide) hns
    simp only [hs, d0, d1, k1, k2, k4] at g0 g1 hd
    have hd' : 16 * k 3 * k 5 - k 4 ^ 2 ≠ 0 := fun h => hd (by linear_combination h)
    right
    have ex : (k 2 * k 4 - 4 * k 1 * k 5) / (16 * k 3 * k 5 - k 4 ^ 2) = c 0 := by
      rw [div_eq_iff hd']; linear_combination k 4 * g1 - 4 * k 5 * g0
    have ey : (k 1 * k 4 - 4 * k 2 * k 3) / (16 * k 3 * k 5 - k 4 ^ 2) = c 1 := by
      rw [div_eq_iff hd']; linear_combination k 4 * g0 - 4 * k 3 * g1
    rw [if_pos hd']
    exact mem_guard ⟨ins 0 h0 _ ex, ins 1 h1 _ ey⟩ (eta _ _ ex ey)
  · have hf : freeB bx c = {0} := by ext i; fin_cases i <;> simp [h0, h1]
    rw [hf] at hns
    have hd := nonsing_one hns
    have g0 := hg 0 h0
    simp only [hs, d0, d1, k1, k2, k4] at g0 hd
    left; right
    have ex : -(k 1 + k 4 * c 1) / (4 * k 3) = c 0 := by
      rw [div_eq_iff hd]; linear_combination -g0
    rw [if_pos (hpq _ hd), List.mem_flatMap]
    exact ⟨c 1, hmem 1 h1, mem_guard (ins 0 h0 _ ex) (eta _ _ ex rfl)⟩
  · have hf : freeB bx c = {1} := by ext i; fin_cases i <;> simp [h0, h1]
    rw [hf] at hns
    have hd := nonsing_one hns
    have g1 := hg 1 h1
    simp only [hs, d0, d1, k1, k2, k4] at g1 hd
    left; left; right
    have ex : -(k 2 + k 4 * c 0) / (4 * k 5) = c 1 := by
      rw [div_eq_iff hd]; linear_combination -g1
    rw [if_pos (hpq _ hd), List.mem_flatMap]
    exact ⟨c 0, hmem 0 h0, mem_guard (ins 1 h1 _ ex) (eta _ _ rfl ex)⟩
  · left; left; left
    rw [vec2_eta c]
    rcases bound_of_not_freeB hc h0 with e0 | e0 <;> rcases bound_of_not_freeB hc h1 with e1 | e1 <;>
      rw [e0, e1] <;> simp

theorem points3D_completeB (M : Tensor 3 K) (hM : M.Nonempty) (bx : Box 3 K) (c : Fin 3 → K) (hc : bx.Mem c)
    (hg : ∀ i ∈ freeB bx c, grad (quadA M) (quadB M) c i = 0) (hns : NonsingOn (quadA M) (freeB bx c)) :
    c ∈ corners3D bx ++ edges3D (coeffs3D M) bx ++ faces3D (coeffs3D M) bx ++ interior3D (coeffs3D M) bx := by
  have hA := quadA_symm M
  have hco := coeffs3D_eq M hM
  generalize coeffs3D M = k at hco ⊢
  have s1 : quadA M 1 0 = k 4 := by rw [hA.apply 0 1, hco]; rfl
  have s2 : quadA M 2 0 = k 5 := by rw [hA.apply 0 2, hco]; rfl
  have s3 : quadA M 2 1 = k 6 := by rw [hA.apply 1 2, hco]; rfl
  have k4 : quadA M 0 1 = k 4 := by rw [hco]; rfl
  have k5 : quadA M 0 2 = k 5 := by rw [hco]; rfl
  have k6 : quadA M 1 2 = k 6 := by rw [hco]; rfl
  have k1 : quadB M 0 = k 1 := by rw [hco]; rfl
  have k2 : quadB M 1 = k 2 := by rw [hco]; rfl
  have k3 : quadB M 2 = k 3 := by rw [hco]; rfl
  have d0 : quadA M 0 0 = 4 * k 7 := by rw [quadA_diag, hco]; rfl
  have d1 : quadA M 1 1 = 4 * k 8 := by rw [quadA_diag, hco]; rfl
  have d2 : quadA M 2 2 = 4 * k 9 := by rw [quadA_diag, hco]; rfl
  simp only [grad, Fin.sum_univ_three] at hg
  have hmem : ∀ i, i ∉ freeB bx c → c i ∈ ends bx i := fun i hi => by
    rcases bound_of_not_freeB hc hi with h | h <;> simp [ends, h]
  have eta : ∀ x y z, x = c 0 → y = c 1 → z = c 2 → c = ![x, y, z] := by
    rintro _ _ _ rfl rfl rfl; exact vec3_eta c
  have ins : ∀ i ∈ freeB bx c, ∀ x, x = c i → insideAx bx i x := by rintro i hi _ rfl; exact inside_of_freeB hi
  have hpq : ∀ a : K, 4 * a ≠ 0 → a ≠ 0 ∧ 2 * (2 * a) ≠ 0 := fun a h =>
    ⟨fun h0 => h (by rw [h0]; ring), fun h0 => h (by linear_combination h0)⟩
  simp only [List.mem_append]
  by_cases h0 : 0 ∈ freeB bx c <;> by_cases h1 : 1 ∈ freeB bx c <;> by_cases h2 : 2 ∈ freeB bx c
  · -- interior
    have hf : freeB bx c = univ := by ext i; fin_cases i <;> simp [h0, h1, h2]
    rw [hf] at hns
    have hd := nonsing_univ hns
    rw [Matrix.det_fin_three] at hd
    have g0 := hg 0 h0
    have g1 := hg 1 h1
    have g2 := hg 2 h2
    simp only [s1, s2, s3, k1, k2, k3, k4, k5, k6, d0, d1, d2] at hd g0 g1 g2
    right
    unfold interior3D
    dsimp only
    rw [if_pos (fun h => hd (by linear_combination h))]
    have hd' : 4 * k 7 * (2 * (2 * k 8) * (2 * (2 * k 9)) - k 6 ^ 2) - k 4 * (2 * (2 * k 9) * k 4 - k 5 * k 6) +
        k 5 * (k 4 * k 6 - 2 * (2 * k 8) * k 5) ≠ 0 := fun h => hd (by linear_combination h)
    refine mem_guard ⟨ins 0 h0 _ ?e0, ins 1 h1 _ ?e1, ins 2 h2 _ ?e2⟩ (eta _ _ _ ?e0 ?e1 ?e2)
    · rw [div_eq_iff hd']
      linear_combination (-(2 * (2 * k 8) * (2 * (2 * k 9)) - k 6 ^ 2)) * g0
        + (2 * (2 * k 9) * k 4 - k 5 * k 6) * g1 - (k 4 * k 6 - 2 * (2 * k 8) * k 5) * g2
    · rw [div_eq_iff hd']
      linear_combination (2 * (2 * k 9) * k 4 - k 5 * k 6) * g0
        - (2 * (2 * k 7) * (2 * (2 * k 9)) - k 5 ^ 2) * g1 + (2 * (2 * k 7) * k 6 - k 4 * k 5) * g2
    · rw [div_eq_iff hd']
      linear_combination (-(k 4 * k 6 - 2 * (2 * k 8) * k 5)) * g0
        + (2 * (2 * k 7) * k 6 - k 4 * k 5) * g1 - (2 * (2 * k 7) * (2 * (2 * k 8)) - k 4 ^ 2) * g2
  · -- z on the boundary
    have hf : freeB bx c = {0, 1} := by ext i; fin_cases i <;> simp [h0, h1, h2]
    rw [hf] at hns
    have hd := nonsing_two hA (by decide) hns
    have g0 := hg 0 h0
    have g1 := hg 1 h1
    simp only [s1, s2, s3, k1, k2, k3, k4, k5, k6, d0, d1, d2] at hd g0 g1
    left; right
    unfold faces3D
    dsimp only
    simp only [List.mem_append]
    right
    have hd' : 2 * (2 * k 7) * (2 * (2 * k 8)) - k 4 ^ 2 ≠ 0 := fun h => hd (by linear_combination h)
    rw [if_pos hd', List.mem_flatMap]
    refine ⟨c 2, hmem 2 h2, mem_guard ⟨ins 0 h0 _ ?p1, ins 1 h1 _ ?q1⟩ (eta _ _ _ ?p1 ?q1 rfl)⟩
    · rw [div_eq_iff hd']; linear_combination -(2 * (2 * k 8)) * g0 + k 4 * g1
    · rw [div_eq_iff hd']; linear_combination k 4 * g0 - (2 * (2 * k 7)) * g1
  · -- y on the boundary
    have hf : freeB bx c = {0, 2} := by ext i; fin_cases i <;> simp [h0, h1, h2]
    rw [hf] at hns
    have hd := nonsing_two hA (by decide) hns
    have g0 := hg 0 h0
    have g2 := hg 2 h2
    simp only [s1, s2, s3, k1, k2, k3, k4, k5, k6, d0, d1, d2] at hd g0 g2
    left; right
    unfold faces3D
    dsimp only
    simp only [List.mem_append]
    left; right
    have hd' : 2 * (2 * k 7) * (2 * (2 * k 9)) - k 5 ^ 2 ≠ 0 := fun h => hd (by linear_combination h)
    rw [if_pos hd', List.mem_flatMap]
    refine ⟨c 1, hmem 1 h1, mem_guard ⟨ins 0 h0 _ ?p2, ins 2 h2 _ ?q2⟩ (eta _ _ _ ?p2 rfl ?q2)⟩
    · rw [div_eq_iff hd']; linear_combination -(2 * (2 * k 9)) * g0 + k 5 * g2
    · rw [div_eq_iff hd']; linear_combination k 5 * g0 - (2 * (2 * k 7)) * g2
  · -- only x free
    have hf : freeB bx c = {0} := by ext i; fin_cases i <;> simp [h0, h1, h2]
    rw [hf] at hns
    have hd := nonsing_one hns
    have g0 := hg 0 h0
    simp only [s1, s2, s3, k1, k2, k3, k4, k5, k6, d0, d1, d2] at hd g0
    left; left; right
    unfold edges3D
    dsimp only
    simp only [List.mem_append]
    right
    rw [if_pos (hpq _ hd).1, List.mem_flatMap]
    refine ⟨c 1, hmem 1 h1, List.mem_flatMap.2 ⟨c 2, hmem 2 h2, mem_guard (ins 0 h0 _ ?p3) (eta _ _ _ ?p3 rfl rfl)⟩⟩
    rw [div_eq_iff (hpq _ hd).2]; linear_combination -g0
  · -- x on the boundary
    have hf : freeB bx c = {1, 2} := by ext i; fin_cases i <;> simp [h0, h1, h2]
    rw [hf] at hns
    have hd := nonsing_two hA (by decide) hns
    have g1 := hg 1 h1
    have g2 := hg 2 h2
    simp only [s1, s2, s3, k1, k2, k3, k4, k5, k6, d0, d1, d2] at hd g1 g2
    left; right
    unfold faces3D
    dsimp only
    simp only [List.mem_append]
    left; left
    have hd' : 2 * (2 * k 8) * (2 * (2 * k 9)) - k 6 ^ 2 ≠ 0 := fun h => hd (by linear_combination h)
    rw [if_pos hd', List.mem_flatMap]
    refine ⟨c 0, hmem 0 h0, mem_guard ⟨ins 1 h1 _ ?p4, ins 2 h2 _ ?q4⟩ (eta _ _ _ rfl ?p4 ?q4)⟩
    · rw [div_eq_iff hd']; linear_combination -(2 * (2 * k 9)) * g1 + k 6 * g2
    · rw [div_eq_iff hd']; linear_combination k 6 * g1 - (2 * (2 * k 8)) * g2
  · -- only y free
    have hf : freeB bx c = {1} := by ext i; fin_cases i <;> simp [h0, h1, h2]
    rw [hf] at hns
    have hd := nonsing_one hns
    have g1 := hg 1 h1
    simp only [s1, s2, s3, k1, k2, k3, k4, k5, k6, d0, d1, d2] at hd g1
    left; left; right
    unfold edges3D
    dsimp only
    simp only [List.mem_append]
    left; right
    rw [if_pos (hpq _ hd).1, List.mem_flatMap]
    refine ⟨c 0, hmem 0 h0, List.mem_flatMap.2 ⟨c 2, hmem 2 h2, mem_guard (ins 1 h1 _ ?p5) (eta _ _ _ rfl ?p5 rfl)⟩⟩
    rw [div_eq_iff (hpq _ hd).2]; linear_combination -g1
  · -- only z free
    have hf : freeB bx c = {2} := by ext i; fin_cases i <;> simp [h0, h1, h2]
    rw [hf] at hns
    have hd := nonsing_one hns
    have g2 := hg 2 h2
    simp only [s1, s2, s3, k1, k2, k3, k4, k5, k6, d0, d1, d2] at hd g2
    left; left; right
    unfold edges3D
    dsimp only
    simp only [List.mem_append]
    left; left
    rw [if_pos (hpq _ hd).1, List.mem_flatMap]
    refine ⟨c 0, hmem 0 h0, List.mem_flatMap.2 ⟨c 1, hmem 1 h1, mem_guard (ins 2 h2 _ ?p6) (eta _ _ _ rfl rfl ?p6)⟩⟩
    rw [div_eq_iff (hpq _ hd).2]; linear_combination -g2
  · left; left; left
    rw [vec3_eta c]
    rcases bound_of_not_freeB hc h0 with e0 | e0 <;> rcases bound_of_not_freeB hc h1 with e1 | e1 <;>
      rcases bound_of_not_freeB hc h2 with e2 | e2 <;> rw [e0, e1, e2] <;> simp [corners3D]

theorem points2D_memB (c : Fin 6 → K) (bx : Box 2 K) (ho : ∀ i, bx.lo i ≤ bx.hi i) : ∀ p ∈ points2D c bx, bx.Mem p := by
  intro p hp
  unfold points2D at hp
  simp only [List.mem_append] at hp
  rcases hp with ((hp | hp) | hp) | hp
  · simp only [List.mem_cons, List.not_mem_nil, or_false] at hp
    rcases hp with rfl | rfl | rfl | rfl <;> exact memB_vec2 (ends_mem ho (by simp [ends])) (ends_mem ho (by simp [ends]))
  · split_ifs at hp
    · rw [List.mem_flatMap] at hp
      obtain ⟨x, hx, hp⟩ := hp
      split_ifs at hp with h
      · rw [List.mem_singleton] at hp; rw [hp]; exact memB_vec2 (ends_mem ho hx) (insideAx_le h)
      · simp at hp
    · simp at hp
  · split_ifs at hp
    · rw [List.mem_flatMap] at hp
      obtain ⟨x, hx, hp⟩ := hp
      split_ifs at hp with h
      · rw [List.mem_singleton] at hp; rw [hp]; exact memB_vec2 (insideAx_le h) (ends_mem ho hx)
      · simp at hp
    · simp at hp
  · split_ifs at hp with hd h
    · rw [List.mem_singleton] at hp; rw [hp]; exact memB_vec2 (insideAx_le h.1) (insideAx_le h.2)
    · simp at hp
    · simp at hp

theorem points3D_memB (c : Fin 10 → K) (bx : Box 3 K) (ho : ∀ i, bx.lo i ≤ bx.hi i) :
    ∀ p ∈ corners3D bx ++ edges3D c bx ++ faces3D c bx ++ interior3D c bx, bx.Mem p := by
  intro p hp
  unfold corners3D edges3D faces3D interior3D at hp
  dsimp only at hp
  simp only [List.mem_append] at hp
  rcases hp with ((hp | (hp | hp) | hp) | (hp | hp) | hp) | hp
  · simp only [List.mem_cons, List.not_mem_nil, or_false] at hp
    rcases hp with rfl | rfl | rfl | rfl | rfl | rfl | rfl | rfl <;>
      exact memB_vec3 (ends_mem ho (by simp [ends])) (ends_mem ho (by simp [ends])) (ends_mem ho (by simp [ends]))
  iterate 3
    · split_ifs at hp
      · rw [List.mem_flatMap] at hp
        obtain ⟨x, hx, hp⟩ := hp
        rw [List.mem_flatMap] at hp
        obtain ⟨y, hy, hp⟩ := hp
        split_ifs at hp with h
        · rw [List.mem_singleton] at hp; rw [hp]
          apply memB_vec3 <;> first | exact insideAx_le h | exact ends_mem ho hx | exact ends_mem ho hy
        · simp at hp
      · simp at hp
  iterate 3
    · split_ifs at hp
      · rw [List.mem_flatMap] at hp
        obtain ⟨x, hx, hp⟩ := hp
        split_ifs at hp with h
        · rw [List.mem_singleton] at hp; rw [hp]
          apply memB_vec3 <;> first | exact insideAx_le h.1 | exact insideAx_le h.2 | exact ends_mem ho hx
        · simp at hp
      · simp at hp
  · split_ifs at hp with hd h
    · rw [List.mem_singleton] at hp; rw [hp]; exact memB_vec3 (insideAx_le h.1) (insideAx_le h.2.1) (insideAx_le h.2.2)
    · simp at hp
    · simp at hp


/-! ### n variables -/

theorem mem_sidesAt {bx : Box n K} {l : List (Fin n × Fin n)} {x : Fin n → K} (hl : (l.map Prod.fst).Nodup)
    (h1 : ∀ p ∈ l, x p.1 = bx.lo p.2 ∨ x p.1 = bx.hi p.2) (h2 : ∀ i, i ∉ l.map Prod.fst → x i = 0) :
    x ∈ sidesAt bx l := by
  induction l generalizing x with
  | nil =>
    rw [sidesAt, List.mem_singleton]
    funext i; exact h2 i (by simp)
  | cons p l ih =>
    obtain ⟨a, b⟩ := p
    rw [List.map_cons, List.nodup_cons] at hl
    rw [sidesAt, List.mem_flatMap]
    refine ⟨x a, by rcases h1 (a, b) (by simp) with h | h <;> simp [ends, h],
      List.mem_map.2 ⟨Function.update x a 0, ?_, ?_⟩⟩
    · refine ih hl.2 (fun i hi => ?_) (fun i hi => ?_)
      · have hne : i.1 ≠ a := fun h0 => hl.1 (by show a ∈ _; rw [← h0]; exact List.mem_map_of_mem hi)
        rw [Function.update_of_ne hne]
        exact h1 i (by simp [hi])
      · by_cases hia : i = a
        · subst hia; simp
        · rw [Function.update_of_ne hia]; exact h2 i (by simp only [List.map_cons, List.mem_cons, not_or]; exact ⟨hia, hi⟩)
    · rw [Function.update_idem]; exact Function.update_eq_self a x

theorem mem_sidesU {bx : Box n K} (hu : ∀ i j, bx.lo i = bx.lo j ∧ bx.hi i = bx.hi j) {l : List (Fin n)}
    {x : Fin n → K} (hl : l.Nodup) (hlen : l.length ≤ n) (h1 : ∀ i ∈ l, x i = bx.lo i ∨ x i = bx.hi i)
    (h2 : ∀ i, i ∉ l → x i = 0) : x ∈ sidesAt bx (l.zip (List.finRange n)) := by
  have e : (l.zip (List.finRange n)).map Prod.fst = l := List.map_fst_zip (by simpa using hlen)
  refine mem_sidesAt (by rwa [e]) (fun p hp => ?_) (fun i hi => h2 i (by rwa [e] at hi))
  have hm : p.1 ∈ l := by rw [← e]; exact List.mem_map_of_mem hp
  rw [(hu p.2 p.1).1, (hu p.2 p.1).2]
  exact h1 _ hm

theorem pointsFixed_memU (la : LinAlg n K) (M : Tensor n K) (bx : Box n K) (hu : ∀ i j, bx.lo i = bx.lo j ∧ bx.hi i = bx.hi j)
    (c : Fin n → K) (hc : bx.Mem c)
    (hla : la.ExactOn (freeB bx c))
    (hg : ∀ i ∈ freeB bx c, grad (quadA M) (quadB M) c i = 0) (hns : NonsingOn (quadA M) (freeB bx c))
    (hdiag : (∀ i ∈ freeB bx c, 0 ≤ quadA M i i) ∨ ∀ i ∈ freeB bx c, quadA M i i ≤ 0) :
    c ∈ pointsFixed la M bx ((List.finRange n).filter (· ∉ freeB bx c)) := by
  set fixed := (List.finRange n).filter (· ∉ freeB bx c) with hfixed
  have hmf : ∀ i, i ∈ fixed ↔ i ∉ freeB bx c := fun i => by simp [hfixed]
  have hun : (List.finRange n).filter (· ∉ fixed) = (List.finRange n).filter (· ∈ freeB bx c) := by
    apply List.filter_congr
    intro i _
    simp [hmf]
  have huf : ((List.finRange n).filter (· ∈ freeB bx c)).toFinset = freeB bx c := by ext i; simp
  have hff : fixed.toFinset = univ \ freeB bx c := by ext i; simp [hmf]
  unfold pointsFixed
  dsimp only
  rw [hun, huf, signChange_false]
  · rw [if_neg (by simp), if_pos ((hla.rank _).2 hns.det), List.mem_flatMap]
    refine ⟨fun i => if i ∈ fixed then c i else 0, mem_sidesU hu ?_ (List.length_filter_le _ _ |>.trans (by simp)) (fun i hi => ?_) (fun i hi => if_neg hi), ?_⟩
    · exact (List.nodup_finRange n).filter _
    · rw [if_pos hi]; exact bound_of_not_freeB hc ((hmf i).1 hi)
    · have hsol := hla.solve (quadA M) (fun i => -quadB M i - ∑ j ∈ fixed.toFinset,
        quadA M i j * (if j ∈ fixed then c j else 0)) hns.det
      set X := la.solve (freeB bx c) (quadA M) (fun i => -quadB M i - ∑ j ∈ fixed.toFinset,
        quadA M i j * (if j ∈ fixed then c j else 0))
      have hX : ∀ i ∈ freeB bx c, X i = c i := by
        have hz := hns (fun i => if i ∈ freeB bx c then X i - c i else 0) (fun i hi => if_neg hi) (fun i hi => by
          have e1 := hsol i hi
          have e2 := hg i hi
          have e3 : ∑ j, quadA M i j * (if j ∈ freeB bx c then X j - c j else 0)
              = ∑ j ∈ freeB bx c, quadA M i j * X j - ∑ j ∈ freeB bx c, quadA M i j * c j := by
            rw [← sum_sub_distrib, ← sum_subset (subset_univ (freeB bx c))]
            · exact sum_congr rfl fun j hj => by rw [if_pos hj]; ring
            · intro j _ hj; rw [if_neg hj, mul_zero]
          have e4 : ∑ j ∈ fixed.toFinset, quadA M i j * (if j ∈ fixed then c j else 0)
              = ∑ j ∈ univ \ freeB bx c, quadA M i j * c j := by
            rw [hff]
            refine sum_congr rfl fun j hj => ?_
            rw [mem_sdiff] at hj
            rw [if_pos ((hmf j).2 hj.2)]
          have e5 := sum_sdiff (f := fun j => quadA M i j * c j) (subset_univ (freeB bx c))
          unfold grad at e2
          rw [e4] at e1
          rw [e3]
          linear_combination e1 - e2 - e5)
        intro i hi
        have := hz i
        rw [if_pos hi] at this
        linear_combination this
      refine mem_guard (fun i hi => ?_) ?_
      · have hi' : i ∈ freeB bx c := by simpa using hi
        rw [hX i hi']
        exact hc i
      · funext i
        by_cases hi : i ∈ fixed
        · simp [hi]
        · have hi' : i ∈ freeB bx c := by by_contra h; exact hi ((hmf i).2 h)
          simp only [if_neg hi]
          exact (hX i hi').symm
  · have hp : ∀ i, quadA M i i = 4 * pureQuad M i := quadA_diag M
    rcases hdiag with h | h
    · left
      intro a ha
      rw [List.mem_map] at ha
      obtain ⟨i, hi, rfl⟩ := ha
      have := h i (by simpa using hi)
      split_ifs
      · rw [hp] at this; linarith
      · exact this
    · right
      intro a ha
      rw [List.mem_map] at ha
      obtain ⟨i, hi, rfl⟩ := ha
      have := h i (by simpa using hi)
      split_ifs
      · rw [hp] at this; linarith
      · exact this

theorem pointsND_completeU (la : LinAlg n K) (M : Tensor n K) (bx : Box n K) (hu : ∀ i j, bx.lo i = bx.lo j ∧ bx.hi i = bx.hi j)
    (c : Fin n → K) (hc : bx.Mem c)
    (hla : (freeB bx c).Nonempty → la.ExactOn (freeB bx c))
    (hg : ∀ i ∈ freeB bx c, grad (quadA M) (quadB M) c i = 0) (hns : NonsingOn (quadA M) (freeB bx c))
    (hdiag : (∀ i ∈ freeB bx c, 0 ≤ quadA M i i) ∨ ∀ i ∈ freeB bx c, quadA M i i ≤ 0) :
    c ∈ sidesAt bx ((List.finRange n).zip (List.finRange n)) ++ (getFixedVars n).flatMap (pointsFixed la M bx) ++
      pointsFixed la M bx [] := by
  rw [List.mem_append, List.mem_append]
  rcases (freeB bx c).eq_empty_or_nonempty with hE | hE
  · left; left
    refine mem_sidesU hu (List.nodup_finRange n) (by simp) (fun i _ => bound_of_not_freeB hc (by simp [hE])) (fun i hi => ?_)
    exact absurd (List.mem_finRange i) hi
  have h := pointsFixed_memU la M bx hu c hc (hla hE) hg hns hdiag
  by_cases hU : freeB bx c = univ
  · right
    have e : (List.finRange n).filter (· ∉ freeB bx c) = [] := by rw [hU]; simp
    rwa [e] at h
  · left; right
    rw [List.mem_flatMap]
    refine ⟨_, ?_, h⟩
    have hlen : ((List.finRange n).filter (· ∉ freeB bx c)).length = n - (freeB bx c).card := by
      rw [← List.toFinset_card_of_nodup ((List.nodup_finRange n).filter _)]
      have : ((List.finRange n).filter (· ∉ freeB bx c)).toFinset = univ \ freeB bx c := by ext i; simp
      rw [this, card_sdiff_of_subset (subset_univ _), card_univ, Fintype.card_fin]
    have h1 : 0 < (freeB bx c).card := card_pos.2 hE
    have h2 : (freeB bx c).card < n := by
      have := card_lt_card (Finset.ssubset_univ_iff.2 hU)
      rwa [card_univ, Fintype.card_fin] at this
    unfold getFixedVars
    rw [List.mem_flatMap]
    refine ⟨((List.finRange n).filter (· ∉ freeB bx c)).length, ?_, mem_combinations List.filter_sublist⟩
    rw [List.mem_map]
    refine ⟨n - (freeB bx c).card - 1, ?_, by rw [hlen]; omega⟩
    rw [List.mem_reverse, List.mem_range]
    omega


theorem sidesAt_bound {bx : Box n K} (ho : ∀ i, bx.lo i ≤ bx.hi i)
    (hu : ∀ i j, bx.lo i = bx.lo j ∧ bx.hi i = bx.hi j) {l : List (Fin n × Fin n)} {x : Fin n → K}
    (h : x ∈ sidesAt bx l) : ∀ i ∈ l.map Prod.fst, bx.lo i ≤ x i ∧ x i ≤ bx.hi i := by
  induction l generalizing x with
  | nil => simp
  | cons p l ih =>
    obtain ⟨a, b⟩ := p
    rw [sidesAt, List.mem_flatMap] at h
    obtain ⟨s, hs, h⟩ := h
    rw [List.mem_map] at h
    obtain ⟨y, hy, rfl⟩ := h
    intro i hi
    by_cases hia : i = a
    · subst hia
      have := ends_mem ho hs
      rw [(hu b i).1, (hu b i).2] at this
      simpa using this
    · rw [Function.update_of_ne hia]
      rw [List.map_cons, List.mem_cons] at hi
      exact ih hy i (hi.resolve_left hia)

theorem pointsFixed_memBox (la : LinAlg n K) (M : Tensor n K) {bx : Box n K} (ho : ∀ i, bx.lo i ≤ bx.hi i)
    (hu : ∀ i j, bx.lo i = bx.lo j ∧ bx.hi i = bx.hi j) (fixed : List (Fin n)) (hlen : fixed.length ≤ n) :
    ∀ p ∈ pointsFixed la M bx fixed, bx.Mem p := by
  have e : (fixed.zip (List.finRange n)).map Prod.fst = fixed := List.map_fst_zip (by simpa using hlen)
  intro p hp
  unfold pointsFixed at hp
  dsimp only at hp
  generalize signChange (K := K) (List.map _ _) = sc at hp
  split_ifs at hp
  · simp at hp
  · rw [List.mem_flatMap] at hp
    obtain ⟨X0, hX, hp⟩ := hp
    split_ifs at hp with h
    · rw [List.mem_singleton] at hp
      subst hp
      intro i
      by_cases hi : i ∈ fixed
      · simp only [if_pos hi]
        exact sidesAt_bound ho hu hX i (by rwa [e])
      · simp only [if_neg hi]
        exact h i (by simp [hi])
    · simp at hp
  · simp at hp

theorem combinations_length {α : Type*} : ∀ (l : List α) (k : ℕ), ∀ c ∈ combinations l k, c.length ≤ l.length := by
  intro l
  induction l with
  | nil => intro k c hc; cases k <;> simp [combinations] at hc; simp [hc]
  | cons a l ih =>
    intro k c hc
    cases k with
    | zero => simp [combinations] at hc; simp [hc]
    | succ k =>
      rw [combinations, List.mem_append, List.mem_map] at hc
      rcases hc with ⟨d, hd, rfl⟩ | hc
      · have := ih _ d hd; simp; omega
      · have := ih _ c hc; simp; omega

theorem pointsND_memB (la : LinAlg n K) (M : Tensor n K) {bx : Box n K} (ho : ∀ i, bx.lo i ≤ bx.hi i)
    (hu : ∀ i j, bx.lo i = bx.lo j ∧ bx.hi i = bx.hi j) :
    ∀ p ∈ sidesAt bx ((List.finRange n).zip (List.finRange n)) ++ (getFixedVars n).flatMap (pointsFixed la M bx) ++
      pointsFixed la M bx [], bx.Mem p := by
  intro p hp
  rw [List.mem_append, List.mem_append] at hp
  rcases hp with (hp | hp) | hp
  · intro i
    refine sidesAt_bound ho hu hp i ?_
    rw [List.map_fst_zip (by simp)]; exact List.mem_finRange i
  · rw [List.mem_flatMap] at hp
    obtain ⟨fixed, hf, hp⟩ := hp
    refine pointsFixed_memBox la M ho hu fixed ?_ p hp
    unfold getFixedVars at hf
    rw [List.mem_flatMap] at hf
    obtain ⟨k, -, hf⟩ := hf
    simpa using combinations_length _ _ _ hf
  · exact pointsFixed_memBox la M ho hu [] (by simp) p hp

end YRoots.Legacy
