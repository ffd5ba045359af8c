import Mathlib.LinearAlgebra.Matrix.ToLin
import Mathlib.LinearAlgebra.Matrix.NonsingularInverse
import Mathlib.LinearAlgebra.Matrix.Symmetric
import Mathlib.LinearAlgebra.FiniteDimensional.Basic
import Mathlib.Tactic.FieldSimp
import Mathlib.Tactic.Positivity
import Verif.Model.Tensor

/-!
# Helper lemmas: extrema of a quadratic function on the cube

Over any ordered field: for every point of the cube there is a critical point of a face, with nonsingular Hessian on
that face and nonnegative diagonal, at which the quadratic function is not larger.  The argument slides along lines
to the boundary, so no completeness is needed.
-/

set_option linter.unusedSectionVars false
set_option linter.unusedVariables false
set_option linter.unusedSimpArgs false

namespace YRoots

open Finset

variable {n : ℕ} {K : Type*} [Field K] [LinearOrder K] [IsStrictOrderedRing K]

/-- The quadratic function with Hessian `A` and gradient `B` at 0. -/
def qf (A : Matrix (Fin n) (Fin n) K) (B : Fin n → K) (k : K) (x : Fin n → K) : K :=
  k + ∑ i, B i * x i + (∑ i, ∑ j, A i j * x i * x j) / 2

/-- Partial derivative. -/
def grad (A : Matrix (Fin n) (Fin n) K) (B : Fin n → K) (x : Fin n → K) (i : Fin n) : K := B i + ∑ j, A i j * x j

theorem qf_line (A : Matrix (Fin n) (Fin n) K) (hA : A.IsSymm) (B : Fin n → K) (k : K) (x d : Fin n → K) (t : K) :
    qf A B k (fun i => x i + t * d i)
      = qf A B k x + t * ∑ i, grad A B x i * d i + t ^ 2 / 2 * ∑ i, (∑ j, A i j * d j) * d i := by
  have h1 : ∑ i, ∑ j, A i j * (x i + t * d i) * (x j + t * d j)
      = (∑ i, ∑ j, A i j * x i * x j) + t * (∑ i, ∑ j, A i j * d i * x j) + t * (∑ i, ∑ j, A i j * x i * d j)
        + t ^ 2 * ∑ i, ∑ j, A i j * d i * d j := by
    simp only [Finset.mul_sum, ← Finset.sum_add_distrib]
    refine Finset.sum_congr rfl fun i _ => Finset.sum_congr rfl fun j _ => by ring
  have h2 : ∑ i, ∑ j, A i j * x i * d j = ∑ i, ∑ j, A i j * d i * x j := by
    rw [Finset.sum_comm]
    refine Finset.sum_congr rfl fun i _ => Finset.sum_congr rfl fun j _ => ?_
    rw [hA.apply i j]; ring
  have h3 : ∑ i, grad A B x i * d i = ∑ i, B i * d i + ∑ i, ∑ j, A i j * d i * x j := by
    rw [← Finset.sum_add_distrib]
    refine Finset.sum_congr rfl fun i _ => ?_
    unfold grad
    rw [add_mul, Finset.sum_mul]
    congr 1
    refine Finset.sum_congr rfl fun j _ => by ring
  have h4 : ∑ i, (∑ j, A i j * d j) * d i = ∑ i, ∑ j, A i j * d i * d j := by
    refine Finset.sum_congr rfl fun i _ => ?_
    rw [Finset.sum_mul]
    refine Finset.sum_congr rfl fun j _ => by ring
  have h5 : ∑ i, B i * (x i + t * d i) = ∑ i, B i * x i + t * ∑ i, B i * d i := by
    rw [Finset.mul_sum, ← Finset.sum_add_distrib]
    refine Finset.sum_congr rfl fun i _ => by ring
  unfold qf
  rw [h1, h2, h3, h4, h5]
  ring

/-- The coordinates of `x` that are strictly inside. -/
def free (x : Fin n → K) : Finset (Fin n) := univ.filter fun i => |x i| < 1

theorem mem_free {x : Fin n → K} {i : Fin n} : i ∈ free x ↔ |x i| < 1 := by simp [free]

/-- Sliding along a line until a new coordinate reaches the boundary. -/
theorem slide (x d : Fin n → K) (hx : InCube x) (hd : ∀ i, i ∉ free x → d i = 0) (hne : ∃ i, d i ≠ 0) :
    ∃ t : K, 0 < t ∧ InCube (fun i => x i + t * d i) ∧ free (fun i => x i + t * d i) ⊂ free x ∧
      ∀ s, 0 ≤ s → s < t → ∀ i ∈ free x, |x i + s * d i| < 1 := by
  classical
  have hT : (univ.filter fun i => d i ≠ 0).Nonempty := by
    obtain ⟨i, hi⟩ := hne; exact ⟨i, by simpa using hi⟩
  have hfree : ∀ i, d i ≠ 0 → |x i| < 1 := fun i hi => by
    by_contra h; exact hi (hd i (by rwa [mem_free]))
  -- hitting time of coordinate i
  let τ : Fin n → K := fun i => (|d i| - d i * x i) / (d i) ^ 2
  obtain ⟨i0, hi0, hmin⟩ := exists_min_image _ τ hT
  rw [mem_filter] at hi0
  have hdi := hi0.2
  have key : ∀ i, d i ≠ 0 → ∀ s : K, 0 ≤ s →
      (s < τ i → |x i + s * d i| < 1) ∧ (s = τ i → |x i + s * d i| = 1) := by
    intro i hi s hs
    have hlt := hfree i hi
    rw [abs_lt] at hlt
    have hd2 : 0 < d i ^ 2 := by positivity
    rcases lt_or_gt_of_ne hi with hneg | hpos
    · have e : τ i = (-1 - x i) / d i := by
        show (|d i| - d i * x i) / (d i) ^ 2 = _
        rw [abs_of_neg hneg]; field_simp
      constructor
      · intro h
        rw [e, lt_div_iff_of_neg hneg] at h
        rw [abs_lt]
        have := mul_nonpos_of_nonneg_of_nonpos hs hneg.le
        constructor <;> linarith [hlt.1, hlt.2]
      · intro h
        rw [e] at h
        rw [h, div_mul_cancel₀ _ hi]
        simp
    · have e : τ i = (1 - x i) / d i := by
        show (|d i| - d i * x i) / (d i) ^ 2 = _
        rw [abs_of_pos hpos]; field_simp
      constructor
      · intro h
        rw [e, lt_div_iff₀ hpos] at h
        rw [abs_lt]
        have := mul_nonneg hs hpos.le
        constructor <;> linarith [hlt.1, hlt.2]
      · intro h
        rw [e] at h
        rw [h, div_mul_cancel₀ _ hi]
        simp
  have htpos : 0 < τ i0 := by
    have hlt := hfree i0 hdi
    show 0 < (|d i0| - d i0 * x i0) / (d i0) ^ 2
    apply div_pos _ (by positivity)
    have h1 : |d i0 * x i0| < |d i0| := by
      rw [abs_mul]
      have := mul_lt_mul_of_pos_left hlt (abs_pos.2 hdi)
      linarith
    linarith [le_abs_self (d i0 * x i0)]
  have hcube : ∀ i, |x i + τ i0 * d i| ≤ 1 := by
    intro i
    by_cases hi : d i = 0
    · rw [hi, mul_zero, add_zero]; exact hx i
    · rcases lt_or_eq_of_le (hmin i (by simpa using hi)) with h | h
      · exact ((key i hi _ htpos.le).1 h).le
      · exact ((key i hi _ htpos.le).2 h).le
  refine ⟨τ i0, htpos, hcube, ?_, ?_⟩
  · rw [Finset.ssubset_iff_of_subset]
    · refine ⟨i0, mem_free.2 (hfree i0 hdi), ?_⟩
      rw [mem_free, (key i0 hdi _ htpos.le).2 rfl]
      exact lt_irrefl _
    · intro i hi
      rw [mem_free] at hi ⊢
      by_cases hd0 : d i = 0
      · simpa [hd0] using hi
      · exact hfree i hd0
  · intro s hs hst i hi
    by_cases hd0 : d i = 0
    · rw [hd0, mul_zero, add_zero]; exact mem_free.1 hi
    · exact (key i hd0 s hs).1 (lt_of_lt_of_le hst (hmin i (by simpa using hd0)))

/-- The principal submatrix on `S` is nonsingular. -/
def NonsingOn (A : Matrix (Fin n) (Fin n) K) (S : Finset (Fin n)) : Prop :=
  ∀ v : Fin n → K, (∀ i, i ∉ S → v i = 0) → (∀ i ∈ S, ∑ j, A i j * v j = 0) → ∀ i, v i = 0

/-- A nonsingular principal subsystem is solvable. -/
theorem NonsingOn.solve {A : Matrix (Fin n) (Fin n) K} {S : Finset (Fin n)} (h : NonsingOn A S) (b : Fin n → K) :
    ∃ d : Fin n → K, (∀ i, i ∉ S → d i = 0) ∧ ∀ i ∈ S, ∑ j, A i j * d j = b i := by
  classical
  let A' : Matrix (Fin n) (Fin n) K := Matrix.of fun i j => if i ∈ S then A i j else if i = j then 1 else 0
  have e1 : ∀ v i, i ∈ S → A'.mulVec v i = ∑ j, A i j * v j := by
    intro v i hi; simp [A', Matrix.mulVec, dotProduct, hi]
  have e2 : ∀ v i, i ∉ S → A'.mulVec v i = v i := by
    intro v i hi; simp [A', Matrix.mulVec, dotProduct, hi]
  have hinj : Function.Injective A'.mulVecLin := by
    rw [injective_iff_map_eq_zero]
    intro v hv
    have hv' : ∀ i, A'.mulVec v i = 0 := fun i => by
      have := congrFun hv i; simpa using this
    funext i
    refine h v (fun i hi => ?_) (fun i hi => ?_) i
    · rw [← e2 v i hi]; exact hv' i
    · rw [← e1 v i hi]; exact hv' i
  have hsurj : Function.Surjective A'.mulVecLin := LinearMap.injective_iff_surjective.1 hinj
  obtain ⟨d, hd⟩ := hsurj fun i => if i ∈ S then b i else 0
  have hd' : ∀ i, A'.mulVec d i = if i ∈ S then b i else 0 := fun i => by
    have := congrFun hd i; simpa using this
  refine ⟨d, fun i hi => ?_, fun i hi => ?_⟩
  · rw [← e2 d i hi, hd', if_neg hi]
  · rw [← e1 d i hi, hd', if_pos hi]

/-- For every point of the cube there is a point of `C` with smaller or equal value, if `C` contains the critical
points of all faces (with nonsingular Hessian and nonnegative diagonal there). -/
theorem quad_min (A : Matrix (Fin n) (Fin n) K) (hA : A.IsSymm) (B : Fin n → K) (k : K) (C : (Fin n → K) → Prop)
    (hC : ∀ c, InCube c → (∀ i ∈ free c, grad A B c i = 0) → NonsingOn A (free c) →
      (∀ i ∈ free c, 0 ≤ A i i) → C c) :
    ∀ m, ∀ x, InCube x → (free x).card = m → ∃ c, C c ∧ qf A B k c ≤ qf A B k x := by
  classical
  intro m
  induction m using Nat.strong_induction_on with
  | _ m ih =>
  intro x hx hm
  -- moving along d with nonincreasing value
  have move : ∀ (d : Fin n → K) (t : K), InCube (fun i => x i + t * d i) →
      free (fun i => x i + t * d i) ⊂ free x → qf A B k (fun i => x i + t * d i) ≤ qf A B k x →
      ∃ c, C c ∧ qf A B k c ≤ qf A B k x := by
    intro d t h1 h2 h3
    obtain ⟨c, hc, hle⟩ := ih _ (by rw [← hm]; exact card_lt_card h2) _ h1 rfl
    exact ⟨c, hc, hle.trans h3⟩
  -- a direction of nonpositive curvature
  have flat : ∀ d : Fin n → K, (∀ i, i ∉ free x → d i = 0) → (∃ i, d i ≠ 0) →
      ∑ i, (∑ j, A i j * d j) * d i ≤ 0 → ∃ c, C c ∧ qf A B k c ≤ qf A B k x := by
    have aux : ∀ d : Fin n → K, (∀ i, i ∉ free x → d i = 0) → (∃ i, d i ≠ 0) →
        ∑ i, (∑ j, A i j * d j) * d i ≤ 0 → ∑ i, grad A B x i * d i ≤ 0 →
        ∃ c, C c ∧ qf A B k c ≤ qf A B k x := by
      intro d hd hne hcurv hg
      obtain ⟨t, ht, h1, h2, -⟩ := slide x d hx hd hne
      refine move d t h1 h2 ?_
      rw [qf_line A hA]
      have e1 := mul_nonpos_of_nonneg_of_nonpos ht.le hg
      have e2 := mul_nonpos_of_nonneg_of_nonpos (by positivity : (0 : K) ≤ t ^ 2 / 2) hcurv
      linarith
    intro d hd hne hcurv
    rcases le_total (∑ i, grad A B x i * d i) 0 with hg | hg
    · exact aux d hd hne hcurv hg
    · refine aux (fun i => -d i) (fun i hi => by simp [hd i hi]) ?_ ?_ ?_
      · obtain ⟨i, hi⟩ := hne; exact ⟨i, by simpa using hi⟩
      · refine le_of_eq_of_le ?_ hcurv
        refine Finset.sum_congr rfl fun i _ => ?_
        rw [Finset.sum_mul, Finset.sum_mul]
        refine Finset.sum_congr rfl fun j _ => by ring
      · simp only [mul_neg, Finset.sum_neg_distrib]; linarith
  by_cases hneg : ∃ i ∈ free x, A i i < 0
  · obtain ⟨i, hi, hAi⟩ := hneg
    refine flat (Pi.single i 1) (fun j hj => Pi.single_eq_of_ne (by rintro rfl; exact hj hi) _)
      ⟨i, by simp⟩ ?_
    simp [Pi.single_apply]
    exact hAi.le
  by_cases hns : NonsingOn A (free x)
  swap
  · unfold NonsingOn at hns
    push Not at hns
    obtain ⟨v, hv, hz, hne⟩ := hns
    refine flat v hv hne (le_of_eq ?_)
    refine Finset.sum_eq_zero fun i _ => ?_
    by_cases hi : i ∈ free x
    · rw [hz i hi, zero_mul]
    · rw [hv i hi, mul_zero]
  obtain ⟨d, hd, hsol⟩ := hns.solve fun i => -grad A B x i
  have hw : ∑ i, (∑ j, A i j * d j) * d i = -∑ i, grad A B x i * d i := by
    rw [← Finset.sum_neg_distrib]
    refine Finset.sum_congr rfl fun i _ => ?_
    by_cases hi : i ∈ free x
    · rw [hsol i hi]; ring
    · rw [hd i hi]; ring
  have hdiag : ∀ i ∈ free x, 0 ≤ A i i := fun i hi => by
    by_contra h; exact hneg ⟨i, hi, not_le.1 h⟩
  by_cases hd0 : ∃ i, d i ≠ 0
  swap
  · have hz : ∀ i, d i = 0 := fun i => by by_contra h; exact hd0 ⟨i, h⟩
    refine ⟨x, hC x hx (fun i hi => ?_) hns hdiag, le_rfl⟩
    have := hsol i hi
    simp only [hz, mul_zero, Finset.sum_const_zero] at this
    linarith
  rcases le_total (∑ i, (∑ j, A i j * d j) * d i) 0 with hcurv | hcurv
  · exact flat d hd hd0 hcurv
  obtain ⟨t, ht, h1, h2, h3⟩ := slide x d hx hd hd0
  rcases le_or_gt t 1 with ht1 | ht1
  · refine move d t h1 h2 ?_
    rw [qf_line A hA, hw]
    rw [hw] at hcurv
    have : t * ∑ i, grad A B x i * d i + t ^ 2 / 2 * -∑ i, grad A B x i * d i
        = t * (1 - t / 2) * ∑ i, grad A B x i * d i := by ring
    have e := mul_nonpos_of_nonneg_of_nonpos (mul_nonneg ht.le (by linarith : (0 : K) ≤ 1 - t / 2))
      (by linarith : ∑ i, grad A B x i * d i ≤ 0)
    linarith
  · have hc1 := h3 1 zero_le_one ht1
    simp only [one_mul] at hc1
    have hfree : free (fun i => x i + d i) = free x := by
      ext i
      rw [mem_free]
      constructor
      · intro h
        by_contra hi
        rw [hd i hi, add_zero] at h
        exact hi (mem_free.2 h)
      · exact hc1 i
    refine ⟨fun i => x i + d i, hC _ (fun i => ?_) (fun i hi => ?_) (by rwa [hfree]) (by rwa [hfree]), ?_⟩
    · by_cases hi : i ∈ free x
      · exact (hc1 i hi).le
      · simpa [hd i hi] using hx i
    · rw [hfree] at hi
      have := hsol i hi
      unfold grad at this ⊢
      simp only [mul_add, Finset.sum_add_distrib]
      linarith
    · have e := qf_line A hA B k x d 1
      simp only [one_mul] at e
      rw [e, hw]
      rw [hw] at hcurv
      linarith

theorem qf_neg (A : Matrix (Fin n) (Fin n) K) (B : Fin n → K) (k : K) (x : Fin n → K) :
    qf (-A) (fun i => -B i) (-k) x = -qf A B k x := by
  unfold qf
  simp only [Matrix.neg_apply, neg_mul, Finset.sum_neg_distrib]
  ring

/-- Every value of the quadratic function on the cube lies between values at candidate points. -/
theorem quad_range (A : Matrix (Fin n) (Fin n) K) (hA : A.IsSymm) (B : Fin n → K) (k : K) (C : (Fin n → K) → Prop)
    (hC : ∀ c, InCube c → (∀ i ∈ free c, grad A B c i = 0) → NonsingOn A (free c) →
      ((∀ i ∈ free c, 0 ≤ A i i) ∨ ∀ i ∈ free c, A i i ≤ 0) → C c)
    (x : Fin n → K) (hx : InCube x) :
    (∃ c, C c ∧ qf A B k c ≤ qf A B k x) ∧ ∃ c, C c ∧ qf A B k x ≤ qf A B k c := by
  constructor
  · exact quad_min A hA B k C (fun c h1 h2 h3 h4 => hC c h1 h2 h3 (.inl h4)) _ x hx rfl
  · have hC' : ∀ c, InCube c → (∀ i ∈ free c, grad (-A) (fun i => -B i) c i = 0) → NonsingOn (-A) (free c) →
        (∀ i ∈ free c, 0 ≤ (-A) i i) → C c := by
      intro c h1 h2 h3 h4
      refine hC c h1 (fun i hi => ?_) (fun v hv hz => ?_) (.inr fun i hi => ?_)
      · have := h2 i hi
        unfold grad at this ⊢
        simp only [Matrix.neg_apply, neg_mul, Finset.sum_neg_distrib] at this
        linarith
      · refine h3 v hv fun i hi => ?_
        simp only [Matrix.neg_apply, neg_mul, Finset.sum_neg_distrib, hz i hi, neg_zero]
      · have := h4 i hi
        simp only [Matrix.neg_apply] at this
        linarith
    obtain ⟨c, hc, hle⟩ := quad_min (-A) (by unfold Matrix.IsSymm; rw [Matrix.transpose_neg, hA.eq])
      (fun i => -B i) (-k) C hC' _ x hx rfl
    rw [qf_neg, qf_neg] at hle
    exact ⟨c, hc, by linarith⟩

end YRoots
